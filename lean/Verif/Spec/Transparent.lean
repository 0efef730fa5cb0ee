import Verif.Spec.RunEncE
/-!
Specification for C87: a struct with embedded structs holds what a struct with the promoted fields as its own would hold. `flatEnv` has
the struct types with the promoted fields in place of the embedded structs, and `Flat` says what of a variable of a declared type they hold.
-/
namespace JC.Spec
open JC

/-- The places of the members of a struct. -/
def places (env : PEnv) (mem : Nat → List (Bytes × List Nat)) (id : Nat) : List Place := (mem id).filterMap fun m => place env id m.2

/-- The struct types with the promoted fields as their own. -/
noncomputable def flatEnv (env : PEnv) (mem : Nat → List (Bytes × List Nat)) : TyEnv := fun id =>
  ⟨(places env mem id).map fun q => option q.field, (env id).meths⟩

/-- The names of these fields. -/
def flatDecls (w : Decls) (env : PEnv) (mem : Nat → List (Bytes × List Nat)) : Decls :=
  { w with names := fun id => (mem id).filterMap fun m => (place env id m.2).map fun _ => m.1 }

open Classical in
/-- Which of them have the option `omitempty`. -/
noncomputable def flatOmits (d : MDecls) (env : PEnv) (mem : Nat → List (Bytes × List Nat)) : MDecls :=
  { d with omits := fun id => (places env mem id).map fun q => decide (HasOption q.field.tag (bs! "omitempty")) }

/-- `Flat w env mem zs t v u`: where a variable of type `t` holds `v`, one of the type with the promoted fields as its own holds `u`: every struct at
any place within it has the values of the promoted fields, those behind nil pointers being zero. -/
inductive Flat (w : Decls) (env : PEnv) (mem : Nat → List (Bytes × List Nat)) (zs : Nat → DV) : NTy → DV → DV → Prop
  | base {t : Ty} (v : DV) : Flat w env mem zs (.base t) v v
  | sliceNil {t : NTy} : Flat w env mem zs (.slice t) .sliceNil .sliceNil
  | slice {t : NTy} {xs us sp su : List DV} : xs.length = us.length → (∀ (i : Nat) (x u : DV), xs[i]? = some x → us[i]? = some u → Flat w env mem zs t x u) →
      sp.length = su.length → (∀ (i : Nat) (x u : DV), sp[i]? = some x → su[i]? = some u → Flat w env mem zs t x u) →
      Flat w env mem zs (.slice t) (.slice xs sp) (.slice us su)
  | array {k : Nat} {t : NTy} {xs us : List DV} : xs.length = us.length → (∀ (i : Nat) (x u : DV), xs[i]? = some x → us[i]? = some u → Flat w env mem zs t x u) →
      Flat w env mem zs (.array k t) (.array xs) (.array us)
  | mapNil {k : KTy} {t : NTy} : Flat w env mem zs (.map k t) .mapNil .mapNil
  | map {k : KTy} {t : NTy} {xs us : List (MK × DV)} : xs.map (·.1) = us.map (·.1) →
      (∀ (i : Nat) (x u : MK × DV), xs[i]? = some x → us[i]? = some u → Flat w env mem zs t x.2 u.2) → Flat w env mem zs (.map k t) (.map xs) (.map us)
  | ptrNil {t : NTy} : Flat w env mem zs (.ptr t) .ptrNil .ptrNil
  | ptr {t : NTy} {x u : DV} : Flat w env mem zs t x u → Flat w env mem zs (.ptr t) (.ptr x) (.ptr u)
  | struct {id : Nat} {xs us : List DV} : (∀ q ∈ places env mem id, HasField zs q.way q.idx (.struct xs)) → (places env mem id).length = us.length →
      (∀ (i : Nat) (q : Place) (u : DV), (places env mem id)[i]? = some q → us[i]? = some u →
        Flat w env mem zs (fieldReading w env.ty (option q.field)) (look zs q.way q.idx (.struct xs)) u) →
      Flat w env mem zs (.ref id) (.struct xs) (.struct us)

/-- No embedded pointer on the way has an unexported type. -/
def OpenWay (hs : List Hop) : Prop := ∀ j id, Hop.ptr j true id ∉ hs

/-- No struct is a part of itself: structs are within each other at most `depth` deep. -/
def SizedP (env : PEnv) (depth : Nat) : Prop :=
  ∃ rank : Nat → Nat, (∀ id, rank id < depth) ∧ ∀ id, ∀ f ∈ (env id).fields, ∀ id' ∈ insideOf f.type, rank id' < rank id

/-- `Unmarshal` ends in the same way, leaving related variables. -/
def SameEnd (R : DV → DV → Prop) : URes → URes → Prop
  | .crash x, .crash y => x = y
  | .done v e, .done u e' => e = e' ∧ R v u
  | _, _ => False

end JC.Spec

import Verif.Model.RunEncE
import Verif.Spec.RunEmbed
import Verif.Spec.RunEnc
import Verif.Spec.Stray
/-!
Specification for C86: how a variable of a declared type with embedded structs is written. The members of a struct are those of Go's rule
(C40); a member is written as the type of its field says (C83); behind a nil pointer there are none.
-/
namespace JC.Spec
open JC

/-- What the field holds; nothing if there is a nil pointer on the way. -/
def found : List Hop → Nat → DV → Option DV
  | [], i, v => v.fields[i]?
  | .struct j :: hs, i, v =>
    match v.fields[j]? with
    | some x => found hs i x
    | none => none
  | .ptr j _ _ :: hs, i, v =>
    match v.fields[j]? with
    | some (.ptr x) => found hs i x
    | _ => none

/-- There is a pointer on the way. -/
def far : List Hop → Bool
  | [] => false
  | .struct _ :: hs => far hs
  | .ptr _ _ _ :: _ => true

/-- The first pointer on the way is nil. -/
def firstNil : List Hop → DV → Bool
  | [], _ => true
  | .struct j :: hs, v =>
    match v.fields[j]? with
    | some x => firstNil hs x
    | none => true
  | .ptr j _ _ :: _, v =>
    match v.fields[j]? with
    | some (.ptr _) => false
    | _ => true

/-- A field with its options. `V` is how values are written. -/
def optionView (w : Decls) (d : MDecls) (env : TyEnv) (V : DV → GT → Bool → GV) (x : DV) (a : Bool) : GT × Bool → GV
  | (.ptr e, true) => if (goScalar e).isSome then quotePtrView w d env x e a else V x (.ptr e) a
  | (t, q) => if q = true ∧ (goScalar t).isSome then quoteView w d env x t a else V x t a

open Classical in
/-- A member. Without `word`, as in `encoding/json`: there is none behind a nil pointer, and a field is addressable if the struct is or if there is a
pointer on the way. With `word`, as in the package: fields behind pointers carry what the test for `omitempty` answers. -/
noncomputable def member (word : Option (GT → Bool → Bool)) (w : Decls) (d : MDecls) (env : TyEnv) (V : DV → GT → Bool → GV) (name : Bytes) (q : Place) (v : DV) (a : Bool) :
    Option (FMeta × GV) :=
  let m : FMeta := ⟨name, decide (HasOption q.field.tag (bs! "omitempty"))⟩
  match found q.way q.idx v, word with
  | none, none => none
  | none, some word => some (m, .embNil (word q.field.type (firstNil q.way v)))
  | some x, none => some (m, optionView w d env V x (a || far q.way) (option q.field))
  | some x, some word =>
    let g := optionView w d env V x (a || far q.way) (option q.field)
    some (m, if far q.way then .emb g (word q.field.type false) else g)

/-- A value by its kind, see `kindView` of `Spec/RunEnc.lean`, which has no embedded structs; with room for `n` values within each other. -/
noncomputable def kindS (word : Option (GT → Bool → Bool)) (w : Decls) (d : MDecls) (env : PEnv) (mem : Nat → List (Bytes × List Nat)) : Nat → DV → GT → Bool → GV
  | 0, _, _, _ => .unsupported
  | n + 1, v, t, a =>
    let V : DV → GT → Bool → GV := fun v t a => answered env.ty d a t v (kindS word w d env mem n v t a)
    match v, t with
    | .slice xs _, .slice e _ => if goBytes e then .unsupported else .slice (xs.map fun x => V x e true)
    | .array xs, .array _ e _ => .array (xs.map fun x => V x e a)
    | .map es, .map k e _ =>
      if k.kind = .string ∧ e = .special .iface then toGV (.map es) .mapSI
      else if k.kind = .string ∧ e = .special .raw then toGV (.map es) .mapRaw
      else match keyView w k with
        | some key => .map (es.map fun x => (key x.1, V x.2 e false))
        | none => .unsupported
    | .ptr x, .ptr e => .ptr (V x e true)
    | .struct xs, .struct id => .struct ((mem id).filterMap fun m =>
        match place env id m.2 with
        | some q => member word w d env.ty V m.1 q (.struct xs) a
        | none => none)
    | v, t => kindView w d env.ty v t a    -- nothing within it

/-- How a variable of a declared type is written. -/
noncomputable def viewS (word : Option (GT → Bool → Bool)) (w : Decls) (d : MDecls) (env : PEnv) (mem : Nat → List (Bytes × List Nat)) (v : DV) (t : GT) : GV :=
  answered env.ty d false t v (kindS word w d env mem (sizeOf v) v t false)

mutual
/-- What is to be written of a value: no fields behind nil pointers, and no marks on those behind others. -/
def prune : GV → GV
  | .slice xs => .slice (pruneL xs)
  | .array xs => .array (pruneL xs)
  | .map es => .map (pruneE es)
  | .ptr v => .ptr (prune v)
  | .struct fs => .struct (pruneF fs)
  | .emb v _ => prune v
  | v => v
def pruneL : List GV → List GV
  | [] => []
  | v :: vs => prune v :: pruneL vs
def pruneE : List (MKey × GV) → List (MKey × GV)
  | [] => []
  | (k, v) :: es => (k, prune v) :: pruneE es
def pruneF : List (FMeta × GV) → List (FMeta × GV)
  | [] => []
  | (_, .embNil _) :: fs => pruneF fs
  | (m, v) :: fs => (m, prune v) :: pruneF fs
end

mutual
/-- In every struct the fields behind nil pointers come first, the test for `omitempty` behind other pointers answers as it would for the field
itself; and a struct with fields keeps one or is not indented. -/
def Neat (cf : Cfg) : GV → Prop
  | .slice xs => NeatL cf xs
  | .array xs => NeatL cf xs
  | .map es => NeatE cf es
  | .ptr v => Neat cf v
  | .struct fs => NilsFirst fs ∧ (fs = [] ∨ pruneF fs ≠ [] ∨ cf.ind = none) ∧ NeatF cf fs
  | .emb v _ => Neat cf v
  | _ => True
def NeatL (cf : Cfg) : List GV → Prop
  | [] => True
  | v :: vs => Neat cf v ∧ NeatL cf vs
def NeatE (cf : Cfg) : List (MKey × GV) → Prop
  | [] => True
  | (_, v) :: es => Neat cf v ∧ NeatE cf es
def NeatF (cf : Cfg) : List (FMeta × GV) → Prop
  | [] => True
  | (m, v) :: fs => (m.omitempty = true → ∀ g z, v = .emb g z → z = isEmpty (prune g)) ∧ Neat cf v ∧ NeatF cf fs
end

/-- No embedded pointer is nil in a variable, at any place within it, and no field behind one has the `omitempty` option. -/
inductive Settled (env : PEnv) (mem : Nat → List (Bytes × List Nat)) : GT → DV → Prop
  | flat {t : GT} {v : DV} : flatMem v = true → Settled env mem t v
  | slice {e : GT} {m : MSets} {xs sp : List DV} : (∀ x ∈ xs, Settled env mem e x) → Settled env mem (.slice e m) (.slice xs sp)
  | array {k : Nat} {e : GT} {m : MSets} {xs : List DV} : (∀ x ∈ xs, Settled env mem e x) → Settled env mem (.array k e m) (.array xs)
  | map {k : KeyTy} {e : GT} {m : MSets} {es : List (MK × DV)} : (∀ x ∈ es, Settled env mem e x.2) → Settled env mem (.map k e m) (.map es)
  | ptr {e : GT} {x : DV} : Settled env mem e x → Settled env mem (.ptr e) (.ptr x)
  | struct {id : Nat} {xs : List DV} :
      (∀ m ∈ mem id, ∀ q, place env id m.2 = some q → found q.way q.idx (.struct xs) ≠ none ∧ (far q.way = true → ¬ HasOption q.field.tag (bs! "omitempty"))) →
      (∀ m ∈ mem id, ∀ q x, place env id m.2 = some q → found q.way q.idx (.struct xs) = some x → Settled env mem q.field.type x) →
      Settled env mem (.struct id) (.struct xs)

end JC.Spec

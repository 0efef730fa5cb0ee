import Verif.Model.RunEnc
import Verif.Spec.Run
import Verif.Spec.Typed
import Verif.Lemmas.Stable
/-!
Specification for C83: how a variable of a declared type is written, by its methods, its kind and whether it is
addressable, following the rules of `encoding/json`; and the contents that variables of types without methods have.
-/
namespace JC.Spec
open JC Props

/-- The methods of a type. The types with functions of their own have these instead of methods. -/
def writeMeths (env : TyEnv) : GT → MSets
  | .special _ => {}
  | .basic _ m | .array _ _ m | .slice _ m | .map _ _ m | .other m => m
  | .ifc m => ⟨m, {}⟩
  | .ptr e => ⟨goPtrMeths env e, {}⟩
  | .struct id => (env id).meths

/-- Nil pointers and interfaces have methods that are not called. -/
def isNilRef : DV → Bool
  | .ptrNil | .ifaceNil => true
  | _ => false

/-- What the `omitempty` option drops: the empty values of `encoding/json`, and interfaces whose data word is nil. -/
def dropped (d : MDecls) (t : GT) : DV → Bool
  | .rawNil => true
  | .raw s => s == []
  | .iface _ v => v.nilWord
  | .user s => d.emptyU t s
  | v => isEmptyDV v

/-- The method of a value, or of its address if it is addressable, goes before its kind, and `MarshalJSON` before
`MarshalText`. -/
def answered (env : TyEnv) (d : MDecls) (a : Bool) (t : GT) (v : DV) (byKind : GV) : GV :=
  let m := writeMeths env t
  if m.val.jsonM = true ∨ a = true ∧ m.ptr.jsonM = true then
    .jsonM (if m.val.jsonM = true ∧ isNilRef v = true then .isNil else d.jsonM t v) (dropped d t v)
  else if m.val.textM = true ∨ a = true ∧ m.ptr.textM = true then
    .textM (if m.val.textM = true ∧ isNilRef v = true then .isNil else d.textM t v) (dropped d t v)
  else byKind

/-- Keys: strings as they are, then `MarshalText`, then integers. -/
def keyView (w : Decls) (k : KeyTy) : Option (MK → MKey) :=
  match k.kind with
  | .string | .stringLike => some (·.toKey .str)
  | .int i => some (if k.m.val.textM then (·.toKey (.text (w.key k))) else (·.toKey (.int i)))
  | _ => if k.m.val.textM then some (·.toKey (.text (w.key k))) else none

/-- Values without elements. -/
def leafView (w : Decls) (v : DV) : GT → GV
  | .special s => toGV v s.ty
  | .basic k _ => toGV v k.ty
  | .ifc m => toGV v (.ifaceM (w.empty m))
  | _ => .unsupported

/-- Scalars with the `string` option. -/
def quoteView (w : Decls) (d : MDecls) (env : TyEnv) (v : DV) (t : GT) (a : Bool) : GV :=
  answered env d a t v (.quoted (leafView w v t))

/-- Pointers to scalars with the `string` option: nil is not quoted. -/
def quotePtrView (w : Decls) (d : MDecls) (env : TyEnv) (v : DV) (e : GT) (a : Bool) : GV :=
  answered env d a (.ptr e) v (match v with
    | .ptrNil => .ptrNil
    | .ptr v => .ptr (quoteView w d env v e true)
    | _ => .unsupported)

mutual
/-- A value by its kind. Elements of arrays and fields are addressable if the array or struct is, those of slices and what
pointers point to always, those of maps never. -/
def kindView (w : Decls) (d : MDecls) (env : TyEnv) : DV → GT → Bool → GV
  | .sliceNil, .slice e _, _ => if goBytes e then .unsupported else .sliceNil
  | .slice xs _, .slice e _, _ => if goBytes e then .unsupported else .slice (viewL w d env xs e true)
  | .bytesNil, .slice e _, _ => if goBytes e then .bytesNil else .sliceNil
  | .bytes s _, .slice e _, _ => if goBytes e then .bytes s else .slice (s.map fun b => answered env d true e (.int b.toNat) (leafView w (.int b.toNat) e))
  | .array xs, .array _ e _, a => .array (viewL w d env xs e a)
  | .mapNil, .map k e _, _ =>
    if k.kind = .string ∧ (e = .special .iface ∨ e = .special .raw) then .mapNil
    else match keyView w k with
      | some _ => .mapNil
      | none => .unsupported
  | .map es, .map k e _, _ =>
    if k.kind = .string ∧ e = .special .iface then toGV (.map es) .mapSI
    else if k.kind = .string ∧ e = .special .raw then toGV (.map es) .mapRaw
    else match keyView w k with
      | some key => .map (viewE w d env es key e)
      | none => .unsupported
  | .ptrNil, .ptr _, _ => .ptrNil
  | .ptr v, .ptr e, _ => .ptr (answered env d true e v (kindView w d env v e true))
  | .struct xs, .struct id, a => .struct (viewF w d env xs (env id).fields (fieldMeta (w.names id) (d.omits id)) a)
  | v, t, _ => leafView w v t
def viewL (w : Decls) (d : MDecls) (env : TyEnv) : List DV → GT → Bool → List GV
  | [], _, _ => []
  | v :: vs, t, a => answered env d a t v (kindView w d env v t a) :: viewL w d env vs t a
def viewE (w : Decls) (d : MDecls) (env : TyEnv) : List (MK × DV) → (MK → MKey) → GT → List (MKey × GV)
  | [], _, _ => []
  | (k, v) :: es, key, t => (key k, answered env d false t v (kindView w d env v t false)) :: viewE w d env es key t
def viewF (w : Decls) (d : MDecls) (env : TyEnv) : List DV → List (GT × Bool) → List FMeta → Bool → List (FMeta × GV)
  | v :: vs, f :: fs, m :: ms, a =>
    (m, match f with
      | (.ptr e, true) => if (goScalar e).isSome then quotePtrView w d env v e a else answered env d a (.ptr e) v (kindView w d env v (.ptr e) a)
      | (t, q) => if q = true ∧ (goScalar t).isSome then quoteView w d env v t a else answered env d a t v (kindView w d env v t a)) ::
      viewF w d env vs fs ms a
  | _, _, _, _ => []
end

/-- How a variable of a declared type is written. -/
def view (w : Decls) (d : MDecls) (env : TyEnv) (v : DV) (t : GT) (a : Bool) : GV := answered env d a t v (kindView w d env v t a)

/-! ### Contents of variables -/

/-- Contents without elements. -/
def flatMem : DV → Bool
  | .slice _ _ | .array _ | .map _ | .ptr _ | .struct _ => false
  | _ => true

/-- Types without elements and without methods, `[]byte` and `map[string]interface{}`. -/
def leafTy : GT → Option Ty
  | .special s => if s = .raw then none else some s.ty
  | .basic k m => if m = {} then some k.ty else none
  | .slice e m => if m = {} ∧ e = .basic (.int .uint8) {} then some .bytes else none
  | .map k e m => if m = {} ∧ k.kind = .string ∧ e = .special .iface then some .mapSI else none
  | _ => none

/-- A key of a map. `UnmarshalText` makes it of the text that `MarshalText` makes of it. -/
def KeyHolds : KTy → MK → Prop
  | .str, .str s => Coerced s s
  | .int i, .int z => KindFits i z
  | .text tk, .user s => ∃ t, tk.marshal s = .ok t ∧ Coerced t t ∧ tk.answer t = none ∧ tk.key t = s
  | _, _ => False

/-- The `string` option: not of durations and of pointers to scalars. -/
def PlainQuote (f : GT × Bool) : Prop := f.2 = true → f.1 ≠ .special .duration ∧ ∀ e, f.1 = .ptr e → goScalar e = none

/-- `IsVar c w d env depth t v`: a variable of type `t`, without methods but for those of keys, with contents `v`. Strings
are UTF-8 (in `Fit`), no `json.Number` is empty (`told`), no pointer points to nil, maps are listed in the order of their keys.
Fields that `omitempty` drops are zero. -/
inductive IsVar (c : DCfg) (w : Decls) (d : MDecls) (env : TyEnv) (depth : Nat) : GT → DV → Prop
  | leaf {t : GT} {ty : Ty} {v : DV} : leafTy t = some ty → Fit c ty v → v.told → IsVar c w d env depth t v
  | sliceNil {e : GT} : (∀ m, e ≠ .basic (.int .uint8) m) → IsVar c w d env depth (.slice e {}) .sliceNil
  | slice {e : GT} {xs sp : List DV} : (∀ m, e ≠ .basic (.int .uint8) m) → (∀ x ∈ xs, IsVar c w d env depth e x) → IsVar c w d env depth (.slice e {}) (.slice xs sp)
  | array {e : GT} {xs : List DV} : (∀ x ∈ xs, IsVar c w d env depth e x) → IsVar c w d env depth (.array xs.length e {}) (.array xs)
  | mapNil {k : KeyTy} {e : GT} {kt : KTy} : e ≠ .special .iface → e ≠ .special .raw → KeyFairEnc k → KeyFairDec k → keyReading w k = some kt →
      IsVar c w d env depth (.map k e {}) .mapNil
  | map {k : KeyTy} {e : GT} {kt : KTy} {es : List (MK × DV)} : e ≠ .special .iface → e ≠ .special .raw → KeyFairEnc k → KeyFairDec k → keyReading w k = some kt →
      es.Pairwise (fun a b => a.1.text < b.1.text) → (∀ x ∈ es, KeyHolds kt x.1) → (∀ x ∈ es, IsVar c w d env depth e x.2) → IsVar c w d env depth (.map k e {}) (.map es)
  | ptrNil {e : GT} : goPtrMeths env e = {} → IsVar c w d env depth (.ptr e) .ptrNil
  | ptr {e : GT} {v : DV} : goPtrMeths env e = {} → isNilDV v = false → IsVar c w d env depth e v → IsVar c w d env depth (.ptr e) (.ptr v)
  | struct {id : Nat} {xs : List DV} : (env id).meths = {} → (w.names id).Pairwise (· ≠ ·) → (∀ n ∈ w.names id, Coerced n n) →
      xs.length = (env id).fields.length → (d.omits id).length = (env id).fields.length → (∀ f ∈ (env id).fields, PlainQuote f) →
      (∀ (i : Nat) (f : GT × Bool) (x : DV), (env id).fields[i]? = some f → xs[i]? = some x → IsVar c w d env depth f.1 x) →
      (∀ (i : Nat) (f : GT × Bool) (x : DV), (env id).fields[i]? = some f → xs[i]? = some x → (d.omits id)[i]? = some true → isEmptyDV x = true →
        clip x = zeroR (envReading w env) depth (fieldReading w env f)) →
      IsVar c w d env depth (.struct id) (.struct xs)

/-- No raw messages and no `UnmarshalJSON` in a type, up to structs. -/
def NoJsonU (env : TyEnv) : GT → Prop
  | .special s => s ≠ .raw
  | .basic _ m | .other m => m.ptr.jsonU = false
  | .ifc _ => True
  | .array _ e m | .slice e m | .map _ e m => m.ptr.jsonU = false ∧ NoJsonU env e
  | .ptr e => NoJsonU env e
  | .struct id => (env id).meths.ptr.jsonU = false

end JC.Spec

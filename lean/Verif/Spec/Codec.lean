import Verif.Model.Codec
/-!
Specification for C59: the choice of functions of `encoding/json` (`newTypeEncoder` and `indirect` of Go 1.17 and
later), by the kind of a type, its methods, and for encoding by whether the value is addressable.
-/
namespace JC.Spec
open JC

/-! ### Encoding -/

/-- A method is used if the value has it, or if the value is addressable and its address has it; `MarshalJSON` goes
before `MarshalText`. -/
def goChoose (m : MSets) (addr : Bool) (byKind : EC) : EC :=
  if m.val.jsonM = true ∨ addr = true ∧ m.ptr.jsonM = true then .jsonM (!m.val.jsonM)
  else if m.val.textM = true ∨ addr = true ∧ m.ptr.textM = true then .textM (!m.val.textM)
  else byKind

/-- Keys: strings as they are, then `MarshalText`, then integers in quotes. -/
def goKeyEnc (k : KeyTy) : Option EC :=
  match k.kind with
  | .string | .stringLike => some .key
  | .duration => some (if k.m.val.textM then .textM false else .quoted (.special .duration))
  | .int i => some (if k.m.val.textM then .textM false else .quoted (.basic (.int i)))
  | .other => if k.m.val.textM then some (.textM false) else none

/-- A slice of bytes is written in base64 unless pointers to its elements have a method. -/
def goBytes : GT → Bool
  | .basic (.int .uint8) m => !m.ptr.jsonM && !m.ptr.textM
  | _ => false

/-- The types with functions of their own have these instead of methods. -/
def goPtrMeths (env : TyEnv) : GT → Meths
  | .special _ => {}
  | t => t.ptrMeths env

/-- The elements of arrays are addressable if the array is, those of slices and what pointers point to always, and
the values of maps never. -/
def goEnc (env : TyEnv) : GT → Bool → EC
  | .special s, _ => .special s
  | .basic k m, a => goChoose m a (.basic k)
  | .ifc m, a => goChoose ⟨m, {}⟩ a .ifc
  | .array n e m, a => goChoose m a (.array n (goEnc env e a))
  | .slice e m, a => goChoose m a (if goBytes e then .bytes else .slice (goEnc env e true))
  | .map k e m, a => goChoose m a
      (if k.kind = .string ∧ e = .special .iface then .mapSI
       else if k.kind = .string ∧ e = .special .raw then .mapRaw
       else match goKeyEnc k with
        | none => .unsupported
        | some kc => .map kc (goEnc env e false))
  | .ptr e, a => goChoose ⟨goPtrMeths env e, {}⟩ a (.ptr (goEnc env e true))
  | .struct id, a => goChoose (env id).meths a (.struct id)
  | .other m, a => goChoose m a .unsupported

/-- The functions that the `string` option quotes: those of strings, numbers and booleans. -/
def quotable : EC → Bool
  | .basic _ => true
  | .special .number | .special .duration => true
  | _ => false

/-- The `string` option has no effect on methods, and nil pointers are `null`. -/
def goQuote : EC → EC
  | .ptr e => if quotable e then .ptr (.quoted e) else .ptr e
  | e => if quotable e then .quoted e else e

/-- A field in an addressable or not addressable struct. -/
def goFieldEnc (env : TyEnv) (a : Bool) (f : GT × Bool) : EC := if f.2 then goQuote (goEnc env f.1 a) else goEnc env f.1 a

/-! ### Decoding -/

/-- The destination is always addressable. -/
def goChooseDec (m : Meths) (byKind : DC) : DC :=
  if m.jsonU then .jsonU true else if m.textU then .textU true else byKind

/-- Keys: `UnmarshalText`, then strings, then integers. -/
def goKeyDec (k : KeyTy) : Option DC :=
  if k.m.ptr.textU then some (.textU true)
  else match k.kind with
    | .string | .stringLike => some (.basic .string)
    | .duration => some (.quoted (.special .duration))
    | .int i => some (.quoted (.basic (.int i)))
    | .other => none

/-- A slice of bytes is read from base64 unless pointers to its elements have a method. (Otherwise `encoding/json` reads
both base64 and an array.) -/
def goBytesDec : GT → Bool
  | .basic (.int .uint8) m => !m.ptr.jsonU && !m.ptr.textU
  | _ => false

def goDec (env : TyEnv) : GT → DC
  | .special s => .special s
  | .basic k m => goChooseDec m.ptr (.basic k)
  | .ifc _ => .ifc
  | .array n e m => goChooseDec m.ptr (.array n (goDec env e))
  | .slice e m => goChooseDec m.ptr (if goBytesDec e then .bytes else .slice (goDec env e))
  | .map k e m => goChooseDec m.ptr
      (if k.kind = .string ∧ e = .special .iface then .mapSI
       else if k.kind = .string ∧ e = .special .raw then .mapRaw
       else match goKeyDec k with
        | none => .unsupported
        | some kc => .map kc (goDec env e))
  | .ptr e => .ptr (goDec env e)
  | .struct id => goChooseDec (env id).meths.ptr (.struct id)
  | .other m => goChooseDec m.ptr .unsupported

/-- The type is a string, number or boolean, and whether it is an integer. -/
def goScalar : GT → Option Bool
  | .special .number => some false
  | .special .duration => some true
  | .basic (.int _) _ => some true
  | .basic _ _ => some false
  | _ => none

/-- Where a pointer points to. -/
def goPointee : GT → GT
  | .ptr e => e
  | t => t

/-- With the `string` option, values of scalars and of pointers to them are read from a string. -/
def goFieldDec (env : TyEnv) (f : GT × Bool) : DC :=
  if f.2 then
    match goScalar (goPointee f.1) with
    | some true => .quotedInt (goDec env f.1)
    | some false => .quoted (goDec env f.1)
    | none => goDec env f.1
  else goDec env f.1

/-! ### Which structs are met -/

/-- The structs in a type, with whether they are addressable there. -/
def ctx : GT → Bool → List (Nat × Bool)
  | .array _ e _, a => ctx e a
  | .slice e _, _ => ctx e true
  | .map _ e _, _ => ctx e false
  | .ptr e, _ => ctx e true
  | .struct id, a => [(id, a)]
  | _, _ => []

/-- The structs that a value of type `t` can contain. -/
inductive Meets (env : TyEnv) (t : GT) : Nat → Bool → Prop
  | root {id : Nat} {a : Bool} : (id, a) ∈ ctx t false → Meets env t id a
  | field {id id' : Nat} {a a' : Bool} {f : GT × Bool} : Meets env t id a → f ∈ (env id).fields → (id', a') ∈ ctx f.1 a → Meets env t id' a'

/-- All struct types are among the first `count`. -/
def Closed (env : TyEnv) (count : Nat) (t : GT) : Prop :=
  (∀ x ∈ ctx t false, x.1 < count) ∧ ∀ id, id < count → ∀ f ∈ (env id).fields, ∀ x ∈ ctx f.1 false, x.1 < count

/-! ### Types of Go -/

/-- A pointer has the methods of what it points to. -/
def MethsLe (a b : Meths) : Prop :=
  (a.jsonM = true → b.jsonM = true) ∧ (a.textM = true → b.textM = true) ∧ (a.jsonU = true → b.jsonU = true) ∧ (a.textU = true → b.textU = true)

def Declarable (m : MSets) : Prop := MethsLe m.val m.ptr

/-- Types that can be declared: pointers have the methods of values, and the types `string` and `time.Duration` have no
methods. -/
def GoType : GT → Prop
  | .special _ | .ifc _ | .struct _ => True
  | .basic _ m | .other m => Declarable m
  | .array _ e m | .slice e m => Declarable m ∧ GoType e
  | .map k e m => Declarable m ∧ Declarable k.m ∧ (k.kind = .string ∨ k.kind = .duration → k.m = {}) ∧ GoType e
  | .ptr e => GoType e

def GoEnv (env : TyEnv) : Prop := ∀ id, Declarable (env id).meths ∧ ∀ f ∈ (env id).fields, GoType f.1

/-- The encoding functions that `encoding/json` would choose, for the type and for the fields of all structs that
its values can contain. -/
def RightEnc (env : TyEnv) (t : GT) (r : Codec × CSeen) : Prop :=
  r.1.1 = goEnc env t false ∧
  ∀ id a, Meets env t id a → ∃ cs, r.2 id = some (some cs) ∧ cs.map Prod.fst = (env id).fields.map (goFieldEnc env a)

/-- The same for decoding. -/
def RightDec (env : TyEnv) (t : GT) (r : Codec × CSeen) : Prop :=
  r.1.2 = goDec env t ∧
  ∀ id a, Meets env t id a → ∃ cs, r.2 id = some (some cs) ∧ cs.map Prod.snd = (env id).fields.map (goFieldDec env)

/-! ### Where the package agrees -/

/-- No type has `MarshalText` while only its pointers have `MarshalJSON`. -/
def Unmixed (m : MSets) : Prop := ¬ (m.val.textM = true ∧ m.val.jsonM = false ∧ m.ptr.jsonM = true)

/-- Key types of the kind of strings have no text methods, integers no `MarshalJSON`, and no key has `UnmarshalText` only. -/
def KeyFairEnc (k : KeyTy) : Prop :=
  if k.m.val.textM = true ∨ k.m.ptr.textU = true then k.m.val.textM = true ∧ k.kind ≠ .string ∧ k.kind ≠ .stringLike
  else ∀ i, k.kind = .int i → k.m.val.jsonM = false

def FairEnc (env : TyEnv) : GT → Prop
  | .special _ | .ifc _ => True
  | .basic _ m | .other m => Unmixed m
  | .array _ e m | .slice e m => Unmixed m ∧ FairEnc env e
  | .map k e m => Unmixed m ∧ KeyFairEnc k ∧ FairEnc env e
  | .ptr e => FairEnc env e
  | .struct id => Unmixed (env id).meths

/-- The `string` option is not used with pointers to scalars, nor with scalars that have methods. -/
def FairQuote (f : GT × Bool) : Prop :=
  f.2 = true → match f.1 with
    | .ptr e => goScalar e = none
    | .basic _ m => m.ptr.jsonM = false ∧ m.ptr.textM = false
    | _ => True

/-- No key has `MarshalText` only, integer keys have no `UnmarshalJSON`, and bytes that are elements of slices no
unmarshaling methods with value receivers. -/
def KeyFairDec (k : KeyTy) : Prop :=
  if k.m.val.textM = true ∨ k.m.ptr.textU = true then k.m.ptr.textU = true
  else ∀ i, k.kind = .int i → k.m.ptr.jsonU = false

def FairDec : GT → Prop
  | .special _ | .ifc _ | .basic _ _ | .other _ | .struct _ => True
  | .array _ e _ | .ptr e => FairDec e
  | .slice e _ => FairDec e ∧ match e with | .basic (.int .uint8) m => m.val.jsonU = false ∧ m.val.textU = false | _ => True
  | .map k e _ => KeyFairDec k ∧ FairDec e

/-- No methods with pointer receivers for encoding. -/
def SameMeths (m : MSets) : Prop := m.ptr.jsonM = m.val.jsonM ∧ m.ptr.textM = m.val.textM

def NoPtrOnly (env : TyEnv) : GT → Prop
  | .special _ | .ifc _ => True
  | .basic _ m | .other m => SameMeths m
  | .array _ e m | .slice e m | .map _ e m => SameMeths m ∧ NoPtrOnly env e
  | .ptr e => NoPtrOnly env e
  | .struct id => SameMeths (env id).meths

/-- No maps in the type, up to structs. -/
def NoMap : GT → Prop
  | .map _ _ _ => False
  | .array _ e _ | .slice e _ | .ptr e => NoMap e
  | _ => True

end JC.Spec

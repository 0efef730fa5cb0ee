import Verif.Model.Promote
import Verif.Spec.Codec
import Verif.Spec.StructFields
/-!
Specification for C79: which field a member of a struct belongs to, through embedded structs, and how it should be
encoded and decoded.
-/
namespace JC.Spec
open JC

/-- The struct type that a field embeds, and whether by a pointer. -/
def embeds (f : PField) : Option (Nat × Bool) :=
  if f.anonymous = true ∧ tagText f.tag = [] then
    match f.type with
    | .struct id => some (id, false)
    | .ptr (.struct id) => some (id, true)
    | _ => none
  else none

/-- The field, or what it embeds, has a part in the encoding: it is exported, or embeds a struct, or is embedded and has a name by
its tag. -/
def Shown (f : PField) : Prop :=
  f.tag ≠ bs! "-" ∧ (f.unexported = true → f.anonymous = true) ∧
  (f.anonymous = true → tagText f.tag = [] → f.type.isTime = false ∧ (f.unexported = true → embeds f ≠ none))

/-- Following the field numbers `p` from struct `id`, through embedded structs, leads to field `f` of struct `k`; `via` are the
embedded pointers on the way, by whether their types are unexported. -/
inductive Reaches (env : PEnv) : Nat → List Nat → Nat → PField → List Bool → Prop
  | here (id i : Nat) (f : PField) : (env id).fields[i]? = some f → Shown f → embeds f = none → Reaches env id [i] id f []
  | there (id i : Nat) (f : PField) (id' : Nat) (ptr : Bool) (p : List Nat) (k : Nat) (g : PField) (via : List Bool) :
      (env id).fields[i]? = some f → Shown f → embeds f = some (id', ptr) → Reaches env id' p k g via →
      Reaches env id (i :: p) k g (if ptr then f.unexported :: via else via)

/-- The structs that a value of type `t` can contain, and whether they are addressable there: what a pointer points
to is, the fields of a struct are if the struct is. -/
inductive Contains (env : PEnv) (t : GT) : Nat → Bool → Prop
  | root {id : Nat} {a : Bool} : (id, a) ∈ ctx t false → Contains env t id a
  | field {id id' : Nat} {a a' : Bool} {f : PField} : Contains env t id a → f ∈ (env id).fields → Shown f → (id', a') ∈ ctx f.type a →
      Contains env t id' a'

/-- The same, but for embedded pointers, which count as embedded structs. -/
inductive Treats (env : PEnv) (t : GT) : Nat → Bool → Prop
  | root {id : Nat} {a : Bool} : (id, a) ∈ ctx t false → Treats env t id a
  | field {id id' : Nat} {a a' : Bool} {f : PField} : Treats env t id a → f ∈ (env id).fields → Shown f → embeds f = none → (id', a') ∈ ctx f.type a →
      Treats env t id' a'
  | embed {id id' : Nat} {a ptr : Bool} {f : PField} : Treats env t id a → f ∈ (env id).fields → Shown f → embeds f = some (id', ptr) → Treats env t id' a

/-- All struct types are among the first `count`. -/
def ClosedP (env : PEnv) (count : Nat) (t : GT) : Prop :=
  (∀ x ∈ ctx t false, x.1 < count) ∧ ∀ id, id < count → ∀ f ∈ (env id).fields, ∀ x ∈ ctx f.type false, x.1 < count

/-- Field names are identifiers. -/
def Named (env : PEnv) : Prop := ∀ id, ∀ f ∈ (env id).fields, f.goName ≠ bs! "-"

/-- Types that can be declared. -/
def GoEnvP (env : PEnv) : Prop := ∀ id, Declarable (env id).meths ∧ ∀ f ∈ (env id).fields, GoType f.type

/-- An option in a tag: it stands behind a comma, and before another one or at the end. -/
def HasOption (tag o : Bytes) : Prop := ∃ a b, tag = a ++ ch! ',' :: (o ++ b) ∧ (b = [] ∨ ∃ b', b = ch! ',' :: b')

open Classical in
/-- The type of a field with whether it has the `string` option. -/
noncomputable def option (f : PField) : GT × Bool := (f.type, decide (HasOption f.tag (bs! "string")))

/-- Every member of every struct in values of type `t` has the encoding function that `encoding/json` gives to the field it stands for: a
promoted field is addressable if the struct is, or if there is a pointer on the way. -/
def RightEncP (env : PEnv) (t : GT) (r : Codec × PSeen) : Prop :=
  r.1.1 = goEnc env.ty t false ∧
  ∀ id a, Contains env t id a → ∃ ss, r.2 id = some (some ss) ∧ ∀ s ∈ ss, ∃ k f, Reaches env id s.sf.path k f s.via ∧
    s.codec.1 = goFieldEnc env.ty (a || !s.via.isEmpty) (option f)

/-- The same for decoding. -/
def RightDecP (env : PEnv) (t : GT) (r : Codec × PSeen) : Prop :=
  r.1.2 = goDec env.ty t ∧
  ∀ id a, Contains env t id a → ∃ ss, r.2 id = some (some ss) ∧ ∀ s ∈ ss, ∃ k f, Reaches env id s.sf.path k f s.via ∧
    s.codec.2 = goFieldDec env.ty (option f)

end JC.Spec

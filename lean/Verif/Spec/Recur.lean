import Verif.Model.Recur
/-!
Specification for C80: decoding into recursive types.
-/
namespace JC.Spec
open JC

/-- The struct types that a value of the type has directly inside: not behind a pointer, slice or map. -/
def NTy.inside : NTy → List Nat
  | .array _ t => NTy.inside t
  | .ref id => [id]
  | _ => []

/-- Go's rule for recursive types: no struct is inside itself. `depth` bounds how deep they are inside each other. -/
def GoRec (env : REnv) (depth : Nat) : Prop :=
  ∃ rank : Nat → Nat, (∀ id, rank id < depth) ∧ ∀ id, ∀ f ∈ env id, ∀ id' ∈ NTy.inside f.2, rank id' < rank id

/-- The opening braces in a text. -/
def braces (b : Bytes) : Nat := b.count (ch! '{')

/-- A type with `structs` in place of the struct types. -/
def unrollWith (structs : Nat → Ty) : NTy → Ty
  | .base t => t
  | .slice t => .slice (unrollWith structs t)
  | .array k t => .array k (unrollWith structs t)
  | .map k t => .map k (unrollWith structs t)
  | .ptr t => .ptr (unrollWith structs t)
  | .ref id => structs id

/-- A type written out: struct types are replaced by their fields, `n` times one inside the other. -/
def unroll (env : REnv) : Nat → NTy → Ty
  | 0 => unrollWith fun _ => .struct []
  | n + 1 => unrollWith fun id => .struct ((env id).map fun f => (f.1, unroll env n f.2))

/-- The equations of decoding functions that refer to each other: a struct is decoded with the functions of the types of
its fields, among which it may be itself. -/
structure Solves (c : DCfg) (dyn : Ty → Dec) (env : REnv) (depth : Nat) (D : NTy → Dec) : Prop where
  base : ∀ t, D (.base t) = dec c dyn t
  slice : ∀ t, D (.slice t) = decodeSlice (D t) (zeroR env depth t)
  array : ∀ n t, D (.array n t) = decodeArray n (D t) (zeroR env depth t)
  map : ∀ k t, D (.map k t) = decodeMap k (D t) (zeroR env depth t)
  ptr : ∀ t, D (.ptr t) = decodePointer t.isPtr (D t) (zeroR env depth t)
  ref : ∀ id, D (.ref id) = decodeStruct c ((env id).map (·.1)) ((env id).map fun f => D f.2)

end JC.Spec

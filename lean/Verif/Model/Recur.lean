import Verif.Model.Decode
/-!
Decoding into recursive types: `/repo/codec.go:434-483`, `/repo/decode.go:868-955`.

`Model/Decode.lean` has finite types. In Go a struct type may occur in itself, behind pointers, slices
or maps; `constructStructType` makes one `structType` for it, and the decoding function of every occurrence is a
closure that refers to this one `structType` (434-440, 479-483). Here struct types are numbered, and a type refers
to them by number; `decR` runs the closures, with room for `n` calls of `decodeStruct` on the stack.

Types that come back to themselves without a struct in between have no codec at all (C69). The other simplifications
are those of `Model/Decode.lean`.
-/
namespace JC

/-- Types of destinations that may refer to struct types. -/
inductive NTy where
  /-- a type without such references -/
  | base (t : Ty)
  | slice (t : NTy)
  | array (n : Nat) (t : NTy)
  | map (k : KTy) (t : NTy)
  | ptr (t : NTy)
  /-- a struct type -/
  | ref (id : Nat)

/-- The fields of all struct types, with their names. -/
abbrev REnv := Nat → List (Bytes × NTy)

/-- `t.Kind() == reflect.Pointer` -/
def NTy.isPtr : NTy → Bool
  | .base t => t.isPtr
  | .ptr _ => true
  | _ => false

/-- The zero value of a type, with `structs` for those of struct types. -/
def zeroWith (structs : Nat → DV) : NTy → DV
  | .base t => zero t
  | .slice _ => .sliceNil
  | .array k t => .array (List.replicate k (zeroWith structs t))
  | .map _ _ => .mapNil
  | .ptr _ => .ptrNil
  | .ref id => structs id

/-- The zero value of a type; structs directly within each other at most `n` deep. -/
def zeroR (env : REnv) : Nat → NTy → DV
  | 0 => zeroWith fun _ => .struct []
  | n + 1 => zeroWith fun id => .struct ((env id).map fun f => zeroR env n f.2)

/-- The decoding function of a type, `/repo/codec.go:79-213`, with `structs` for those of struct types and `z` for
zero values. -/
def decWith (c : DCfg) (dyn : Ty → Dec) (structs : Nat → Dec) (z : NTy → DV) : NTy → Dec
  | .base t => dec c dyn t
  | .slice t => decodeSlice (decWith c dyn structs z t) (z t)
  | .array n t => decodeArray n (decWith c dyn structs z t) (z t)
  | .map k t => decodeMap k (decWith c dyn structs z t) (z t)
  | .ptr t => decodePointer t.isPtr (decWith c dyn structs z t) (z t)
  | .ref id => structs id

/-- `decodeStruct` called through the closures, with room for `n` calls. `depth` bounds how deep structs are directly within
each other. -/
def structR (c : DCfg) (dyn : Ty → Dec) (env : REnv) (depth : Nat) : Nat → Nat → Dec
  | 0, _ => fun _ _ => .crash .fuel
  | n + 1, id => decodeStruct c ((env id).map (·.1)) ((env id).map fun f => decWith c dyn (structR c dyn env depth n) (zeroR env depth) f.2)

/-- The decoding function of a type, with room for `n` nested calls of `decodeStruct`. -/
def decR (c : DCfg) (dyn : Ty → Dec) (env : REnv) (depth n : Nat) : NTy → Dec :=
  decWith c dyn (structR c dyn env depth n) (zeroR env depth)

/-- Decoding where pointers in interfaces are followed at most `k` deep (see `decN`). -/
def decNR (c : DCfg) (env : REnv) (depth n : Nat) : Nat → NTy → Dec
  | 0 => decR c (fun _ _ _ => .crash .fuel) env depth n
  | k + 1 => decR c (decN c k) env depth n

/-- `Unmarshal` into a non-nil pointer, `/repo/json.go:193-205`. -/
def unmarshalR (c : DCfg) (env : REnv) (depth n k : Nat) (t : NTy) (b : Bytes) (p : DV) : URes :=
  match parseInto (decNR c env depth n k t) b p with
  | .crash x => .crash x
  | .ok v r => .done v (if r ≠ [] then some .syntax else none)
  | .err v r e => .done v (if r ≠ [] then some .syntax else some e)

end JC

import Verif.Model.Run
import Verif.Spec.Codec
/-!
Specification for C82: what a declared type is for decoding. The types of `Model/Recur.lean` say what a variable holds
and how a document is read into it; a declared type is one of those by its methods and its kind.
-/
namespace JC.Spec
open JC

/-- A type whose pointers have `UnmarshalJSON` or `UnmarshalText` is read by that method, whatever its kind. -/
def byMethod (w : Decls) (m : Meths) (t : GT) (byKind : NTy) : NTy :=
  if m.jsonU then .base (.jsonU (w.jsonU t)) else if m.textU then .base (.textU (w.textU t)) else byKind

/-- Keys: by `UnmarshalText`, or a string, or an integer. -/
def keyReading (w : Decls) (k : KeyTy) : Option KTy :=
  if k.m.ptr.textU then some (.text (w.key k))
  else match k.kind with
    | .string | .stringLike => some .str
    | .int i => some (.int i)
    | _ => none

/-- Bytes that are read as a number: a slice of those is read from base64. -/
def plainByte : GT → Bool
  | .basic (.int .uint8) m => !m.ptr.jsonU && !m.ptr.textU
  | _ => false

/-- What a declared type is. -/
def reading (w : Decls) (env : TyEnv) : GT → NTy
  | .special s => .base s.ty
  | .basic k m => byMethod w m.ptr (.basic k m) (.base k.ty)
  | .ifc m => .base (.ifaceM (w.empty m))
  | .array n e m => byMethod w m.ptr (.array n e m) (.array n (reading w env e))
  | .slice e m => byMethod w m.ptr (.slice e m) (if plainByte e then .base .bytes else .slice (reading w env e))
  | .map k e m => byMethod w m.ptr (.map k e m)
      (if k.kind = .string ∧ e = .special .iface then .base .mapSI
       else if k.kind = .string ∧ e = .special .raw then .base .mapRaw
       else match keyReading w k with
        | some kt => .map kt (reading w env e)
        | none => .base .unsupported)
  | .ptr e => .ptr (reading w env e)
  | .struct id => byMethod w (env id).meths.ptr (.struct id) (.ref id)
  | .other m => byMethod w m.ptr (.other m) (.base .unsupported)

/-- The contents of a string option: scalars and pointers to scalars have no struct types in them. -/
def scalarTy : NTy → Ty
  | .base t => t
  | .ptr (.base t) => .ptr t
  | _ => .unsupported

/-- A field: with the `string` option, scalars and pointers to scalars are read from a string. -/
def fieldReading (w : Decls) (env : TyEnv) (f : GT × Bool) : NTy :=
  if f.2 then
    match goScalar (goPointee f.1) with
    | some true => .base (.quotedInt (scalarTy (reading w env f.1)))
    | some false => .base (.quoted (scalarTy (reading w env f.1)))
    | none => reading w env f.1
  else reading w env f.1

/-- The struct types. -/
def envReading (w : Decls) (env : TyEnv) : REnv := fun id => (w.names id).zip ((env id).fields.map (fieldReading w env))

/-- No map in the type has keys of type `time.Duration`. -/
def NoDurKeys : GT → Prop
  | .array _ e _ | .slice e _ | .ptr e => NoDurKeys e
  | .map k e _ => k.kind ≠ .duration ∧ NoDurKeys e
  | _ => True

/-- Every field has a name. -/
def HasNames (w : Decls) (env : TyEnv) : Prop := ∀ id, (w.names id).length = (env id).fields.length

/-- The structs that are a part of a value of the type. -/
def insideOf : GT → List Nat
  | .array _ e _ => insideOf e
  | .struct id => [id]
  | _ => []

/-- No struct is a part of itself: structs are within each other at most `depth` deep. -/
def Sized (env : TyEnv) (depth : Nat) : Prop :=
  ∃ rank : Nat → Nat, (∀ id, rank id < depth) ∧ ∀ id, ∀ f ∈ (env id).fields, ∀ id' ∈ insideOf f.1, rank id' < rank id

end JC.Spec

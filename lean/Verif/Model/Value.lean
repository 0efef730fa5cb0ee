import Verif.Model.Decode
import Verif.Model.Encoder
/-!
Contents of destinations as values for the encoder.

A Go variable of type `t` with contents `v` is described by `Ty` and `DV` for the
decoder (`Model/Decode.lean`) and by `GV` for the encoder (`Model/Encode.lean`); both
follow the codec that `constructCodec`, `/repo/codec.go:79-213`, selects for `t`.
`toGV` relates the two descriptions.

Simplifications: no struct field has the `omitempty` option (the decoder ignores it, so `Ty`
does not record it), and user-defined types, which are decoded by an `Unmarshaler` only, are
not given a `Marshaler`.
-/
namespace JC

/-- The signed integer kinds, `/repo/codec.go:123-136`. -/
def IntKind.signed : IntKind → Bool
  | .int | .int8 | .int16 | .int32 | .int64 => true
  | _ => false

/-- Is the data word of an interface holding this value nil? Interfaces hold pointers and maps
directly, and structs and arrays of one such element (compare `inlined`, `/repo/codec.go:829-840`). -/
def DV.nilWord : DV → Bool
  | .ptrNil => true
  | .mapNil => true
  | .struct [v] => v.nilWord
  | .array [v] => v.nilWord
  | _ => false

/-- The key of a map, by the key codec of `/repo/codec.go:355-406`. -/
def MK.toKey : KTy → MK → MKey
  | .str, .str s => .str s
  | .str, .int z => .str (fmtInt z)
  | .int k, .int z => if k.signed then .int z else .uint z.toNat
  | .int _, .str s => .str s
  | .text tk, .user s => .text (tk.marshal s)
  | _, k => .str k.text

/-- A key that is a string. -/
def MK.str! : MK → Bytes
  | .str s => s
  | .int z => fmtInt z
  | .user s => s

/-- The bytes of a raw message. -/
def DV.raw? : DV → Option Bytes
  | .raw s => some s
  | _ => none

instance (s : Bytes) : Decidable (TimeText s) := inferInstanceAs (Decidable (∀ c ∈ s, _))

mutual
/-- The value that the encoder sees in a variable of type `t` with the given contents. -/
def toGV : DV → Ty → GV
  | .bool v, .bool => .bool v
  | .int z, .int k => if k.signed then .int z else .uint z.toNat
  | .int z, .duration => .int z
  | .float f, .float32 => .float f
  | .float f, .float64 => .float f
  | .number s, .number => .number s
  | .string s, .string => .string s
  | .bytesNil, .bytes => .bytesNil
  | .bytes s _, .bytes => .bytes s
  | .time s, .time => if h : TimeText s then .time s h else .unsupported
  | .rawNil, .raw => .rawNil
  | .raw s, .raw => .raw s
  | .ifaceNil, .iface => .nil
  | .ifaceNil, .ifaceM _ => .nil
  | .iface t v, .iface => .iface (toGV v t) v.nilWord
  | .iface t v, .ifaceM _ => .iface (toGV v t) v.nilWord
  | .sliceNil, .slice _ => .sliceNil
  | .slice xs _, .slice t => .slice (toGVs xs t)
  | .array xs, .array _ t => .array (toGVs xs t)
  | .mapNil, .map _ _ => .mapNil
  | .mapNil, .mapSI => .mapNil
  | .mapNil, .mapRaw => .mapNil
  | .map es, .map k t => .map (toGVe es k t)
  | .map es, .mapSI => .mapSI (toGVm es)
  | .map es, .mapRaw => .mapRaw (es.map fun e => (e.1.str!, e.2.raw?))
  | .ptrNil, .ptr _ => .ptrNil
  | .ptr v, .ptr t => .ptr (toGV v t)
  | .struct xs, .struct fs => .struct (toGVf xs fs)
  | v, .quoted t => .quoted (quotedGV v t)
  | v, .quotedInt t => .quoted (quotedGV v t)
  | _, _ => .unsupported
/-- The value in a field with the `string` option: scalars and pointers to scalars. -/
def quotedGV : DV → Ty → GV
  | .bool v, .bool => .bool v
  | .int z, .int k => if k.signed then .int z else .uint z.toNat
  | .int z, .duration => .int z
  | .float f, .float32 => .float f
  | .float f, .float64 => .float f
  | .number s, .number => .number s
  | .string s, .string => .string s
  | .ptrNil, .ptr _ => .ptrNil
  | .ptr v, .ptr t => .ptr (quotedGV v t)
  | _, _ => .unsupported
def toGVs : List DV → Ty → List GV
  | [], _ => []
  | v :: vs, t => toGV v t :: toGVs vs t
def toGVe : List (MK × DV) → KTy → Ty → List (MKey × GV)
  | [], _, _ => []
  | (k, v) :: es, kt, t => (k.toKey kt, toGV v t) :: toGVe es kt t
def toGVm : List (MK × DV) → List (Bytes × GV)
  | [] => []
  | (k, v) :: es => (k.str!, toGV v .iface) :: toGVm es
def toGVf : List DV → List (Bytes × Ty) → List (FMeta × GV)
  | v :: vs, (n, t) :: fs => (⟨n, false⟩, toGV v t) :: toGVf vs fs
  | _, _ => []
end

end JC

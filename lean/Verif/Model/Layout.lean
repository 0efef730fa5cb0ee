import Verif.Model.Basic
/-!
Offsets of fields in bytes, `/repo/codec.go:504-645`, and the memory that `encodeStruct`, `decodeStruct` and the
functions of `emptyFuncOf` use at these offsets (`/repo/encode.go:706-710, 764-770`, `/repo/decode.go:940,
957-969`, `/repo/codec.go:861-917`).

A type is reduced to its kind, size and alignment on a 64-bit machine. The offset of a field in its own struct and the
size of a struct come from the compiler; they are modelled by its rule (`LF.up`, `structEnd`, `structSize`), leaving out
the byte that is added behind a last field of size zero. Names are left out: all fields of embedded structs are
candidates here, and those that are selected (`Model/Fields.lean`) are among them.
-/
namespace JC

/-- The kind of a field's type. -/
inductive LK where
  | bool
  /-- integers and floats of `2^e` bytes -/
  | num (e : Nat)
  | string
  | slice
  | map
  | ptr
  | iface
  /-- an array of `n` elements, with its size and alignment `2^e` -/
  | array (n size e : Nat)
  /-- a struct, with its size and alignment `2^e` -/
  | struct (size e : Nat)
deriving DecidableEq, Repr

/-- `reflect.Type.Size`. -/
def LK.size : LK → Nat
  | .bool => 1
  | .num e => 2 ^ e
  | .string => 16
  | .slice => 24
  | .map => 8
  | .ptr => 8
  | .iface => 16
  | .array _ s _ => s
  | .struct s _ => s

/-- `reflect.Type.Align` is two to the power of this. -/
def LK.al : LK → Nat
  | .bool => 0
  | .num e => e
  | .array _ _ e => e
  | .struct _ e => e
  | _ => 3

/-- A field of a struct type: one with a codec of its own and perhaps `omitempty`, an embedded struct, an embedded
pointer to a struct. -/
inductive LF where
  | leaf (omitempty : Bool) (k : LK)
  | val (fs : List LF)
  | ptr (fs : List LF)

/-- `off` rounded up to a multiple of `2^e`. -/
def LF.up (e off : Nat) : Nat := (off + 2 ^ e - 1) / 2 ^ e * 2 ^ e

mutual
/-- Alignment of a field. -/
def LF.al : LF → Nat
  | .leaf _ k => k.al
  | .val fs => alL fs
  | .ptr _ => 3
/-- Alignment of a struct: that of its most demanding field. -/
def alL : List LF → Nat
  | [] => 0
  | f :: fs => max f.al (alL fs)
end

mutual
/-- Size of a field. -/
def LF.size : LF → Nat
  | .leaf _ k => k.size
  | .val fs => LF.up (alL fs) (structEnd 0 fs)
  | .ptr _ => 8
/-- The first byte behind fields that are placed from `off` on, each at the next multiple of its alignment. -/
def structEnd (off : Nat) : List LF → Nat
  | [] => off
  | f :: fs => structEnd (LF.up f.al off + f.size) fs
end

/-- Size of a struct. -/
def structSize (fs : List LF) : Nat := LF.up (alL fs) (structEnd 0 fs)

/-- The codec of a field as far as it goes to memory: that of its type, or one made by
`constructEmbeddedStructPointerCodec`, `/repo/codec.go:485-502`, for a pointer to the struct `sub`. -/
inductive LCodec where
  | plain (k : LK)
  | embPtr (sub : List LF) (offset : Nat) (field : LCodec)

/-- `structField`: `offset`, `codec`, `omitempty`, and the kind that `empty` was made for. -/
structure LField where
  off : Nat
  codec : LCodec
  omitempty : Bool
  kind : LK

mutual
/-- `/repo/codec.go:555-606, 622-627`: what a field at `off` adds to the list of fields. -/
def LF.places (off : Nat) : LF → List LField
  | .leaf o k => [⟨off, .plain k, o, k⟩]
  | .val fs => (placesL 0 fs).map fun s => { s with off := s.off + off }
  | .ptr fs => (placesL 0 fs).map fun s => { s with codec := .embPtr fs s.off s.codec, off := off }
/-- The loop of `appendStructFields`, `/repo/codec.go:516-609`, on fields that the compiler places from `off` on. -/
def placesL (off : Nat) : List LF → List LField
  | [] => []
  | f :: fs => f.places (LF.up f.al off) ++ placesL (LF.up f.al off + f.size) fs
end

/-- An access to memory: in a struct of type `block`, at an offset, taking what is there for a value of a kind. -/
structure Access where
  block : List LF
  off : Nat
  kind : LK

/-- What encoding or decoding a field accesses: its own memory, and the pointers on the way there
(`encodeEmbeddedStructPointer`, `/repo/encode.go:764-770`, `decodeEmbeddedStructPointer`, `/repo/decode.go:957-969`). -/
def LCodec.accesses (block : List LF) (off : Nat) : LCodec → List Access
  | .plain k => [⟨block, off, k⟩]
  | .embPtr sub o c => ⟨block, off, .ptr⟩ :: c.accesses sub o

/-- What `f.omitempty && f.empty(v)` accesses, `/repo/encode.go:706-710`. -/
def LField.emptyAccess (block : List LF) (f : LField) : List Access :=
  if f.omitempty then [⟨block, f.off, f.kind⟩] else []

/-- The bytes of a value that its `emptyFuncOf` reads, `/repo/codec.go:861-917`: from, to. -/
def LK.emptyReads : LK → Nat × Nat
  | .bool => (0, 1)
  | .num e => (0, 2 ^ e)
  | .string => (8, 16)
  | .slice => (8, 16)
  | .map => (0, 8)
  | .ptr => (0, 8)
  | .iface => (8, 16)
  | .array _ _ _ => (0, 0)
  | .struct _ _ => (0, 0)

end JC

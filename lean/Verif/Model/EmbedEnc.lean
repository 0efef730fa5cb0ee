import Verif.Model.Embed
import Verif.Model.Value
/-!
Model of encoding structs with embedded structs and embedded pointers to structs: `encodeStruct` on the
fields that `appendStructFields` found (`Model/Embed.lean`) and `encodeEmbeddedStructPointer`,
`/repo/encode.go:690-770`. Memory is that of `Model/Embed.lean`.

Fields have no `omitempty` here; for these see C73.
-/
namespace JC

/-- The encoding function of a field's codec at an address, that is a block of memory and an offset. A codec made
for an embedded pointer runs `encodeEmbeddedStructPointer`, `/repo/encode.go:764-770`. Memory that does not have the
cell expected is a panic; it is shown not to occur. -/
def ECodec.encode (c : Cfg) : ECodec → List Cell → Nat → Enc
  | .plain t, m, off =>
    match m[off]? with
    | some (.leaf v) => enc c (toGV v t)
    | _ => fun _ _ => .panic
  | .embPtr _ _ offset field, m, off =>
    match m[off]? with
    | some .nil => fun b d => .done b d (some .rollback)
    | some (.ptr v) => field.encode c v offset
    | _ => fun _ _ => .panic

/-- `encodeStruct`, `/repo/encode.go:690-758`, on memory. -/
def encodeStructE (c : Cfg) (flds : List EField) (m : List Cell) : Enc :=
  encodeStruct c (flds.map fun f => (⟨f.sf.name, false⟩, false, f.codec.encode c m f.off))

/-- `Marshal` of a struct of the type with fields `fs`, `/repo/json.go:160-172`. -/
def marshalE (fs : List EF) (m : List Cell) : Option (Except Err Bytes) :=
  match encodeStructE {} (fieldsE fs) m [] 0 with
  | .panic => none
  | .done _ _ (some e) => some (.error e)
  | .done b _ none => some (.ok b)

end JC

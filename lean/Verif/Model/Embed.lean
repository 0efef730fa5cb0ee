import Verif.Model.Decode
import Verif.Model.Fields
/-!
Model of decoding into structs with embedded structs and embedded pointers to structs:
the offsets and codecs that `appendStructFields` gives to promoted fields,
`/repo/codec.go:485-502, 512-645`, and `decodeEmbeddedStructPointer`,
`/repo/decode.go:957-969`.

The memory of a struct is a list of cells, one for every field that is not an embedded
struct; the cells of an embedded struct lie between those of its neighbours. An offset is
the number of a cell. Struct types are given as finite trees, so a struct does not embed a
pointer to itself here (for these `constructStructType` finds no fields, see C40).
Fields that are not embedded have the types of `Model/Decode.lean`.
-/
namespace JC

/-- A cell of memory: a value, or an embedded pointer, nil or with the memory it points to. -/
inductive Cell where
  | leaf (v : DV)
  | nil
  | ptr (block : List Cell)

/-- A field of a struct type: one that is left out, one with a name, an embedded struct, an
embedded pointer to a struct. -/
inductive EF where
  | skip (t : Ty)
  | leaf (name : Bytes) (isTag : Bool) (t : Ty)
  | val (fs : List EF)
  | ptr (unexported : Bool) (fs : List EF)

mutual
/-- Zeroed memory of a field. -/
def EF.cells : EF → List Cell
  | .skip t => [.leaf (zero t)]
  | .leaf _ _ t => [.leaf (zero t)]
  | .val fs => zeroCells fs
  | .ptr _ _ => [.nil]
/-- Zeroed memory of a struct, as `reflect.New` makes it. -/
def zeroCells : List EF → List Cell
  | [] => []
  | f :: fs => f.cells ++ zeroCells fs
end

/-- The codec of a field: the one of its type, or one made by
`constructEmbeddedStructPointerCodec`, `/repo/codec.go:485-502`. The type given to the latter
serves to make zeroed memory, `block`. -/
inductive ECodec where
  | plain (t : Ty)
  | embPtr (block : List Cell) (unexported : Bool) (offset : Nat) (field : ECodec)

/-- `structField`: name, tag and index as in `Model/Fields.lean`, offset and codec. -/
structure EField where
  sf : SField
  off : Nat
  codec : ECodec

/-- A field of a struct type once the fields of its embedded structs are known: `offset`,
`pointer`, `unexported` and the subtype's fields, `/repo/codec.go:504-511`. -/
inductive EEntry where
  | skip
  | direct (name : Bytes) (isTag : Bool) (off : Nat) (t : Ty)
  | embed (off : Nat) (subs : List EField)
  | embedPtr (off : Nat) (block : List Cell) (unexported : Bool) (subs : List EField)

/-- The direct fields, `/repo/codec.go:590-608`. -/
def directsE (i : Nat) : List EEntry → List EField
  | [] => []
  | .direct name isTag off t :: es => ⟨⟨name, isTag, [i], (i, 0)⟩, off, .plain t⟩ :: directsE (i + 1) es
  | _ :: es => directsE (i + 1) es

/-- The fields of one embedded struct: index, `/repo/codec.go:571-580`, and the offset and
codec that `place` gives. -/
def embeddedOfE (i j : Nat) (place : EField → Nat × ECodec) : List EField → List EField
  | [] => []
  | s :: ss => ⟨⟨s.sf.name, s.sf.tag, i :: s.sf.path, (i, j)⟩, (place s).1, (place s).2⟩ :: embeddedOfE i (j + 1) place ss

/-- All embedded fields. Those of an embedded struct are found by adding its offset,
`/repo/codec.go:625-627`; those behind a pointer are at the offset of the pointer and their
offset goes into the codec, `/repo/codec.go:622-624`. -/
def embeddedsE (i : Nat) : List EEntry → List EField
  | [] => []
  | .embed off subs :: es => embeddedOfE i 0 (fun s => (s.off + off, s.codec)) subs ++ embeddedsE (i + 1) es
  | .embedPtr off block u subs :: es => embeddedOfE i 0 (fun s => (off, .embPtr block u s.off s.codec)) subs ++ embeddedsE (i + 1) es
  | _ :: es => embeddedsE (i + 1) es

/-- `sort.Slice` by index, `/repo/codec.go:643`. -/
def insertFieldE (s : EField) : List EField → List EField
  | [] => [s]
  | t :: ts => if idxLt s.sf.index t.sf.index then s :: t :: ts else t :: insertFieldE s ts

def sortFieldsE : List EField → List EField
  | [] => []
  | s :: ss => insertFieldE s (sortFieldsE ss)

/-- The rest of `appendStructFields`, `/repo/codec.go:611-645`. -/
def resolveE (es : List EEntry) : List EField :=
  let ds := directsE 0 es
  let names := ds.map (·.sf.name)
  let embs := embeddedsE 0 es
  let all := embs.map (·.sf)
  let kept := embs.filter fun s => !(decide (nameCount names all s.sf.name > 1) && (!s.sf.tag || tagCount names all s.sf.name != 1))
  sortFieldsE (ds ++ kept.map fun s => { s with sf := { s.sf with tag := false } })

mutual
/-- One round of the loop over the fields, `/repo/codec.go:517-609`; `off` is the offset of the field. -/
def entryE (off : Nat) : EF → EEntry
  | .skip _ => .skip
  | .leaf name isTag t => .direct name isTag off t
  | .val fs => .embed off (resolveE (entriesE 0 fs))
  | .ptr u fs => .embedPtr off (zeroCells fs) u (resolveE (entriesE 0 fs))
/-- The loop; `off` is the offset of the next field. -/
def entriesE (off : Nat) : List EF → List EEntry
  | [] => []
  | f :: fs => entryE off f :: entriesE (off + f.cells.length) fs
end

/-- The fields of a struct type, `/repo/codec.go:442-471`. -/
def fieldsE (fs : List EF) : List EField := resolveE (entriesE 0 fs)

/-- What a decoding function does to memory. -/
inductive CRes where
  | ok (m : List Cell) (rest : Bytes)
  | err (m : List Cell) (rest : Bytes) (e : Err)
  | crash (c : Crash)

/-- The same with the memory seen as part of more memory. -/
def CRes.map (f : List Cell → List Cell) : CRes → CRes
  | .ok m r => .ok (f m) r
  | .err m r e => .err (f m) r e
  | .crash c => .crash c

/-- The effect of decoding a value that is stored at `f`. -/
def DRes.into (f : DV → List Cell) : DRes → CRes
  | .ok v r => .ok (f v) r
  | .err v r e => .err (f v) r e
  | .crash c => .crash c

/-- The decoding function of a field's codec at an address, that is a block of memory and an
offset. A codec made for an embedded pointer runs `decodeEmbeddedStructPointer`,
`/repo/decode.go:957-969`. Memory that does not have the cell expected is a panic; it is shown not to occur. -/
def ECodec.decode (c : DCfg) (n : Nat) : ECodec → Bytes → List Cell → Nat → CRes
  | .plain t, b, m, off =>
    match m[off]? with
    | some (.leaf v) => (decN c n t b v).into fun x => m.set off (.leaf x)
    | _ => .crash .panic
  | .embPtr block u offset field, b, m, off =>
    match m[off]? with
    | some .nil =>
      if u then .err m [] (.other 3)
      else (field.decode c n b block offset).map fun m' => m.set off (.ptr m')
    | some (.ptr v) => (field.decode c n b v offset).map fun m' => m.set off (.ptr m')
    | _ => .crash .panic

/-- The loop of `decodeStruct`, `/repo/decode.go:887-954`, on memory (see `structLoopD`). -/
def structLoopE (c : DCfg) (N : Nat) (flds : List EField) (input : Bytes) : Nat → Bool → List Cell → Bytes → CRes
  | 0, _, _, _ => .crash .fuel
  | n + 1, first, m, b =>
    let b := skipSpaces b
    if b.head? = some (ch! '}') then .ok m b.tail
    else
      let key : Bytes → DRes := fun b => match parseStringUnquote b [] with
        | .panic => .crash .panic
        | .fail r e => .err (.string []) r e
        | .ok s r _ => .ok (.string s) r
      match memberKey key first b with
      | .inl c => .crash c
      | .inr (.inl (r, e)) => .err m r e
      | .inr (.inr (kv, b)) =>
        let k := match kv with | .string s => s | _ => []
        match pickField c (flds.map (·.sf.name)) k with
        | none =>
          if c.disallowUnknown then .err m b (.other 2)
          else match parseValue b with
            | .fail r e => .err m r e
            | .ok _ r => structLoopE c N flds input n false m r
        | some i =>
          match flds[i]? with
          | none => .crash .panic    -- not reached
          | some f =>
            match f.codec.decode c N b m f.off with
            | .crash c => .crash c
            | .err m _ e =>
              match parseValue input with
              | .fail r e2 => .err m r e2
              | .ok _ r => .err m r e
            | .ok m r => structLoopE c N flds input n false m r

/-- `decodeStruct`, `/repo/decode.go:868-955`, on memory. -/
def decodeStructE (c : DCfg) (N : Nat) (flds : List EField) (b : Bytes) (m : List Cell) : CRes :=
  if hasNullPrefix b then .ok m (b.drop 4)
  else match b with
    | [] => .err m (inputError b).1 (inputError b).2
    | ch :: t =>
      if b.length < 2 ∨ ch ≠ ch! '{' then .err m (inputError b).1 (inputError b).2
      else structLoopE c N flds b (b.length + 1) true m t

/-- What `Unmarshal` does to memory. -/
inductive ERes where
  | done (m : List Cell) (err : Option Err)
  | crash (c : Crash)

/-- `Unmarshal` into a pointer to a struct of the type with fields `fs`, `/repo/json.go:193-231`. -/
def unmarshalE (c : DCfg) (N : Nat) (fs : List EF) (b : Bytes) (m : List Cell) : ERes :=
  match decodeStructE c N (fieldsE fs) (skipSpaces b) m with
  | .crash x => .crash x
  | .ok m r => .done m (if skipSpaces r ≠ [] then some .syntax else none)
  | .err m r e => .done m (if skipSpaces r ≠ [] then some .syntax else some e)

end JC

import Verif.Model.RunEnc
import Verif.Model.RunEmbed
/-!
Running the encoding functions of struct types with embedded structs: `encodeStruct`, `/repo/encode.go:690-758`, with the fields that
`constructStructType` found (`Model/Promote.lean`), and `encodeEmbeddedStructPointer`, `/repo/encode.go:764-770`.

This joins `Model/RunEnc.lean`, which has no embedded fields, and `Model/EmbedEnc.lean`, where struct types are finite trees and
nothing but the embedded fields is a struct. As in `Model/RunEmbed.lean` an address inside a struct is a path. The name, the type and the
options of a promoted field are those of its declaration: `/repo/codec.go:611-635` copies them.

The test for `omitempty` looks at the address in a field's `offset`, which for a field behind an embedded pointer is that of the (outermost)
pointer, `/repo/codec.go:621-623` and `/repo/encode.go:706-708`. What it finds there depends on the address the pointer holds and on what is
next to it (C73); `word` answers for a type and for whether the pointer is nil.
-/
namespace JC

/-- The option `omitempty` behind the first comma of a tag, `/repo/codec.go:545-552`. -/
def PField.omitempty (f : PField) : Bool := (splitComma f.tag).tail.contains (bs! "omitempty")

/-- The field at the end of a path, `/repo/codec.go:571-580, 611-635`. -/
def fieldOn (env : PEnv) : PField → List Nat → PField
  | f, [] => f
  | f, j :: path =>
    match f.type.embedded with
    | none => f
    | some id =>
      match (env id).fields[j]? with
      | none => f
      | some g => fieldOn env g path

mutual
/-- What an encoding function that was chosen for the type does to the contents of a variable, see `see` of `Model/RunEnc.lean`: the closures of
`/repo/codec.go:223-789`. -/
def seeP (w : Decls) (d : MDecls) (word : GT → Bool → Bool) (env : PEnv) (seen : PSeen) : DV → EC → GT → GV
  | v, .quoted e, t => .quoted (seeQuoted w d v t e)
  | .sliceNil, .slice _, _ => .sliceNil
  | .slice xs _, .slice e, t => .slice (seePL w d word env seen xs e t.elem)
  | .bytesNil, .slice _, _ => .sliceNil
  | .bytes s _, .slice e, t => .slice (s.map fun b => seeLeaf w d (.int b.toNat) t.elem e)
  | .array xs, .array _ e, t => .array (seePL w d word env seen xs e t.elem)
  | .mapNil, .map _ _, _ => .mapNil
  | .map es, .map k e, t => .map (seePE w d word env seen es k e t)
  | .ptrNil, .ptr _, _ => .ptrNil
  | .ptr v, .ptr e, t => .ptr (seeP w d word env seen v e t.elem)
  | .struct xs, .struct id, _ =>
    match seen id with
    | some (some ss) => .struct (ss.map fun s =>
        match s.sf.path with
        | [] => (⟨s.sf.name, false⟩, .unsupported)    -- not reached: no path is empty
        | i :: path =>
          match (env id).fields[i]? with
          | none => (⟨s.sf.name, false⟩, .unsupported)    -- not reached
          | some f => (⟨s.sf.name, (fieldOn env f path).omitempty⟩, seeAt w d word env seen xs i f path s.codec.1 false))
    | _ => .struct []
  | v, e, t => seeLeaf w d v t e
def seePL (w : Decls) (d : MDecls) (word : GT → Bool → Bool) (env : PEnv) (seen : PSeen) : List DV → EC → GT → List GV
  | [], _, _ => []
  | v :: vs, e, t => seeP w d word env seen v e t :: seePL w d word env seen vs e t
def seePE (w : Decls) (d : MDecls) (word : GT → Bool → Bool) (env : PEnv) (seen : PSeen) : List (MK × DV) → EC → EC → GT → List (MKey × GV)
  | [], _, _, _ => []
  | (k, v) :: es, ke, e, t => (seeKey w t ke k, seeP w d word env seen v e t.elem) :: seePE w d word env seen es ke e t
/-- A field: the `i`-th value, and on along the path. Every embedded pointer is a call of `encodeEmbeddedStructPointer`, which gives up at a nil
pointer. `far`: a pointer was passed. Memory of another shape does not occur and is treated as a nil pointer. -/
def seeAt (w : Decls) (d : MDecls) (word : GT → Bool → Bool) (env : PEnv) (seen : PSeen) : List DV → Nat → PField → List Nat → EC → Bool → GV
  | [], _, f, path, _, far => .embNil (word (fieldOn env f path).type (!far))
  | _ :: xs, i + 1, f, path, e, far => seeAt w d word env seen xs i f path e far
  | x :: _, 0, f, [], e, far => if far then .emb (seeP w d word env seen x e f.type) (word f.type false) else seeP w d word env seen x e f.type
  | x :: _, 0, f, j :: path, e, far =>
    match f.type.embedded with
    | none => .unsupported    -- not reached
    | some id =>
      match (env id).fields[j]? with
      | none => .unsupported    -- not reached
      | some g =>
        match x with
        | .struct ys => if f.type.isPtr then .embNil (word (fieldOn env g path).type (!far)) else seeAt w d word env seen ys j g path e far
        | .ptr (.struct ys) => if f.type.isPtr then seeAt w d word env seen ys j g path e true else .embNil (word (fieldOn env g path).type (!far))
        | .ptr _ => .embNil (word (fieldOn env g path).type (!(far || f.type.isPtr)))
        | _ => .embNil (word (fieldOn env g path).type (!far))
end

/-- `Append` of a variable of type `t`, `/repo/json.go:122-142`: the function is made by `constructCachedCodec` and run. -/
def appendP (cf : Cfg) (w : Decls) (d : MDecls) (word : GT → Bool → Bool) (letter : Nat → Bool) (env : PEnv) (count : Nat) (t : GT) (v : DV) : Enc :=
  let r := codecP letter env count t
  enc cf (seeP w d word env r.2 v r.1.1 t)

end JC

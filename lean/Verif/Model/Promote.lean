import Verif.Model.Codec
import Verif.Model.Fields
/-!
Model of `constructStructType` with the codecs of all fields, promoted ones included:
`/repo/codec.go:442-471, 485-666`. It joins `Model/Codec.lean`, which has no embedded fields, with
`Model/Fields.lean`, which has no codecs; the other simplifications are those of these two
files. Offsets are left out (`Model/Layout.lean`, `Model/Embed.lean`).
-/
namespace JC

/-- `reflect.StructField`: `Name`, `Anonymous`, `len(PkgPath) != 0`, `Tag.Get("json")` and `Type`. -/
structure PField where
  goName : Bytes
  anonymous : Bool := false
  unexported : Bool := false
  tag : Bytes := []
  type : GT
deriving DecidableEq, Repr

/-- A struct type: its fields and its methods. -/
structure PStruct where
  fields : List PField
  meths : MSets := {}

/-- All struct types. -/
abbrev PEnv := Nat → PStruct

/-- The methods of the struct types. -/
def PEnv.ty (env : PEnv) : TyEnv := fun id => ⟨[], (env id).meths⟩

/-- The option `string` behind the first comma of a tag, `/repo/codec.go:545-552`. -/
def PField.quoted (f : PField) : Bool := (splitComma f.tag).tail.contains (bs! "string")

/-- The struct types in a type. -/
def GT.structs : GT → List Nat
  | .array _ e _ | .slice e _ | .map _ e _ | .ptr e => e.structs
  | .struct id => [id]
  | _ => []

/-- `time.Time`, a struct type without exported fields, and pointers to it. -/
def GT.isTime : GT → Bool
  | .special .time | .ptr (.special .time) => true
  | _ => false

/-- The type of a field as `appendStructFields` looks at it, `/repo/codec.go:556-564`. -/
def GT.fkind : GT → FKind
  | .struct id => .struct id
  | .ptr (.struct id) => .ptr id
  | t => .other t.structs

/-- The field for `classify` of `Model/Fields.lean`. An embedded `time.Time` has no fields to promote and is passed over as an
unexported field is. -/
def PField.decl (f : PField) : FieldDecl :=
  if f.anonymous && f.type.isTime && (splitComma f.tag).headD [] == [] then { goName := f.goName, unexported := true, tag := f.tag, kind := .other [] }
  else { goName := f.goName, anonymous := f.anonymous, unexported := f.unexported, tag := f.tag, kind := f.type.fkind }

/-- `structField`: name, tag and index as in `Model/Fields.lean`, and the codec. `via` are the
codecs of embedded pointers around it, `/repo/codec.go:485-502, 622`, outermost first, each given by whether the type of the
pointer is unexported. -/
structure PSField where
  sf : SField
  via : List Bool
  codec : Codec
deriving DecidableEq, Repr

/-- A field once its codec, or the fields of the type it embeds, are known. -/
inductive PEntry where
  | skip
  | direct (name : Bytes) (isTag : Bool) (c : Codec)
  | embed (pointer unexported : Bool) (subs : List PSField)

/-- The direct fields, `/repo/codec.go:590-608`. -/
def directsP (i : Nat) : List PEntry → List PSField
  | [] => []
  | .direct name isTag c :: es => ⟨⟨name, isTag, [i], (i, 0)⟩, [], c⟩ :: directsP (i + 1) es
  | _ :: es => directsP (i + 1) es

/-- The fields of one embedded struct, `/repo/codec.go:571-580`, with the codec that 621-624 give. -/
def embeddedOfP (i j : Nat) (pointer unexported : Bool) : List PSField → List PSField
  | [] => []
  | s :: ss => ⟨⟨s.sf.name, s.sf.tag, i :: s.sf.path, (i, j)⟩, if pointer then unexported :: s.via else s.via, s.codec⟩ ::
      embeddedOfP i (j + 1) pointer unexported ss

/-- All embedded fields. -/
def embeddedsP (i : Nat) : List PEntry → List PSField
  | [] => []
  | .embed p u subs :: es => embeddedOfP i 0 p u subs ++ embeddedsP (i + 1) es
  | _ :: es => embeddedsP (i + 1) es

/-- `sort.Slice` by index, `/repo/codec.go:643`. -/
def insertFieldP (s : PSField) : List PSField → List PSField
  | [] => [s]
  | t :: ts => if idxLt s.sf.index t.sf.index then s :: t :: ts else t :: insertFieldP s ts

def sortFieldsP : List PSField → List PSField
  | [] => []
  | s :: ss => insertFieldP s (sortFieldsP ss)

/-- The rest of `appendStructFields`, `/repo/codec.go:611-645`. -/
def resolveP (es : List PEntry) : List PSField :=
  let ds := directsP 0 es
  let names := ds.map (·.sf.name)
  let embs := embeddedsP 0 es
  let all := embs.map (·.sf)
  let kept := embs.filter fun s => !(decide (nameCount names all s.sf.name > 1) && (!s.sf.tag || tagCount names all s.sf.name != 1))
  sortFieldsP (ds ++ kept.map fun s => { s with sf := { s.sf with tag := false } })

/-- `seen`: the struct types met so far with their fields; `some none` is a type under construction, which has no
fields yet, `/repo/codec.go:445-456`. -/
abbrev PSeen := Nat → Option (Option (List PSField))

/-- The assignments at `/repo/codec.go:455-456`. -/
def PSeen.set (s : PSeen) (id : Nat) (x : Option (List PSField)) : PSeen := fun y => if y = id then some x else s y

/-- `subtype.fields`, `/repo/codec.go:571`. -/
def PSeen.subs (s : PSeen) (id : Nat) : List PSField := ((s id).getD none).getD []

/-- The loop over the fields, `/repo/codec.go:517-609`: embedded structs are constructed, also behind pointers, as
addressable as the struct itself (569); `c` is `constructStructType`. -/
def visitP (letter : Nat → Bool) (ty : TyEnv) (c : Nat → Bool → PSeen → PSeen) : List PField → Bool → PSeen → List PEntry × PSeen
  | [], _, seen => ([], seen)
  | f :: fs, a, seen =>
    match classify letter f.decl with
    | .skip =>
      let r := visitP letter ty c fs a seen
      (.skip :: r.1, r.2)
    | .embed id =>
      let seen := c id a seen
      let r := visitP letter ty c fs a seen
      (.embed f.type.isPtr f.unexported (seen.subs id) :: r.1, r.2)
    | .direct name isTag =>
      let k := constructCodec ty c f.type a seen
      let r := visitP letter ty c fs a k.2
      (.direct name isTag (if f.quoted then stringify f.type k.1 else k.1) :: r.1, r.2)

/-- `constructStructType`, `/repo/codec.go:442-471`. The number is fuel: every level of the recursion adds a type to
`seen`. -/
def constructP (letter : Nat → Bool) (env : PEnv) : Nat → Nat → Bool → PSeen → PSeen
  | 0, _, _, seen => seen
  | n + 1, id, a, seen =>
    match seen id with
    | some _ => seen
    | none =>
      let r := visitP letter env.ty (constructP letter env n) (env id).fields a (seen.set id none)
      r.2.set id (some (resolveP r.1))

/-- `constructCachedCodec`, `/repo/codec.go:68-77`, without the cache: the codec of a type, and the fields of the struct types
in it, of which there are `count`. -/
def codecP (letter : Nat → Bool) (env : PEnv) (count : Nat) (t : GT) : Codec × PSeen :=
  constructCodec env.ty (constructP letter env count) t t.isPtr (fun _ => none)

end JC

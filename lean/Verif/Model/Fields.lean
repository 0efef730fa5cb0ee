import Verif.Model.Utf8
/-!
Model of the selection of struct fields, `/repo/codec.go:442-471, 504-666, 842-859`:
`constructStructType`, `appendStructFields`, `ambiguousNameTagCount`, `isValidTag`.

Struct types are numbered, and a field refers to them by number, so that types can be
recursive. Offsets, codecs and the `omitempty` and `string` options are left out; a selected field
is identified by its path, the field numbers from the outer struct to it. The sort key
`i<<32 | j` is modelled as the pair `(i, j)`, which has the same order on a 64-bit machine as
long as no struct has 2^32 fields.
-/
namespace JC

/-- The type of a field as far as it matters here. -/
inductive FKind where
  /-- a struct type -/
  | struct (id : Nat)
  /-- a pointer to a struct type -/
  | ptr (id : Nat)
  /-- any other type; `refs`: the struct types that `constructCodec` meets inside it, in order -/
  | other (refs : List Nat)
deriving DecidableEq, Repr

/-- `reflect.StructField`: `Name`, `Anonymous`, `len(PkgPath) != 0`, `Tag.Get("json")` and `Type`. -/
structure FieldDecl where
  goName : Bytes
  anonymous : Bool := false
  unexported : Bool := false
  tag : Bytes := []
  kind : FKind
deriving DecidableEq, Repr

/-- `strings.Split(s, ",")`. -/
def splitComma : Bytes → List Bytes
  | [] => [[]]
  | c :: t =>
    match splitComma t with
    | [] => [[c]]
    | p :: ps => if c = ch! ',' then [] :: p :: ps else (c :: p) :: ps

/-- The punctuation that a name may contain, `/repo/codec.go:848`. -/
def tagPunct : Bytes := bs! "!#$%&()*+-./:<=>?@[]^_{|}~ "

/-- `isValidTag`, `/repo/codec.go:842-859`; `letter` is `unicode.IsLetter` or `unicode.IsDigit`. -/
def isValidTag (letter : Nat → Bool) (s : Bytes) : Bool :=
  if s = [] then false
  else (runes s).all fun c => tagPunct.any (fun p => p.toNat == c) || letter c

/-- What `appendStructFields` does with a field. -/
inductive FClass where
  | skip
  | direct (name : Bytes) (isTag : Bool)
  | embed (id : Nat)
deriving DecidableEq, Repr

/-- The struct types met when the codec of a field of this type is constructed. -/
def FKind.refs : FKind → List Nat
  | .struct id => [id]
  | .ptr id => [id]
  | .other refs => refs

/-- The struct type that is embedded, `/repo/codec.go:556-564`. -/
def FKind.embeds : FKind → Option Nat
  | .struct id => some id
  | .ptr id => some id
  | .other _ => none

/-- `/repo/codec.go:518-588`: name, tag and treatment of a field. -/
def classify (letter : Nat → Bool) (f : FieldDecl) : FClass :=
  if f.unexported && !f.anonymous then .skip
  else
    let parts := splitComma f.tag
    let first := parts.headD []
    let isTag := first ≠ []
    let name := if isTag then first else f.goName
    if name = bs! "-" ∧ parts.length = 1 then .skip
    else
      let name := if isValidTag letter name then name else f.goName
      if f.anonymous && !isTag then
        match f.kind.embeds with
        | some id => .embed id
        | none => if f.unexported then .skip else .direct name isTag
      else .direct name isTag

/-- `structField`, with its sort key. -/
structure SField where
  name : Bytes
  tag : Bool
  path : List Nat
  index : Nat × Nat
deriving DecidableEq, Repr

/-- A field once the types it embeds are known: `embed` carries the fields of the subtype. -/
inductive FEntry where
  | skip
  | direct (name : Bytes) (isTag : Bool)
  | embed (subs : List SField)
deriving DecidableEq, Repr

/-- The direct fields, `/repo/codec.go:590-608`. -/
def directs (i : Nat) : List FEntry → List SField
  | [] => []
  | .direct name isTag :: es => ⟨name, isTag, [i], (i, 0)⟩ :: directs (i + 1) es
  | _ :: es => directs (i + 1) es

/-- The fields of one embedded struct, `/repo/codec.go:571-580`. -/
def embeddedOf (i j : Nat) : List SField → List SField
  | [] => []
  | s :: ss => ⟨s.name, s.tag, i :: s.path, (i, j)⟩ :: embeddedOf i (j + 1) ss

/-- All embedded fields. -/
def embeddeds (i : Nat) : List FEntry → List SField
  | [] => []
  | .embed subs :: es => embeddedOf i 0 subs ++ embeddeds (i + 1) es
  | _ :: es => embeddeds (i + 1) es

/-- `ambiguousNames` of `ambiguousNameTagCount`, `/repo/codec.go:647-666`; `names` is the set of
names of direct fields. -/
def nameCount (names : List Bytes) (embs : List SField) (n : Bytes) : Nat :=
  (if n ∈ names then 1 else 0) + embs.countP fun s => s.name = n

/-- `ambiguousTags`. -/
def tagCount (names : List Bytes) (embs : List SField) (n : Bytes) : Nat :=
  (if n ∈ names then 1 else 0) + embs.countP fun s => s.name = n ∧ s.tag

/-- `i<<32 | j < i'<<32 | j'` -/
def idxLt (a b : Nat × Nat) : Bool := decide (a.1 < b.1 ∨ a.1 = b.1 ∧ a.2 < b.2)

/-- `sort.Slice` by index. -/
def insertField (s : SField) : List SField → List SField
  | [] => [s]
  | t :: ts => if idxLt s.index t.index then s :: t :: ts else t :: insertField s ts

def sortFields : List SField → List SField
  | [] => []
  | s :: ss => insertField s (sortFields ss)

/-- The rest of `appendStructFields`, `/repo/codec.go:611-645`. -/
def resolve (es : List FEntry) : List SField :=
  let ds := directs 0 es
  let names := ds.map (·.name)
  let embs := embeddeds 0 es
  let kept := embs.filter fun s => !(decide (nameCount names embs s.name > 1) && (!s.tag || tagCount names embs s.name != 1))
  sortFields (ds ++ kept.map fun s => { s with tag := false })

/-- `seen`: the struct types constructed so far; one under construction has no fields yet. -/
abbrev Seen := Nat → Option (List SField)

def Seen.set (s : Seen) (id : Nat) (fs : List SField) : Seen := fun x => if x = id then some fs else s x

/-- The construction of the struct types inside the type of a field; `c` is `constructStructType`. -/
def constructs (c : Nat → Seen → Seen) : List Nat → Seen → Seen
  | [], seen => seen
  | id :: ids, seen => constructs c ids (c id seen)

/-- The loop over the fields, `/repo/codec.go:517-609`, with the construction of the types met. -/
def visit (letter : Nat → Bool) (c : Nat → Seen → Seen) : List FieldDecl → Seen → List FEntry × Seen
  | [], seen => ([], seen)
  | f :: fs, seen =>
    match classify letter f with
    | .skip =>
      let (es, seen) := visit letter c fs seen
      (.skip :: es, seen)
    | .embed id =>
      let seen := c id seen
      let subs := (seen id).getD []
      let (es, seen) := visit letter c fs seen
      (.embed subs :: es, seen)
    | .direct name isTag =>
      let seen := constructs c f.kind.refs seen
      let (es, seen) := visit letter c fs seen
      (.direct name isTag :: es, seen)

/-- `constructStructType`, `/repo/codec.go:442-471`. Every level of recursion adds a type to
`seen`, so the number of types is enough fuel. -/
def construct (letter : Nat → Bool) (env : Nat → List FieldDecl) : Nat → Nat → Seen → Seen
  | 0, _, seen => seen
  | n + 1, id, seen =>
    match seen id with
    | some _ => seen
    | none =>
      let (es, seen') := visit letter (construct letter env n) (env id) (seen.set id [])
      seen'.set id (resolve es)

/-- The fields of struct type `root` among `count` types. -/
def structFields (letter : Nat → Bool) (env : Nat → List FieldDecl) (count root : Nat) : List SField :=
  (construct letter env count root (fun _ => none) root).getD []

end JC

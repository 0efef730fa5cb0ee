import Verif.Model.Colors
import Verif.Model.Strings
import Verif.Model.Token
import Verif.Model.Base64
import Verif.Spec.Grammar
/-!
Model of `/repo/encode.go`: the encoding functions, colors and indentation
included.

A Go value is a `GV`: one constructor per encoding function that
`constructCodec` (`/repo/codec.go:79-213`) can select, holding what that function
reads from memory.  The selection itself (by `reflect.Type`, addressability and
implemented interfaces) is not modelled.

The encoder's buffer is passed in and returned, as in Go.  The nesting level of
the `*Indenter` is threaded, since it is shared mutable state; prefix, indent
and the disabled flag never change and are part of the configuration.
-/
namespace JC
open Spec

/-- What `strconv.AppendFloat(b, f, fmt, -1, bits)` appends for a finite number:
format `'f'` (`expo = false`) is an optional sign, an integer part and an
optional fraction; format `'e'` has a single leading digit and an exponent of
at least two digits. -/
inductive FloatFmt : Bool → Bytes → Prop
  | f (sgn i fr : Bytes) : (sgn = [] ∨ sgn = [0x2d]) → JInt i → JFrac fr → FloatFmt false (sgn ++ i ++ fr)
  | e (sgn : Bytes) (d : UInt8) (fr es ds : Bytes) : (sgn = [] ∨ sgn = [0x2d]) → Digit d → JFrac fr →
      (es = [0x2b] ∨ es = [0x2d]) → Digits1 ds → 2 ≤ ds.length →
      FloatFmt true (sgn ++ [d] ++ fr ++ 0x65 :: (es ++ ds))

/-- A float: NaN, an infinity, or a finite number given by the format chosen at
`/repo/encode.go:109-116` and its `strconv` text (the choice by magnitude and
the digits are not modelled). -/
inductive Flt where
  | nan
  | inf
  | fin (expo : Bool) (text : Bytes) (ok : FloatFmt expo text)

/-- What `time.Time.AppendFormat(b, time.RFC3339Nano)` appends: printable ASCII
without quote and backslash. -/
def TimeText (s : Bytes) : Prop := ∀ c ∈ s, 0x20 ≤ c ∧ c < 0x7f ∧ c ≠ 0x22 ∧ c ≠ 0x5c

/-- Result of `MarshalText` on a value: a nil pointer or interface, an error, or
text. `absent` is a type assertion that failed, whose call panics. -/
inductive TextRes where
  | isNil
  | err (e : Err)
  | ok (s : Bytes)
  | absent
deriving DecidableEq, Repr

/-- Result of `MarshalJSON`: nil receiver, an error, or bytes (`none` is a nil slice). -/
inductive JsonRes where
  | isNil
  | err (e : Err)
  | ok (s : Option Bytes)
deriving DecidableEq, Repr

/-- Map keys, by the key codec chosen in `constructMapCodec`, `/repo/codec.go:355-406`. A `TextMarshaler` that is
nil is an interface; keys that are pointers are not represented (property C58). -/
inductive MKey where
  | str (s : Bytes)
  | int (z : Int)
  | uint (n : Nat)
  | text (r : TextRes)
deriving DecidableEq, Repr

/-- What `encodeStruct` reads of a `structField` besides its codec:
the name and `omitempty`. -/
structure FMeta where
  name : Bytes
  omitempty : Bool
deriving DecidableEq, Repr

/-- Go values as the encoder sees them. -/
inductive GV where
  /-- nil interface: `Append(b, nil, ...)` -/
  | nil
  | bool (v : Bool)
  /-- all signed kinds and `time.Duration` -/
  | int (z : Int)
  | uint (n : Nat)
  | float (f : Flt)
  /-- `json.Number` -/
  | number (s : Bytes)
  | string (s : Bytes)
  | bytesNil
  | bytes (s : Bytes)
  | time (s : Bytes) (ok : TimeText s)
  | sliceNil
  | slice (xs : List GV)
  | array (xs : List GV)
  | mapNil
  /-- generic map, entries in the order `MapKeys` returns them -/
  | map (es : List (MKey × GV))
  /-- `map[string]interface{}`, entries in iteration order -/
  | mapSI (es : List (Bytes × GV))
  /-- `map[string]RawMessage`, entries in iteration order -/
  | mapRaw (es : List (Bytes × Option Bytes))
  /-- the fields of the `structType`, in order -/
  | struct (fs : List (FMeta × GV))
  | ptrNil
  | ptr (v : GV)
  /-- a non-nil interface in a field; `dataNil`: its data word is nil -/
  | iface (v : GV) (dataNil : Bool)
  | rawNil
  | raw (s : Bytes)
  /-- a `Marshaler`; `zero`: the memory is empty for `emptyFuncOf` of its type -/
  | jsonM (r : JsonRes) (zero : Bool)
  | textM (r : TextRes) (zero : Bool)
  /-- a field with the `string` option, or an integer map key: `encodeToString` -/
  | quoted (v : GV)
  /-- a field promoted through a nil embedded pointer; `zero`: the pointer's
  memory is empty for `emptyFuncOf` of the field's type -/
  | embNil (zero : Bool)
  /-- a field promoted through a non-nil embedded pointer -/
  | emb (v : GV) (zero : Bool)
  | unsupported

/-- Constant part of an `*Indenter`, `/repo/encode.go:1126-1131`. -/
structure IndCfg where
  disabled : Bool
  pre : Bytes
  indent : Bytes
deriving DecidableEq, Repr

/-- `NewIndenter`, `/repo/encode.go:1139-1145` (its depth starts at 0). -/
def newIndenter (pre indent : Bytes) : IndCfg :=
  { disabled := pre = [] ∧ indent = [], pre := pre, indent := indent }

/-- `encoder`, `/repo/codec.go:23-27`. `jsonIndent` stands for
`encoding/json.Indent`, which is not part of `/repo`: source, prefix and indent
to output, or an error. -/
structure Cfg where
  escapeHTML : Bool := true
  sortMapKeys : Bool := true
  trustRaw : Bool := false
  clrs : Option Colors := none
  ind : Option IndCfg := none
  jsonIndent : Bytes → Bytes → Bytes → Option Bytes := fun _ _ _ => none

/-- Result of an encoding function: buffer, Indenter depth and error
afterwards; or a panic. -/
inductive Out where
  | done (b : Bytes) (d : Int) (err : Option Err)
  | panic
deriving DecidableEq, Repr

/-- An encoding function applied to its value: from buffer and depth. -/
abbrev Enc := Bytes → Int → Out

/-- `push`, `/repo/encode.go:1148-1152`. -/
def Cfg.push (c : Cfg) (d : Int) : Int := if c.ind.isSome then d + 1 else d
/-- `pop`, `/repo/encode.go:1155-1159`. -/
def Cfg.pop (c : Cfg) (d : Int) : Int := if c.ind.isSome then d - 1 else d

/-- `appendByte`, `/repo/encode.go:1163-1169`. -/
def Cfg.appendByte (c : Cfg) (b : Bytes) (a : UInt8) : Bytes :=
  match c.ind with
  | none => b
  | some i => if i.disabled then b else b ++ [a]

/-- `appendIndent`, `/repo/encode.go:1173-1183`. -/
def Cfg.appendIndent (c : Cfg) (d : Int) (b : Bytes) : Bytes :=
  match c.ind with
  | none => b
  | some i => if i.disabled then b else b ++ i.pre ++ (List.replicate d.toNat i.indent).flatten

/-- `b = append(b, color...); b, err = f(b); b = append(b, ansiReset...)`, the
shape shared by the colored branches of `encodeFloat32/64`, `encodeKey`,
`encodeString`, `encodeBytes`, `encodeTextMarshaler`. -/
def colored (c : Cfg) (clr : Colors → Bytes) (f : Enc) : Enc := fun b d =>
  match c.clrs with
  | none => f b d
  | some cl =>
    match f (b ++ clr cl) d with
    | .panic => .panic
    | .done b d err => .done (b ++ ansiReset) d err

/-- `encodeFloat`, `/repo/encode.go:96-130`. -/
def encodeFloat (f : Flt) : Enc := fun b d =>
  match f with
  | .nan => .done b d (some .unsupportedValue)
  | .inf => .done b d (some .unsupportedValue)
  | .fin expo text _ =>
    let b := b ++ text
    if expo then
      let n := b.length
      if n ≥ 4 ∧ b[n - 4]? = some (ch! 'e') ∧ b[n - 3]? = some (ch! '-') ∧ b[n - 2]? = some (ch! '0') then
        .done ((b.set (n - 2) (b.getD (n - 1) 0)).take (n - 1)) d none
      else .done b d none
    else .done b d none

/-- `encodeNumber`, `/repo/encode.go:132-151`. -/
def encodeNumber (c : Cfg) (s : Bytes) : Enc := fun b d =>
  let n := if s = [] then bs! "0" else s
  match parseNumber n with
  | .fail _ e => .done b d (some e)
  | .ok _ _ =>
    match c.clrs with
    | none => .done (b ++ n) d none
    | some cl => .done (b ++ cl.number ++ n ++ ansiReset) d none

/-- `doEncodeString` as an encoding function. -/
def encStr (c : Cfg) (s : Bytes) : Enc := fun b d => .done (doEncodeString c.escapeHTML b s) d none

/-- `encodeKey`, `/repo/encode.go:153-163`. -/
def encodeKey (c : Cfg) (s : Bytes) : Enc := colored c (·.key) (encStr c s)

/-- `encodeString`, `/repo/encode.go:165-175`. -/
def encodeString (c : Cfg) (s : Bytes) : Enc := colored c (·.string) (encStr c s)

/-- `encodeToString`, `/repo/encode.go:277-294`. -/
def encodeToString (c : Cfg) (f : Enc) : Enc := fun b d =>
  let i := b.length
  match f b d with
  | .panic => .panic
  | .done b d (some e) => .done b d (some e)
  | .done b d none =>
    let j := b.length
    let s := b.drop i
    let b := doEncodeString c.escapeHTML b s
    .done (b.take i ++ b.drop j) d none

/-- `doEncodeBytes`, `/repo/encode.go:307-329`; `none` is a nil slice. -/
def doEncodeBytes (c : Cfg) (v : Option Bytes) : Enc := fun b d =>
  match v with
  | none => .done (appendNull c.clrs b) d none
  | some v => .done (b ++ (ch! '"' :: (b64Encode v ++ [ch! '"']))) d none

/-- `encodeBytes`, `/repo/encode.go:296-305`. -/
def encodeBytes (c : Cfg) (v : Option Bytes) : Enc := colored c (·.bytes) (doEncodeBytes c v)

/-- `encodeTime`, `/repo/encode.go:356-372`. -/
def encodeTime (c : Cfg) (s : Bytes) : Enc := fun b d =>
  match c.clrs with
  | none => .done (b ++ [ch! '"'] ++ s ++ [ch! '"']) d none
  | some cl => .done (b ++ cl.time ++ [ch! '"'] ++ s ++ [ch! '"'] ++ ansiReset) d none

/-- The loop of `encodeArray`, `/repo/encode.go:382-393`; `start` is the length
of the buffer to truncate to on error. -/
def arrayLoop (c : Cfg) (start : Nat) : Bool → List Enc → Enc
  | _, [] => fun b d => .done b d none
  | first, f :: fs => fun b d =>
    let b := if first then b else appendPunc c.clrs b (ch! ',')
    let b := c.appendByte b 0x0a
    let b := c.appendIndent d b
    match f b d with
    | .panic => .panic
    | .done b d (some e) => .done (b.take start) d (some e)
    | .done b d none => arrayLoop c start false fs b d

/-- `encodeArray`, `/repo/encode.go:374-402`. -/
def encodeArray (c : Cfg) (fs : List Enc) : Enc := fun b d =>
  let start := b.length
  let b := appendPunc c.clrs b (ch! '[')
  if fs.length > 0 then
    match arrayLoop c start true fs b (c.push d) with
    | .panic => .panic
    | .done b d (some e) => .done b d (some e)
    | .done b d none =>
      let d := c.pop d
      let b := c.appendByte b 0x0a
      let b := c.appendIndent d b
      .done (appendPunc c.clrs b (ch! ']')) d none
  else .done (appendPunc c.clrs b (ch! ']')) d none

/-- `encodeTextMarshaler`, `/repo/encode.go:1027-1055`. -/
def encodeTextMarshaler (c : Cfg) (r : TextRes) : Enc := fun b d =>
  match r with
  | .isNil => .done (appendNull c.clrs b) d none
  | .err e => .done b d (some e)
  | .absent => .panic
  | .ok s => colored c (·.textMarshaler) (encStr c s) b d

/-- Encoding of map keys, `/repo/codec.go:355-406`. -/
def encodeMKey (c : Cfg) (k : MKey) : Enc :=
  match k with
  | .str s => encodeKey c s
  | .int z => encodeToString c fun b d => .done (appendInt64 c.clrs b z) d none
  | .uint n => encodeToString c fun b d => .done (appendUint64 c.clrs b n) d none
  | .text r => encodeTextMarshaler c r

/-- The string by which keys are sorted, `/repo/codec.go:359-401`. -/
def MKey.sortText : MKey → Bytes
  | .str s => s
  | .int z => fmtInt z
  | .uint n => fmtNat n
  | .text (.ok s) => s
  | .text _ => []

/-- Go's string comparison `<`. -/
def bytesLt : Bytes → Bytes → Bool
  | _, [] => false
  | [], _ :: _ => true
  | a :: s, b :: t => a < b || (a == b && bytesLt s t)

/-- Insert before the first element whose key is not smaller. -/
def insertBy {α : Type} (key : α → Bytes) (x : α) : List α → List α
  | [] => [x]
  | y :: ys => if bytesLt (key y) (key x) then y :: insertBy key x ys else x :: y :: ys

/-- `sort.Slice`/`sort.Sort` by key: some sorted permutation (for distinct keys
there is only one). -/
def sortBy {α : Type} (key : α → Bytes) : List α → List α
  | [] => []
  | x :: xs => insertBy key x (sortBy key xs)

/-- The loop of `encodeMap`, `/repo/encode.go:433-453`. -/
def mapLoop (c : Cfg) (start : Nat) : Bool → List (MKey × Enc) → Enc
  | _, [] => fun b d => .done b d none
  | first, (k, f) :: es => fun b d =>
    let b := if first then b else c.appendByte (appendPunc c.clrs b (ch! ',')) 0x0a
    let b := c.appendIndent d b
    match encodeMKey c k b d with
    | .panic => .panic
    | .done b d (some e) => .done (b.take start) d (some e)
    | .done b d none =>
      let b := appendPunc c.clrs b (ch! ':')
      let b := c.appendByte b (ch! ' ')
      match f b d with
      | .panic => .panic
      | .done b d (some e) => .done (b.take start) d (some e)
      | .done b d none => mapLoop c start false es b d

/-- The key has no `MarshalText` to call when keys are compared, `/repo/codec.go:360-364`: it is no
`TextMarshaler`, or a nil interface. -/
def MKey.uncallable : MKey → Bool
  | .text .absent | .text .isNil => true
  | _ => false

/-- `encodeMap`, `/repo/encode.go:414-461`. Sorting panics when it compares keys
that have no `MarshalText`. -/
def encodeMap (c : Cfg) (es : List (MKey × Enc)) : Enc := fun b d =>
  if c.sortMapKeys ∧ es.length ≥ 2 ∧ es.any (fun e => e.1.uncallable) then .panic
  else
    let es := if c.sortMapKeys then sortBy (fun e => e.1.sortText) es else es
    let start := b.length
    let b := appendPunc c.clrs b (ch! '{')
    if es.length ≠ 0 then
      let b := c.appendByte b 0x0a
      match mapLoop c start true es b (c.push d) with
      | .panic => .panic
      | .done b d (some e) => .done b d (some e)
      | .done b d none =>
        let b := c.appendByte b 0x0a
        let d := c.pop d
        let b := c.appendIndent d b
        .done (appendPunc c.clrs b (ch! '}')) d none
    else .done (appendPunc c.clrs b (ch! '}')) d none

/-- How a loop over string-keyed entries ended. -/
inductive LoopR where
  | fin (b : Bytes) (d : Int)
  | brk (b : Bytes) (d : Int) (e : Err)
  | panic

/-- The loop bodies of `encodeMapStringInterface` (`/repo/encode.go:499-521, 548-565`)
and `encodeMapStringRawMessage` (604-624, 652-669); `encodeKey` never fails. -/
def strLoop (c : Cfg) : Bool → List (Bytes × Enc) → Bytes → Int → LoopR
  | _, [], b, d => .fin b d
  | first, (k, f) :: es, b, d =>
    let b := if first then b else c.appendByte (appendPunc c.clrs b (ch! ',')) 0x0a
    let b := c.appendIndent d b
    match encodeKey c k b d with
    | .panic => .panic
    | .done b d _ =>
      let b := appendPunc c.clrs b (ch! ':')
      let b := c.appendByte b (ch! ' ')
      match f b d with
      | .panic => .panic
      | .done b d (some e) => .brk b d e
      | .done b d none => strLoop c false es b d

/-- The code after the loops: `b` newline, pop, indent, `/repo/encode.go:522-524`
and the like. -/
def strTail (c : Cfg) (b : Bytes) (d : Int) : Bytes × Int :=
  let b := c.appendByte b 0x0a
  let d := c.pop d
  (c.appendIndent d b, d)

/-- Unsorted branch of `encodeMapStringInterface`, `/repo/encode.go:487-529`. -/
def mapSIUnsorted (c : Cfg) (es : List (Bytes × Enc)) : Enc := fun b d =>
  let b := appendPunc c.clrs b (ch! '{')
  if es.length ≠ 0 then
    let b := c.appendByte b 0x0a
    match strLoop c true es b (c.push d) with
    | .panic => .panic
    | .brk b d e => .done b d (some e)
    | .fin b d =>
      let t := strTail c b d
      .done (appendPunc c.clrs t.1 (ch! '}')) t.2 none
  else .done (appendPunc c.clrs b (ch! '}')) d none

/-- Unsorted branch of `encodeMapStringRawMessage`, `/repo/encode.go:592-632`:
the error is dropped. -/
def mapRawUnsorted (c : Cfg) (es : List (Bytes × Enc)) : Enc := fun b d =>
  let b := appendPunc c.clrs b (ch! '{')
  if es.length ≠ 0 then
    let b := c.appendByte b 0x0a
    match strLoop c true es b (c.push d) with
    | .panic => .panic
    | .brk b d _ =>
      let t := strTail c b d
      .done (appendPunc c.clrs t.1 (ch! '}')) t.2 none
    | .fin b d =>
      let t := strTail c b d
      .done (appendPunc c.clrs t.1 (ch! '}')) t.2 none
  else .done (appendPunc c.clrs b (ch! '}')) d none

/-- Sorted branches, `/repo/encode.go:531-583, 634-687`. The pooled `mapslice`
is taken to be empty when obtained. -/
def strMapSorted (c : Cfg) (es : List (Bytes × Enc)) : Enc := fun b d =>
  let es := sortBy (fun e => e.1) es
  let start := b.length
  let b := appendPunc c.clrs b (ch! '{')
  if es.length > 0 then
    let b := c.appendByte b 0x0a
    match strLoop c true es b (c.push d) with
    | .panic => .panic
    | .brk b d e =>
      let t := strTail c b d
      .done (t.1.take start) t.2 (some e)
    | .fin b d =>
      let t := strTail c b d
      .done (appendPunc c.clrs t.1 (ch! '}')) t.2 none
  else .done (appendPunc c.clrs b (ch! '}')) d none

/-- `encodeMapStringInterface`, `/repo/encode.go:481-584`. -/
def encodeMapSI (c : Cfg) (es : List (Bytes × Enc)) : Enc :=
  if c.sortMapKeys then strMapSorted c es else mapSIUnsorted c es

/-- `encodeMapStringRawMessage`, `/repo/encode.go:586-688`. -/
def encodeMapRaw (c : Cfg) (es : List (Bytes × Enc)) : Enc :=
  if c.sortMapKeys then strMapSorted c es else mapRawUnsorted c es

/-- The key of a member in `encodeStruct`: indentation and key text,
`/repo/encode.go:724-731`. -/
def structKey (c : Cfg) (b k : Bytes) (d : Int) : Bytes :=
  let b := c.appendIndent d b
  match c.clrs with
  | none => b ++ k
  | some cl => b ++ cl.key ++ k ++ ansiReset

/-- The loop of `encodeStruct`, `/repo/encode.go:704-747`; each entry is the
field, the result of `f.empty(v)` and `f.codec.encode`. `n` counts members. -/
def structLoop (c : Cfg) (start : Nat) (n : Nat) : List (FMeta × Bool × Enc) → Bytes → Int → Out × Nat
  | [], b, d => (.done b d none, n)
  | (m, empty, f) :: fs, b, d =>
    if m.omitempty ∧ empty then structLoop c start n fs b d
    else
      let b := if n ≠ 0 then c.appendByte (appendPunc c.clrs b (ch! ',')) 0x0a else b
      let k := doEncodeString c.escapeHTML [] m.name
      let lengthBeforeKey := b.length
      let b := structKey c b k d
      let b := appendPunc c.clrs b (ch! ':')
      let b := c.appendByte b (ch! ' ')
      match f b d with
      | .panic => (.panic, n)
      | .done b d (some e) =>
        if e = .rollback then structLoop c start n fs (b.take lengthBeforeKey) d
        else (.done (b.take start) d (some e), n)
      | .done b d none => structLoop c start (n + 1) fs b d

/-- `encodeStruct`, `/repo/encode.go:690-758`. The precomputed key texts
`f.json`, `f.html` are `encodeString(f.name, flags)`, `/repo/codec.go:638-641`. -/
def encodeStruct (c : Cfg) (fs : List (FMeta × Bool × Enc)) : Enc := fun b d =>
  let start := b.length
  let b := appendPunc c.clrs b (ch! '{')
  let b := if fs.length > 0 then c.appendByte b 0x0a else b
  match structLoop c start 0 fs b (c.push d) with
  | (.panic, _) => .panic
  | (.done b d (some e), _) => .done b d (some e)
  | (.done b d none, n) =>
    let b := if n > 0 then c.appendByte b 0x0a else b
    let d := c.pop d
    let b := c.appendIndent d b
    .done (appendPunc c.clrs b (ch! '}')) d none

/-- `appendRawMessageItemPrefix`, `/repo/encode.go:941-962`; the stack is
top first, a frame is (isObject, count). -/
def rawItemPrefix (c : Cfg) (b : Bytes) (d : Int) (stack : List (Bool × Nat)) (isKey : Bool) :
    Bytes × List (Bool × Nat) :=
  match stack with
  | [] => (b, [])
  | (isObject, count) :: st =>
    if isObject ∧ !isKey then (b, stack)
    else
      let b := if count > 0 then appendPunc c.clrs b (ch! ',') else b
      let b := c.appendByte b 0x0a
      (c.appendIndent d b, (isObject, count + 1) :: st)

/-- The color picked by `appendRawMessageScalar`, `/repo/encode.go:978-990`. -/
def rawColor (cl : Colors) (v : Bytes) (isKey : Bool) : Bytes :=
  if isKey then cl.key
  else if rvString v then cl.string
  else if rvNumber v then cl.number
  else if rvTrue v || rvFalse v then cl.bool
  else if rvNull v then cl.null
  else []

/-- `appendRawMessageScalar`, `/repo/encode.go:968-999`. -/
def rawScalar (c : Cfg) (b v : Bytes) (isKey : Bool) : Bytes :=
  match c.clrs with
  | none => if c.escapeHTML && rvString v then appendCompactEscapeHTML b v else b ++ v
  | some cl =>
    let b := b ++ rawColor cl v isKey
    let b := if c.escapeHTML && rvString v then appendCompactEscapeHTML b v else b ++ v
    b ++ ansiReset

/-- State of the loop of `appendRawMessageTokens`. -/
structure RawSt where
  b : Bytes
  d : Int
  stack : List (Bool × Nat)

/-- Body of the loop of `appendRawMessageTokens`, `/repo/encode.go:883-925`.
(`tok.Value[0]` is the delimiter.) -/
def rawStep (c : Cfg) (s : RawSt) (t : Obs) : RawSt :=
  if t.delim = ch! ':' then { s with b := c.appendByte (appendPunc c.clrs s.b (ch! ':')) (ch! ' ') }
  else if t.delim = ch! ',' then s
  else if t.delim = ch! '}' ∨ t.delim = ch! ']' then
    let had := match s.stack with
      | [] => false
      | (_, count) :: _ => decide (count > 0)
    let d := c.pop s.d
    let b := if had then c.appendIndent d (c.appendByte s.b 0x0a) else s.b
    ⟨appendPunc c.clrs b t.delim, d, s.stack.tail⟩
  else
    let isKey := t.delim = 0 && t.isKey
    let p := rawItemPrefix c s.b s.d s.stack isKey
    if t.delim = ch! '{' ∨ t.delim = ch! '[' then
      ⟨appendPunc c.clrs p.1 t.delim, c.push s.d, (t.delim = ch! '{', 0) :: p.2⟩
    else ⟨rawScalar c p.1 t.value isKey, s.d, p.2⟩

/-- `appendRawMessageTokens`, `/repo/encode.go:876-933`. -/
def rawTokens (c : Cfg) (s : Bytes) : Enc := fun b d =>
  let start := b.length
  let r := tokenize s
  let st := r.1.foldl (rawStep c) ⟨b, d, []⟩
  match r.2 with
  | .panic => .panic
  | .outOfFuel => .done st.b st.d (some .outOfFuel)
  | .stop t =>
    match t.err with
    | some e => .done (st.b.take start) st.d (some e)
    | none => .done st.b st.d none

/-- `appendRawMessageVerbatim`, `/repo/encode.go:836-858`. -/
def rawVerbatim (c : Cfg) (s : Bytes) : Enc := fun b d =>
  match c.ind with
  | none => .done (if c.escapeHTML then appendCompactEscapeHTML b s else b ++ s) d none
  | some i =>
    if i.disabled then .done (if c.escapeHTML then appendCompactEscapeHTML b s else b ++ s) d none
    else
      let s := if c.escapeHTML then appendCompactEscapeHTML [] s else s
      match c.jsonIndent s (c.appendIndent d []) i.indent with
      | none => .done (b ++ s) d none
      | some out => .done (b ++ out) d none

/-- `encodeRawMessage`, `/repo/encode.go:805-831`; `none` is a nil RawMessage. -/
def encodeRawMessage (c : Cfg) (v : Option Bytes) : Enc := fun b d =>
  match v with
  | none => .done (appendNull c.clrs b) d none
  | some v =>
    if c.trustRaw then
      match rawTokens c v b d with
      | .panic => .panic
      | .done b d (some _) => rawVerbatim c v b d
      | .done b d none => .done b d none
    else
      match parseValue v with
      | .fail _ _ => .done b d (some .unsupportedValue)
      | .ok s _ => rawTokens c s b d

/-- `encodeJSONMarshaler`, `/repo/encode.go:1003-1025`. -/
def encodeJSONMarshaler (c : Cfg) (r : JsonRes) : Enc := fun b d =>
  match r with
  | .isNil => .done (appendNull c.clrs b) d none
  | .err e => .done b d (some e)
  | .ok s => encodeRawMessage c s b d

/-- `emptyFuncOf`, `/repo/codec.go:861-917`, on the memory of the field. -/
def isEmpty : GV → Bool
  | .nil => true
  | .bool v => !v
  | .int z => z == 0
  | .uint n => n == 0
  | .float f => match f with
    | .fin _ text _ => text == bs! "0" || text == bs! "-0"
    | _ => false
  | .number s => s.length == 0
  | .string s => s.length == 0
  | .bytesNil => true
  | .bytes s => s.length == 0
  | .time _ _ => false
  | .sliceNil => true
  | .slice xs => xs.length == 0
  | .array xs => xs.length == 0
  | .mapNil => true
  | .map es => es.length == 0
  | .mapSI es => es.length == 0
  | .mapRaw es => es.length == 0
  | .struct _ => false
  | .ptrNil => true
  | .ptr _ => false
  | .iface _ dataNil => dataNil
  | .rawNil => true
  | .raw s => s.length == 0
  | .jsonM _ z => z
  | .textM _ z => z
  | .quoted v => isEmpty v
  | .embNil z => z
  | .emb _ z => z
  | .unsupported => false

mutual

/-- The encoding function of a value: `Append` (`/repo/json.go:122-142`) with the
codec selected for the value. -/
def enc (c : Cfg) : GV → Enc
  | .nil => fun b d => .done (appendNull c.clrs b) d none
  | .bool v => fun b d => .done (appendBool c.clrs b v) d none
  | .int z => fun b d => .done (appendInt64 c.clrs b z) d none
  | .uint n => fun b d => .done (appendUint64 c.clrs b n) d none
  | .float f => colored c (·.number) (encodeFloat f)
  | .number s => encodeNumber c s
  | .string s => encodeString c s
  | .bytesNil => encodeBytes c none
  | .bytes s => encodeBytes c (some s)
  | .time s _ => encodeTime c s
  | .sliceNil => fun b d => .done (appendNull c.clrs b) d none
  | .slice xs => encodeArray c (encL c xs)
  | .array xs => encodeArray c (encL c xs)
  | .mapNil => fun b d => .done (appendNull c.clrs b) d none
  | .map es => encodeMap c (encE c es)
  | .mapSI es => encodeMapSI c (encS c es)
  | .mapRaw es => encodeMapRaw c (es.map fun e => (e.1, encodeRawMessage c e.2))
  | .struct fs => encodeStruct c (encF c fs)
  | .ptrNil => fun b d => .done (appendNull c.clrs b) d none
  | .ptr v => enc c v
  | .iface v _ => enc c v
  | .rawNil => encodeRawMessage c none
  | .raw s => encodeRawMessage c (some s)
  | .jsonM r _ => encodeJSONMarshaler c r
  | .textM r _ => encodeTextMarshaler c r
  | .quoted v => encodeToString c (enc c v)
  | .embNil _ => fun b d => .done b d (some .rollback)
  | .emb v _ => enc c v
  | .unsupported => fun b d => .done b d (some .unsupportedType)

def encL (c : Cfg) : List GV → List Enc
  | [] => []
  | v :: vs => enc c v :: encL c vs

def encE (c : Cfg) : List (MKey × GV) → List (MKey × Enc)
  | [] => []
  | (k, v) :: es => (k, enc c v) :: encE c es

def encS (c : Cfg) : List (Bytes × GV) → List (Bytes × Enc)
  | [] => []
  | (k, v) :: es => (k, enc c v) :: encS c es

def encF (c : Cfg) : List (FMeta × GV) → List (FMeta × Bool × Enc)
  | [] => []
  | (m, v) :: fs => (m, isEmpty v, enc c v) :: encF c fs

end

end JC

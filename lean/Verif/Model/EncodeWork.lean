import Verif.Model.Encode
import Verif.Model.TokenWork
/-!
The work that the encoding functions of `Model/Encode.lean` do.

Beside every encoding function stands the number of steps it takes from a buffer and a nesting level: one for each
call, one for each round of a loop, one for each byte that is looked at, as often as it is looked at, and one for each
byte that is written to the buffer.  Buffers between the steps are those of `Model/Encode.lean`.

Simplifications: a byte that is appended counts once, though a buffer that has to grow is copied (the cost of `append`
is constant on average).  Truncating a buffer costs nothing.  `strconv` takes a step for each byte it writes,
`encoding/base64` and `encoding/json.Indent` take one for each byte they read and one for each they write.  What `sort`
takes for the keys of a map, calls of `MarshalText` and formatting of numbers in comparisons included, is given.  What
the methods of a value do themselves does not count.
-/
namespace JC

/-- Steps of an encoding function, from a buffer and a level. -/
abbrev EncCost := Bytes → Int → Nat

/-- An encoding function with its steps. -/
abbrev EncS := Enc × EncCost

/-- The bytes that were appended on the way from one buffer to another. -/
def grown (b b' : Bytes) : Nat := b'.length - b.length

/-- The branches around `colored`: color and reset. -/
def coloredS (c : Cfg) (clr : Colors → Bytes) (s : EncCost) : EncCost := fun b d =>
  match c.clrs with
  | none => s b d + 1
  | some cl => (clr cl).length + s (b ++ clr cl) d + ansiReset.length + 1

/-- Appending a text: `appendNull` and the like, `/repo/jsoncolor.go:69-121`. -/
def appendS (f : Bytes → Bytes) : EncCost := fun b _ => grown b (f b) + 1

/-- `encodeFloat`, `/repo/encode.go:96-130`: the text and four bytes of the exponent. -/
def encodeFloatS (f : Flt) : EncCost := fun _ _ =>
  match f with
  | .nan => 1
  | .inf => 1
  | .fin _ text _ => text.length + 5

/-- `encodeNumber`, `/repo/encode.go:132-151`: the number is parsed, `/repo/encode.go:137`, and appended. -/
def encodeNumberS (c : Cfg) (s : Bytes) : EncCost := fun b d =>
  let n := if s = [] then bs! "0" else s
  (parseNumberW n).2 + 1 + match encodeNumber c s b d with
    | .done b' _ _ => grown b b'
    | .panic => 0

/-- The rounds of the loop of `doEncodeString`, `/repo/encode.go:185-270`, with the bytes that are looked at. -/
def encRounds (html : Bool) (s : Bytes) : Nat :=
  match hs : s with
  | [] => 1
  | c :: t =>
    if encPlain html c then encRounds html t + 1
    else if c = ch! '\\' ∨ c = ch! '"' then encRounds html t + 1
    else if c = 0x0a then encRounds html t + 1
    else if c = 0x0d then encRounds html t + 1
    else if c = 0x09 then encRounds html t + 1
    else if c = ch! '<' ∨ c = ch! '>' ∨ c = ch! '&' then encRounds html t + 1
    else if c < 0x20 then encRounds html t + 1
    else encRounds html (s.drop (decodeRune s).2) + (s.take (decodeRune s).2).length + 1
termination_by s.length
decreasing_by
  all_goals
    have := decodeRune_size_pos c t
    subst hs
    simp only [List.length_drop, List.length_cons]
    omega

/-- `doEncodeString`, `/repo/encode.go:177-275`. -/
def encStrS (c : Cfg) (s : Bytes) : EncCost := fun b _ =>
  encRounds c.escapeHTML s + grown b (doEncodeString c.escapeHTML b s) + 1

/-- `encodeKey`, `/repo/encode.go:153-163`. -/
def encodeKeyS (c : Cfg) (s : Bytes) : EncCost := coloredS c (·.key) (encStrS c s)

/-- `encodeString`, `/repo/encode.go:165-175`. -/
def encodeStringS (c : Cfg) (s : Bytes) : EncCost := coloredS c (·.string) (encStrS c s)

/-- `encodeToString`, `/repo/encode.go:277-294`: the value, the string made of its text, and the copy to where the text
was, `/repo/encode.go:291-292`. -/
def encodeToStringS (c : Cfg) (f : EncS) : EncCost := fun b d =>
  f.2 b d + 1 + match f.1 b d with
    | .done b1 d none =>
      let s := b1.drop b.length
      encStrS c s b1 d + grown b1 (doEncodeString c.escapeHTML b1 s)
    | _ => 0

/-- `doEncodeBytes`, `/repo/encode.go:307-329`. -/
def doEncodeBytesS (c : Cfg) (v : Option Bytes) : EncCost := fun b _ =>
  match v with
  | none => grown b (appendNull c.clrs b) + 1
  | some v => v.length + (b64Encode v).length + 3

/-- `encodeBytes`, `/repo/encode.go:296-305`. -/
def encodeBytesS (c : Cfg) (v : Option Bytes) : EncCost := coloredS c (·.bytes) (doEncodeBytesS c v)

/-- `encodeTime`, `/repo/encode.go:356-372`. -/
def encodeTimeS (c : Cfg) (s : Bytes) : EncCost := fun _ _ =>
  match c.clrs with
  | none => s.length + 3
  | some cl => cl.time.length + s.length + ansiReset.length + 3

/-- The loop of `encodeArray`, `/repo/encode.go:382-393`. -/
def arrayLoopS (c : Cfg) : Bool → List EncS → EncCost
  | _, [] => fun _ _ => 1
  | first, f :: fs => fun b d =>
    let b1 := if first then b else appendPunc c.clrs b (ch! ',')
    let b1 := c.appendByte b1 0x0a
    let b1 := c.appendIndent d b1
    grown b b1 + f.2 b1 d + 1 + match f.1 b1 d with
      | .done b d none => arrayLoopS c false fs b d
      | _ => 0

/-- `encodeArray`, `/repo/encode.go:374-402`: the brackets, the loop and the last line. -/
def encodeArrayS (c : Cfg) (fs : List EncS) : EncCost := fun b d =>
  let b1 := appendPunc c.clrs b (ch! '[')
  grown b b1 + 1 + if fs.length > 0 then
    arrayLoopS c true fs b1 (c.push d) + match arrayLoop c b.length true (fs.map (·.1)) b1 (c.push d) with
      | .done b d none => grown b (appendPunc c.clrs (c.appendIndent (c.pop d) (c.appendByte b 0x0a)) (ch! ']'))
      | _ => 0
  else grown b1 (appendPunc c.clrs b1 (ch! ']'))

/-- `encodeTextMarshaler`, `/repo/encode.go:1027-1055`. -/
def encodeTextMarshalerS (c : Cfg) (r : TextRes) : EncCost := fun b d =>
  match r with
  | .isNil => grown b (appendNull c.clrs b) + 1
  | .err _ => 1
  | .absent => 1
  | .ok s => coloredS c (·.textMarshaler) (encStrS c s) b d + 1

/-- Encoding of map keys, `/repo/codec.go:355-406`. -/
def encodeMKeyS (c : Cfg) (k : MKey) : EncCost :=
  match k with
  | .str s => encodeKeyS c s
  | .int z => encodeToStringS c (fun b d => .done (appendInt64 c.clrs b z) d none, appendS fun b => appendInt64 c.clrs b z)
  | .uint n => encodeToStringS c (fun b d => .done (appendUint64 c.clrs b n) d none, appendS fun b => appendUint64 c.clrs b n)
  | .text r => encodeTextMarshalerS c r

/-- The loop of `encodeMap`, `/repo/encode.go:433-453`. -/
def mapLoopS (c : Cfg) : Bool → List (MKey × EncS) → EncCost
  | _, [] => fun _ _ => 1
  | first, (k, f) :: es => fun b d =>
    let b1 := if first then b else c.appendByte (appendPunc c.clrs b (ch! ',')) 0x0a
    let b1 := c.appendIndent d b1
    grown b b1 + encodeMKeyS c k b1 d + 1 + match encodeMKey c k b1 d with
      | .done b2 d none =>
        let b3 := c.appendByte (appendPunc c.clrs b2 (ch! ':')) (ch! ' ')
        grown b2 b3 + f.2 b3 d + match f.1 b3 d with
          | .done b d none => mapLoopS c false es b d
          | _ => 0
      | _ => 0

/-- `encodeMap`, `/repo/encode.go:414-461`: collecting the keys, sorting them (`srt`), the braces, the loop and the last
line. -/
def encodeMapS (c : Cfg) (srt : List MKey → Nat) (es : List (MKey × EncS)) : EncCost := fun b d =>
  es.length + 1 + (if c.sortMapKeys then srt (es.map (·.1)) else 0) +
  if c.sortMapKeys ∧ es.length ≥ 2 ∧ es.any (fun e => e.1.uncallable) then 0
  else
    let es := if c.sortMapKeys then sortBy (fun e => e.1.sortText) es else es
    let b1 := appendPunc c.clrs b (ch! '{')
    grown b b1 + if es.length ≠ 0 then
      let b2 := c.appendByte b1 0x0a
      grown b1 b2 + mapLoopS c true es b2 (c.push d) + match mapLoop c b.length true (es.map fun e => (e.1, e.2.1)) b2 (c.push d) with
        | .done b d none => grown b (appendPunc c.clrs (c.appendIndent (c.pop d) (c.appendByte b 0x0a)) (ch! '}'))
        | _ => 0
    else grown b1 (appendPunc c.clrs b1 (ch! '}'))

/-- The loops of `encodeMapStringInterface` (`/repo/encode.go:499-521, 548-565`) and `encodeMapStringRawMessage`
(604-624, 652-669). -/
def strLoopS (c : Cfg) : Bool → List (Bytes × EncS) → EncCost
  | _, [] => fun _ _ => 1
  | first, (k, f) :: es => fun b d =>
    let b1 := if first then b else c.appendByte (appendPunc c.clrs b (ch! ',')) 0x0a
    let b1 := c.appendIndent d b1
    grown b b1 + encodeKeyS c k b1 d + 1 + match encodeKey c k b1 d with
      | .done b2 d _ =>
        let b3 := c.appendByte (appendPunc c.clrs b2 (ch! ':')) (ch! ' ')
        grown b2 b3 + f.2 b3 d + match f.1 b3 d with
          | .done b d none => strLoopS c false es b d
          | _ => 0
      | .panic => 0

/-- `encodeMapStringInterface`, `/repo/encode.go:481-584`, and `encodeMapStringRawMessage`, 586-688: collecting the
entries, sorting them, the braces, the loop, the last line, and clearing the entries. -/
def strMapS (c : Cfg) (srt : List MKey → Nat) (es : List (Bytes × EncS)) : EncCost := fun b d =>
  (if c.sortMapKeys then 2 * es.length + srt (es.map fun e => .str e.1) else 0) + 1 +
  let es := if c.sortMapKeys then sortBy (fun e => e.1) es else es
  let b1 := appendPunc c.clrs b (ch! '{')
  grown b b1 + if es.length ≠ 0 then
    let b2 := c.appendByte b1 0x0a
    grown b1 b2 + strLoopS c true es b2 (c.push d) + match strLoop c true (es.map fun e => (e.1, e.2.1)) b2 (c.push d) with
      | .fin b d => grown b (appendPunc c.clrs (strTail c b d).1 (ch! '}'))
      | .brk b d _ => grown b (appendPunc c.clrs (strTail c b d).1 (ch! '}'))
      | .panic => 0
  else grown b1 (appendPunc c.clrs b1 (ch! '}'))

/-- The loop of `encodeStruct`, `/repo/encode.go:704-747`. -/
def structLoopS (c : Cfg) (n : Nat) : List (FMeta × Bool × EncS) → EncCost
  | [], _, _ => 1
  | (m, empty, f) :: fs, b, d =>
    if m.omitempty ∧ empty then structLoopS c n fs b d + 1
    else
      let b1 := if n ≠ 0 then c.appendByte (appendPunc c.clrs b (ch! ',')) 0x0a else b
      let k := doEncodeString c.escapeHTML [] m.name
      let b2 := structKey c b1 k d
      let b2 := appendPunc c.clrs b2 (ch! ':')
      let b2 := c.appendByte b2 (ch! ' ')
      grown b b2 + f.2 b2 d + 1 + match f.1 b2 d with
        | .panic => 0
        | .done b d (some e) => if e = .rollback then structLoopS c n fs (b.take b1.length) d else 0
        | .done b d none => structLoopS c (n + 1) fs b d

/-- `encodeStruct`, `/repo/encode.go:690-758`. -/
def encodeStructS (c : Cfg) (fs : List (FMeta × Bool × EncS)) : EncCost := fun b d =>
  let b1 := appendPunc c.clrs b (ch! '{')
  let b1 := if fs.length > 0 then c.appendByte b1 0x0a else b1
  grown b b1 + structLoopS c 0 fs b1 (c.push d) + 1 +
    match structLoop c b.length 0 (fs.map fun f => (f.1, f.2.1, f.2.2.1)) b1 (c.push d) with
    | (.done b d none, n) =>
      grown b (appendPunc c.clrs (c.appendIndent (c.pop d) (if n > 0 then c.appendByte b 0x0a else b)) (ch! '}'))
    | _ => 0

/-- `appendCompactEscapeHTML`, `/repo/encode.go:1057-1118`: each byte is looked at once, or three times where a
separator begins (1102), and what is appended. -/
def compactS (s : Bytes) : Nat := 3 * s.length + (compactLoop false false 0 [] s).length + 1

/-- Body of the loop of `appendRawMessageTokens`, `/repo/encode.go:883-925`: what is appended, and for a scalar a look
at its first byte for each color (978-990) and what escaping it takes. -/
def rawStepS (c : Cfg) (s : RawSt) (t : Obs) : Nat :=
  grown s.b (rawStep c s t).b + 6 + if c.escapeHTML && rvString t.value then compactS t.value else 0

/-- The loop of `appendRawMessageTokens` over the tokens. -/
def rawFoldS (c : Cfg) : RawSt → List Obs → Nat
  | _, [] => 1
  | s, t :: ts => rawStepS c s t + rawFoldS c (rawStep c s t) ts

/-- `appendRawMessageTokens`, `/repo/encode.go:876-933`. -/
def rawTokensS (c : Cfg) (s : Bytes) : EncCost := fun b d =>
  (tokenizeW s).2 + rawFoldS c ⟨b, d, []⟩ (tokenize s).1 + 1

/-- `appendRawMessageVerbatim`, `/repo/encode.go:836-858`. -/
def rawVerbatimS (c : Cfg) (s : Bytes) : EncCost := fun b d =>
  (if c.escapeHTML then compactS s else 0) + 1 + match c.ind with
    | none => grown b (if c.escapeHTML then appendCompactEscapeHTML b s else b ++ s)
    | some i =>
      if i.disabled then grown b (if c.escapeHTML then appendCompactEscapeHTML b s else b ++ s)
      else
        let s := if c.escapeHTML then appendCompactEscapeHTML [] s else s
        (c.appendIndent d []).length + s.length + match c.jsonIndent s (c.appendIndent d []) i.indent with
          | none => s.length
          | some out => 2 * out.length

/-- `encodeRawMessage`, `/repo/encode.go:805-831`. -/
def encodeRawMessageS (c : Cfg) (v : Option Bytes) : EncCost := fun b d =>
  match v with
  | none => grown b (appendNull c.clrs b) + 1
  | some v =>
    if c.trustRaw then
      rawTokensS c v b d + 1 + match rawTokens c v b d with
        | .done b d (some _) => rawVerbatimS c v b d
        | _ => 0
    else
      (parseValueW v).2 + 1 + match parseValue v with
        | .fail _ _ => 0
        | .ok s _ => rawTokensS c s b d

/-- `encodeJSONMarshaler`, `/repo/encode.go:1003-1025`. -/
def encodeJSONMarshalerS (c : Cfg) (r : JsonRes) : EncCost := fun b d =>
  match r with
  | .isNil => grown b (appendNull c.clrs b) + 1
  | .err _ => 1
  | .ok s => encodeRawMessageS c s b d + 1

mutual

/-- The steps of the encoding function of a value: `Append` (`/repo/json.go:122-142`). -/
def encSteps (c : Cfg) (srt : List MKey → Nat) : GV → EncCost
  | .nil => appendS (appendNull c.clrs)
  | .bool v => appendS fun b => appendBool c.clrs b v
  | .int z => appendS fun b => appendInt64 c.clrs b z
  | .uint n => appendS fun b => appendUint64 c.clrs b n
  | .float f => coloredS c (·.number) (encodeFloatS f)
  | .number s => encodeNumberS c s
  | .string s => encodeStringS c s
  | .bytesNil => encodeBytesS c none
  | .bytes s => encodeBytesS c (some s)
  | .time s _ => encodeTimeS c s
  | .sliceNil => appendS (appendNull c.clrs)
  | .slice xs => encodeArrayS c (stepsL c srt xs)
  | .array xs => encodeArrayS c (stepsL c srt xs)
  | .mapNil => appendS (appendNull c.clrs)
  | .map es => encodeMapS c srt (stepsE c srt es)
  | .mapSI es => strMapS c srt (stepsM c srt es)
  | .mapRaw es => strMapS c srt (es.map fun e => (e.1, encodeRawMessage c e.2, encodeRawMessageS c e.2))
  | .struct fs => encodeStructS c (stepsF c srt fs)
  | .ptrNil => appendS (appendNull c.clrs)
  | .ptr v => fun b d => encSteps c srt v b d + 1
  | .iface v _ => fun b d => encSteps c srt v b d + 1
  | .rawNil => encodeRawMessageS c none
  | .raw s => encodeRawMessageS c (some s)
  | .jsonM r _ => encodeJSONMarshalerS c r
  | .textM r _ => encodeTextMarshalerS c r
  | .quoted v => encodeToStringS c (enc c v, encSteps c srt v)
  | .embNil _ => fun _ _ => 1
  | .emb v _ => fun b d => encSteps c srt v b d + 1
  | .unsupported => fun _ _ => 1

def stepsL (c : Cfg) (srt : List MKey → Nat) : List GV → List EncS
  | [] => []
  | v :: vs => (enc c v, encSteps c srt v) :: stepsL c srt vs

def stepsE (c : Cfg) (srt : List MKey → Nat) : List (MKey × GV) → List (MKey × EncS)
  | [] => []
  | (k, v) :: es => (k, enc c v, encSteps c srt v) :: stepsE c srt es

def stepsM (c : Cfg) (srt : List MKey → Nat) : List (Bytes × GV) → List (Bytes × EncS)
  | [] => []
  | (k, v) :: es => (k, enc c v, encSteps c srt v) :: stepsM c srt es

def stepsF (c : Cfg) (srt : List MKey → Nat) : List (FMeta × GV) → List (FMeta × Bool × EncS)
  | [] => []
  | (m, v) :: fs => (m, isEmpty v, enc c v, encSteps c srt v) :: stepsF c srt fs

end

end JC

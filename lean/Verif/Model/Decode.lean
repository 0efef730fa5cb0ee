import Verif.Model.Strings
import Verif.Model.Ints
import Verif.Model.Base64
import Verif.Model.Encode
/-!
Model of `/repo/decode.go` and of `Parse` and `Unmarshal` in `/repo/json.go:193-232`.

A destination is described by a type `Ty`, one constructor per decoding function
that `constructCodec` (`/repo/codec.go:79-213`) can select, and holds a value `DV`.
Every decoding function gets the current contents of its destination and returns
the new contents.  Recursive Go types are represented by their finite
unrollings: decoding a given input only ever follows the type as deep as the
input is nested (`Model/Recur.lean`, C80).

Contents that do not fit the type (which Go rules out) are treated as zero
values, so that no result depends on typing invariants.  A pointer found in an
interface is part of the contents; when decoding into it fails, Go clears the
interface but other holders of the pointer see what was decoded so far, which is
not tracked here.

Not modelled: fields promoted through embedded pointers
(`decodeEmbeddedStructPointer`), the
zero-copy flags (they only affect aliasing, see `Model/Alias.lean`), the texts of errors, and the path
that is added to an `*UnmarshalTypeError` on its way out.
-/
namespace JC

/-- A key type with methods `UnmarshalText` and `MarshalText`, given by what they answer. Its keys are
represented by bytes, two of them by the same bytes if they are equal in Go. -/
structure TextKey where
  /-- the error of `UnmarshalText` for a text -/
  answer : Bytes → Option Err
  /-- the key that `UnmarshalText` makes of a text -/
  key : Bytes → Bytes
  /-- `MarshalText` of a key -/
  marshal : Bytes → TextRes
  /-- `fmt.Sprint` of a key -/
  sprint : Bytes → Bytes

/-- Key types of maps, by the key decoder chosen in `constructMapCodec`, `/repo/codec.go:355-406`.
A key type with `MarshalText` but no `UnmarshalText`, whose decoder calls a method that is not there, is
not represented (`Model/TextKey.lean`). -/
inductive KTy where
  | str
  | int (k : IntKind)
  | text (tk : TextKey)

/-- Types of destinations. -/
inductive Ty where
  | bool
  | int (k : IntKind)
  | float32
  | float64
  /-- `json.Number` -/
  | number
  | string
  /-- slices of bytes -/
  | bytes
  | duration
  | time
  | raw
  /-- `interface{}`: `decodeInterface` -/
  | iface
  /-- any other interface type: `decodeMaybeEmptyInterface`; `empty`: it has no methods -/
  | ifaceM (empty : Bool)
  /-- slices other than byte slices -/
  | slice (t : Ty)
  | array (n : Nat) (t : Ty)
  | map (k : KTy) (t : Ty)
  | mapSI
  | mapRaw
  | ptr (t : Ty)
  /-- the fields of the `structType` with their names -/
  | struct (fs : List (Bytes × Ty))
  /-- a field with the `string` option, `/repo/codec.go:668-705`, not of an integer type -/
  | quoted (t : Ty)
  /-- a field with the `string` option of an integer type or a pointer to one -/
  | quotedInt (t : Ty)
  /-- an `Unmarshaler`, given by its answer to a text -/
  | jsonU (f : Bytes → Option Err)
  /-- a `TextUnmarshaler`, given by its answer to a text -/
  | textU (f : Bytes → Option Err)
  | unsupported

/-- Map keys. -/
inductive MK where
  | str (s : Bytes)
  | int (z : Int)
  /-- a key of a type with methods -/
  | user (s : Bytes)
deriving DecidableEq, Repr

/-- The text of a key as a JSON member name; for a key of a type with methods, the bytes that represent it. -/
def MK.text : MK → Bytes
  | .str s => s
  | .int z => fmtInt z
  | .user s => s

/-- Contents of a destination. A map is listed by ascending key text, so that
equal maps are equal lists. -/
inductive DV where
  | bool (v : Bool)
  /-- all integer kinds and `time.Duration` -/
  | int (z : Int)
  | float (f : Flt)
  | number (s : Bytes)
  | string (s : Bytes)
  | bytesNil
  /-- a byte slice and the memory behind it up to its capacity -/
  | bytes (s spare : Bytes)
  /-- a time, by its RFC 3339 text -/
  | time (s : Bytes)
  | rawNil
  | raw (s : Bytes)
  | ifaceNil
  /-- an interface holding a value of the given type -/
  | iface (t : Ty) (v : DV)
  | sliceNil
  /-- a slice and the memory behind it; memory that is not listed is zero -/
  | slice (xs spare : List DV)
  | array (xs : List DV)
  | mapNil
  | map (es : List (MK × DV))
  | ptrNil
  | ptr (v : DV)
  | struct (fs : List DV)
  /-- user-defined types: the last text they accepted -/
  | user (s : Option Bytes)

/-- Functions of the Go library that are taken as given. -/
structure Lib where
  /-- `strconv.ParseFloat` (with 32 bits if the flag is set); `none` is an error -/
  parseFloat : Bool → Bytes → Option Flt
  /-- `time.ParseDuration` -/
  parseDuration : Bytes → Option Int
  /-- `time.Parse(time.RFC3339Nano, _)` -/
  parseTime : Bytes → Option Bytes
  /-- `unicode.SimpleFold` -/
  simpleFold : Nat → Nat
  /-- `strings.ToLower` of a string that is not ASCII -/
  lower : Bytes → Bytes

/-- `decoder`, `/repo/codec.go:28`: the flags. -/
structure DCfg where
  useNumber : Bool := false
  disallowUnknown : Bool := false
  /-- `DontMatchCaseInsensitiveStructFields` -/
  noFold : Bool := false
  lib : Lib

/-- Why a decoding function does not return: an index out of range, or (an
artefact of the model) a loop that ran out of fuel. -/
inductive Crash where
  | panic
  | fuel
deriving DecidableEq, Repr

/-- Result of a decoding function: contents of the destination, remainder, error. -/
inductive DRes where
  | ok (v : DV) (r : Bytes)
  | err (v : DV) (r : Bytes) (e : Err)
  | crash (c : Crash)

/-- A decoding function: input and contents of the destination. -/
abbrev Dec := Bytes → DV → DRes

/-- Apply a wrapper to the contents of the destination. -/
def DRes.map (f : DV → DV) : DRes → DRes
  | .ok v r => .ok (f v) r
  | .err v r e => .err (f v) r e
  | .crash c => .crash c

/-- `return inputError(b, t)` with the destination untouched. -/
def inputErr (b : Bytes) (p : DV) : DRes := .err p (inputError b).1 (inputError b).2

/-- `decodeNull`, `/repo/decode.go:17-22`. -/
def decodeNull : Dec := fun b p => if hasNullPrefix b then .ok p (b.drop 4) else inputErr b p

/-- `decodeBool`, `/repo/decode.go:24-40`, with `hasTruePrefix`, `hasFalsePrefix`. -/
def decodeBool : Dec := fun b p =>
  if 4 ≤ b.length ∧ b.take 4 = bs! "true" then .ok (.bool true) (b.drop 4)
  else if 5 ≤ b.length ∧ b.take 5 = bs! "false" then .ok (.bool false) (b.drop 5)
  else if hasNullPrefix b then .ok p (b.drop 4)
  else inputErr b p

/-- `decodeInt` … `decodeUint64`, `/repo/decode.go:42-218`, see `decodeIntKind`. -/
def decodeInt (k : IntKind) : Dec := fun b p =>
  if hasNullPrefix b then .ok p (b.drop 4)
  else
    let r := decodeIntKind k b (match p with | .int z => z | _ => 0)
    match r.err with
    | none => .ok (.int r.dest) r.rest
    | some e => .err p r.rest e

/-- `decodeFloat32`, `decodeFloat64`, `/repo/decode.go:220-256`. -/
def decodeFloat (l : Lib) (bits32 : Bool) : Dec := fun b p =>
  if hasNullPrefix b then .ok p (b.drop 4)
  else match parseNumber b with
    | .fail _ _ => inputErr b p
    | .ok v r => match l.parseFloat bits32 v with
      | none => inputErr b p
      | some f => .ok (.float f) r

/-- `decodeNumber`, `/repo/decode.go:258-275`. -/
def decodeNumber : Dec := fun b p =>
  if hasNullPrefix b then .ok p (b.drop 4)
  else match parseNumber b with
    | .fail _ _ => inputErr b p
    | .ok v r => .ok (.number v) r

/-- `decodeString`, `/repo/decode.go:277-297`. -/
def decodeString : Dec := fun b p =>
  if hasNullPrefix b then .ok p (b.drop 4)
  else match parseStringUnquote b [] with
    | .panic => .crash .panic
    | .fail r e => if b.head? ≠ some (ch! '"') then inputErr b p else .err p r e
    | .ok s r _ => .ok (.string s) r

/-- `decodeFromString`, `/repo/decode.go:299-318`. On a parse error Go calls
`inputError` on the nil slice. -/
def decodeFromString (dec : Dec) : Dec := fun b p =>
  if hasNullPrefix b then dec b p
  else match parseStringUnquote b [] with
    | .panic => .crash .panic
    | .fail _ _ => inputErr [] p
    | .ok v b _ =>
      match dec v p with
      | .crash c => .crash c
      | .err p _ e => .err p b e
      | .ok p v => if skipSpaces v ≠ [] then .err p b .syntax else .ok p b

/-- `hasLeadingZeroes`, `/repo/parse.go:694-699`. -/
def hasLeadingZeroes (v : Bytes) : Bool :=
  let v := match v with
    | c :: t => if c = ch! '+' ∨ c = ch! '-' then t else v
    | [] => v
  match v with
  | a :: b :: _ => a == ch! '0' && isDigit b
  | _ => false

/-- The loop at `/repo/decode.go:370-372`: zeroes before another digit. -/
def dropZeroes : Bytes → Bytes
  | a :: b :: t => if a = ch! '0' ∧ isDigit b then dropZeroes (b :: t) else a :: b :: t
  | v => v

/-- The removal of leading zeroes, `/repo/decode.go:358-375`. -/
def stripZeroes (v : Bytes) : Bytes :=
  if hasLeadingZeroes v then
    match v with
    | c :: t => if c = ch! '-' ∨ c = ch! '+' then c :: dropZeroes t else dropZeroes v
    | [] => v
  else v

/-- The error of an unquoted value with the `string` option, `/repo/decode.go:325-347`:
`*UnmarshalTypeError` for numbers out of range, otherwise an `errors.New`. -/
def unquotedErr (l : Lib) (b : Bytes) : Bytes × Err :=
  match parseNumber b with
  | .ok v r =>
    if (indexByte v (ch! '.') ≠ none ∨ indexByte v (ch! 'e') ≠ none ∨ indexByte v (ch! 'E') ≠ none) ∧
        (l.parseFloat false v).isNone then (r, .unmarshalType)
    else (r, .other 1)
  | .fail r _ => (r, .other 1)

/-- `decodeFromStringToInt`, `/repo/decode.go:320-403`. -/
def decodeFromStringToInt (l : Lib) (dec : Dec) : Dec := fun b p =>
  if hasNullPrefix b then dec b p
  else if b ≠ [] ∧ b.head? ≠ some (ch! '"') then .err p (unquotedErr l b).1 (unquotedErr l b).2
  else if b.take 2 = bs! "\"\"" then .err p b (.other 1)
  else match parseStringUnquote b [] with
    | .panic => .crash .panic
    | .fail _ _ => inputErr [] p
    | .ok v b _ =>
      let v := stripZeroes v
      match dec v p with
      | .crash c => .crash c
      | .ok p r => if r ≠ [] then .err p r .unmarshalType else .ok p b
      | .err p _ e =>
        if e = .syntax then
          if v.head? = some (ch! '-') then .err p b .unmarshalType else .err p b (.other 1)
        else match parseNumber v with
          | .ok _ _ => .err p b e
          | .fail _ _ => match parseValue v with
            | .ok _ _ => .err p b (.other 1)
            | .fail _ _ => .err p b e

/-- `decodeDuration`, `/repo/decode.go:441-478`. -/
def decodeDuration (l : Lib) : Dec := fun b p =>
  if hasNullPrefix b then .ok p (b.drop 4)
  else match b with
    | [] => inputErr b p
    | c :: t =>
      if c ≠ ch! '"' then
        match parseInt b with
        | .fail _ _ => inputErr b p
        | .ok v r => .ok (.int v) r
      else if b.length < 2 then inputErr b p
      else match indexByte t (ch! '"') with
        | none => inputErr b p
        | some i => match l.parseDuration (t.take i) with
          | none => inputErr b p
          | some v => .ok (.int v) (t.drop (i + 1))

/-- `decodeTime`, `/repo/decode.go:480-503`. -/
def decodeTime (l : Lib) : Dec := fun b p =>
  if hasNullPrefix b then .ok p (b.drop 4)
  else match b with
    | [] => inputErr b p
    | c :: t =>
      if b.length < 2 ∨ c ≠ ch! '"' then inputErr b p
      else match indexByte t (ch! '"') with
        | none => inputErr b p
        | some i => match l.parseTime (t.take i) with
          | none => inputErr b p
          | some v => .ok (.time v) (t.drop (i + 1))

/-- The rest of `decodeArray` once the array is full, `/repo/decode.go:546-564`. -/
def arrayRest (p : DV) : Nat → Bytes → DRes
  | 0, _ => .crash .fuel
  | n + 1, b =>
    let b := skipSpaces b
    match b with
    | [] => .err p b .syntax
    | c :: t =>
      if c = ch! ']' then .ok p t
      else
        let b := if c = ch! ',' then skipSpaces t else b
        match parseValue b with
        | .fail r e => .err p r e
        | .ok _ r => arrayRest p n r

/-- The loop of `decodeArray`, `/repo/decode.go:516-542`: `n` elements to go,
`done` and `mem` the elements before and from the current one. -/
def arrayElems (dec : Dec) (zero : DV) (first : Bool) (done : List DV) : Nat → List DV → Bytes → DRes
  | 0, mem, b => arrayRest (.array (done ++ mem)) (b.length + 1) b
  | n + 1, mem, b =>
    let b := skipSpaces b
    let elem := fun b =>
      match dec b (mem.headD zero) with
      | .crash c => .crash c
      | .err x r e => .err (.array (done ++ x :: mem.tail)) r e
      | .ok x r => arrayElems dec zero false (done ++ [x]) n mem.tail r
    if first then elem b
    else match b with
      | [] => .err (.array (done ++ mem)) b .syntax
      | c :: t =>
        if c = ch! ',' then elem (skipSpaces t)
        else if c = ch! ']' then .ok (.array (done ++ mem)) t
        else .err (.array (done ++ mem)) b .syntax

/-- `decodeArray`, `/repo/decode.go:505-565`. -/
def decodeArray (n : Nat) (dec : Dec) (zero : DV) : Dec := fun b p =>
  if hasNullPrefix b then .ok p (b.drop 4)
  else match b with
    | [] => inputErr b p
    | c :: t =>
      if b.length < 2 ∨ c ≠ ch! '[' then inputErr b p
      else arrayElems dec zero true [] n (match p with | .array xs => xs | _ => []) t

/-- The loop of `decodeSlice`, `/repo/decode.go:597-646`: `done` the elements so
far, `mem` the memory behind them. Growing the slice adds zero memory, which
`mem` leaves out. -/
def sliceLoop (dec : Dec) (zero : DV) (input : Bytes) : Nat → List DV → List DV → Bytes → DRes
  | 0, _, _, _ => .crash .fuel
  | n + 1, done, mem, b =>
    let b := skipSpaces b
    let elem := fun b =>
      match dec b (mem.headD zero) with
      | .crash c => .crash c
      | .err x _ e =>
        match parseValue input with
        | .fail r e2 => .err (.slice done (x :: mem.tail)) r e2
        | .ok _ r => .err (.slice done (x :: mem.tail)) r e
      | .ok x r => sliceLoop dec zero input n (done ++ [x]) mem.tail r
    if b.head? = some (ch! ']') then .ok (.slice done mem) b.tail
    else if done.isEmpty then elem b
    else match b with
      | [] => .err (.slice done mem) b .syntax
      | c :: t => if c ≠ ch! ',' then .err (.slice done mem) b .syntax else elem (skipSpaces t)

/-- `decodeSlice`, `/repo/decode.go:570-647`, for elements that are no bytes. -/
def decodeSlice (dec : Dec) (zero : DV) : Dec := fun b p =>
  if hasNullPrefix b then .ok .sliceNil (b.drop 4)
  else match b with
    | [] => inputErr b p
    | c :: t =>
      if b.length < 2 ∨ c ≠ ch! '[' then inputErr b p
      else sliceLoop dec zero b (b.length + 1) [] (match p with | .slice xs sp => xs ++ sp | _ => []) t

/-- A byte as contents of a destination, and back. -/
def byteDV (c : UInt8) : DV := .int c.toNat
def dvByte : DV → UInt8
  | .int z => UInt8.ofNat z.toNat
  | _ => 0

/-- `decodeBytes`, `/repo/decode.go:405-439`. -/
def decodeBytes : Dec := fun b p =>
  if hasNullPrefix b then .ok .bytesNil (b.drop 4)
  else match b with
    | [] => inputErr b p
    | c :: _ =>
      if b.length < 2 then inputErr b p
      else if c ≠ ch! '"' then
        if c = ch! '[' then
          let q := match p with
            | .bytes s sp => DV.slice (s.map byteDV) (sp.map byteDV)
            | _ => .sliceNil
          (decodeSlice (decodeInt .uint8) (.int 0) b q).map fun
            | .slice xs sp => .bytes (xs.map dvByte) (sp.map dvByte)
            | _ => .bytesNil
        else inputErr b p
      else match parseStringUnquote b [] with
        | .panic => .crash .panic
        | .fail _ _ => inputErr b p
        | .ok src r _ => match b64Decode src with
          | none => .err p r (.other 0)
          | some s => .ok (.bytes s []) r

/-- Go's `m[k] = v`. -/
def mapSet (k : MK) (v : DV) : List (MK × DV) → List (MK × DV)
  | [] => [(k, v)]
  | (k', v') :: es =>
    if k' = k then (k, v) :: es
    else if bytesLt k.text k'.text then (k, v) :: (k', v') :: es
    else (k', v') :: mapSet k v es

/-- `objectKeyError`, `/repo/codec.go:983-992`. -/
def objectKeyError (b : Bytes) (e : Err) : Bytes × Err :=
  if b = [] then ([], .syntax) else if e = .unmarshalType then (b, .syntax) else (b, e)

/-- `decodeTextUnmarshaler`, `/repo/decode.go:1133-1176`. -/
def decodeTextUnmarshaler (f : Bytes → Option Err) : Dec := fun b p =>
  match parseValue b with
  | .fail r e => .err p r e
  | .ok v b =>
    match v with
    | [] => inputErr v p
    | c :: _ =>
      if c = ch! 'n' then
        match parseNull v with
        | .ok _ _ => .ok p b
        | .fail _ e => .err p b e
      else if c = ch! '"' then
        match parseStringUnquote v [] with
        | .panic => .crash .panic
        | .fail _ e => .err p b e
        | .ok s _ _ => match f s with
          | some e => .err p b e
          | none => .ok (.user (some s)) b
      else .err p b .unmarshalType

/-- The contents of a key after `UnmarshalText` has accepted a text. -/
def TextKey.store (tk : TextKey) : DV → DV
  | .user (some s) => .user (some (tk.key s))
  | v => v

/-- The key decoders, `/repo/codec.go:355-406`, on a zero key. -/
def decodeKey : KTy → Bytes → DRes
  | .str, b => decodeString b (.string [])
  | .int k, b => decodeFromString (decodeInt k) b (.int 0)
  | .text tk, b =>
    match decodeTextUnmarshaler tk.answer b (.user none) with
    | .crash c => .crash c
    | .err v r e => .err v r e
    | .ok v r => .ok (tk.store v) r

/-- A decoded key. -/
def keyOf : DV → MK
  | .string s => .str s
  | .int z => .int z
  | .user (some s) => .user s
  | _ => .str []

/-- Comma, key and colon of a member: the loop bodies of `decodeMap`
(`/repo/decode.go:684-709`), and of `decodeMapStringInterface` and
`decodeMapStringRawMessage` through `preprocessInput` (`/repo/decode.go:836-866`).
Answers the key and the input at the value; `inr` is an error. -/
def memberKey (key : Bytes → DRes) (first : Bool) (b : Bytes) : Crash ⊕ (Bytes × Err) ⊕ (DV × Bytes) :=
  let rest := fun b =>
    if hasNullPrefix b then .inr (.inl (b, .syntax))
    else match key b with
      | .crash c => .inl c
      | .err _ r e => .inr (.inl (objectKeyError r e))
      | .ok k r =>
        let b := skipSpaces r
        match b with
        | [] => .inr (.inl (b, .syntax))
        | c :: t => if c ≠ ch! ':' then .inr (.inl (b, .syntax)) else .inr (.inr (k, skipSpaces t))
  if first then rest b
  else match b with
    | [] => .inr (.inl (b, .syntax))
    | c :: t => if c ≠ ch! ',' then .inr (.inl (b, .syntax)) else rest (skipSpaces t)

/-- The loops of `decodeMap`, `/repo/decode.go:674-727`, `decodeMapStringInterface`,
747-779, and `decodeMapStringRawMessage`, 799-833: the entries go to the existing
map, or to a new one that is stored only at the end (`fresh`). -/
def mapLoopD (k : KTy) (dec : Dec) (zero p : DV) (fresh : Bool) (input : Bytes) : Nat → Bool → List (MK × DV) → Bytes → DRes
  | 0, _, _, _ => .crash .fuel
  | n + 1, first, m, b =>
    let b := skipSpaces b
    if b.head? = some (ch! '}') then .ok (.map m) b.tail
    else
      let dest := if fresh then p else .map m
      match memberKey (decodeKey k) first b with
      | .inl c => .crash c
      | .inr (.inl (r, e)) => .err dest r e
      | .inr (.inr (kv, b)) =>
        match dec b zero with
        | .crash c => .crash c
        | .err _ _ e =>
          match parseValue input with
          | .fail r e2 => .err dest r e2
          | .ok _ r => .err dest r e
        | .ok v r => mapLoopD k dec zero p fresh input n false (mapSet (keyOf kv) v m) r

/-- `decodeMap`, `/repo/decode.go:649-728`, `decodeMapStringInterface`, 730-780, and
`decodeMapStringRawMessage`, 782-834. -/
def decodeMap (k : KTy) (dec : Dec) (zero : DV) : Dec := fun b p =>
  if hasNullPrefix b then .ok .mapNil (b.drop 4)
  else match b with
    | [] => inputErr b p
    | c :: t =>
      if b.length < 2 ∨ c ≠ ch! '{' then inputErr b p
      else match p with
        | .map m => mapLoopD k dec zero p false b (b.length + 1) true m t
        | _ => mapLoopD k dec zero p true b (b.length + 1) true [] t

/-- ASCII lower case of a byte. -/
def lowerByte (c : UInt8) : UInt8 := if ch! 'A' ≤ c ∧ c ≤ ch! 'Z' then c + 0x20 else c

/-- `foldRune`, `/repo/parse.go:725-730`. -/
def foldRune (l : Lib) (r : Nat) : Nat :=
  let r := l.simpleFold r
  if 0x41 ≤ r ∧ r ≤ 0x5a then r + 0x20 else r

/-- `appendToLower` onto an empty buffer, `/repo/parse.go:701-723`. -/
def toLowerKey (l : Lib) (s : Bytes) : Bytes :=
  if asciiValid s then s.map lowerByte else (runes s).foldl (fun b r => appendRune b (foldRune l r)) []

/-- `strings.ToLower`. -/
def stringsToLower (l : Lib) (s : Bytes) : Bytes :=
  if s.all (· < 0x80) then s.map lowerByte else l.lower s

/-- Index of the last element with the property: later assignments to a Go map
win (`fieldsIndex`, `/repo/codec.go:461`). -/
def lastIdx {α : Type} (p : α → Bool) : List α → Option Nat
  | [] => none
  | x :: xs => match lastIdx p xs with
    | some i => some (i + 1)
    | none => if p x then some 0 else none

/-- Index of the first element with the property (`ficaseIndex`, `/repo/codec.go:462-466`). -/
def firstIdx {α : Type} (p : α → Bool) : List α → Option Nat
  | [] => none
  | x :: xs => if p x then some 0 else (firstIdx p xs).map (· + 1)

/-- The field for a key, `/repo/decode.go:923-928`. -/
def pickField (c : DCfg) (names : List Bytes) (k : Bytes) : Option Nat :=
  match lastIdx (fun n => n == k) names with
  | some i => some i
  | none => if c.noFold then none else firstIdx (fun n => stringsToLower c.lib n == toLowerKey c.lib k) names

/-- The loop of `decodeStruct`, `/repo/decode.go:887-954`; `fs` are the fields'
contents. The key is read by `parseStringUnquote` directly. -/
def structLoopD (c : DCfg) (names : List Bytes) (decs : List Dec) (input : Bytes) : Nat → Bool → List DV → Bytes → DRes
  | 0, _, _, _ => .crash .fuel
  | n + 1, first, fs, b =>
    let b := skipSpaces b
    if b.head? = some (ch! '}') then .ok (.struct fs) b.tail
    else
      let key : Bytes → DRes := fun b => match parseStringUnquote b [] with
        | .panic => .crash .panic
        | .fail r e => .err (.string []) r e
        | .ok s r _ => .ok (.string s) r
      match memberKey key first b with
      | .inl c => .crash c
      | .inr (.inl (r, e)) => .err (.struct fs) r e
      | .inr (.inr (kv, b)) =>
        let k := match kv with | .string s => s | _ => []
        match pickField c names k with
        | none =>
          if c.disallowUnknown then .err (.struct fs) b (.other 2)
          else match parseValue b with
            | .fail r e => .err (.struct fs) r e
            | .ok _ r => structLoopD c names decs input n false fs r
        | some i =>
          match decs[i]? with
          | none => .crash .panic    -- not reached: one decoder per name
          | some dec =>
            match dec b (fs.getD i (.user none)) with
            | .crash c => .crash c
            | .err x _ e =>
              match parseValue input with
              | .fail r e2 => .err (.struct (fs.set i x)) r e2
              | .ok _ r => .err (.struct (fs.set i x)) r e
            | .ok x r => structLoopD c names decs input n false (fs.set i x) r

/-- `decodeStruct`, `/repo/decode.go:868-955`. -/
def decodeStruct (c : DCfg) (names : List Bytes) (decs : List Dec) : Dec := fun b p =>
  if hasNullPrefix b then .ok p (b.drop 4)
  else match b with
    | [] => inputErr b p
    | ch :: t =>
      if b.length < 2 ∨ ch ≠ ch! '{' then inputErr b p
      else structLoopD c names decs b (b.length + 1) true (match p with | .struct fs => fs | _ => []) t

/-- The type is a pointer type (`t.Kind() == reflect.Pointer`). -/
def Ty.isPtr : Ty → Bool
  | .ptr _ => true
  | _ => false

/-- `decodePointer`, `/repo/decode.go:971-988`; `elemPtr`: the element type is a pointer. -/
def decodePointer (elemPtr : Bool) (dec : Dec) (zero : DV) : Dec := fun b p =>
  if hasNullPrefix b then
    match p with
    | .ptr v => if elemPtr then (dec b v).map .ptr else .ok .ptrNil (b.drop 4)
    | _ => .ok .ptrNil (b.drop 4)
  else (dec b (match p with | .ptr v => v | _ => zero)).map .ptr

/-- `decodeUnmarshalTypeError`, `/repo/decode.go:1086-1095`. -/
def decodeUnmarshalTypeError : Dec := fun b p =>
  match parseValue b with
  | .fail r e => .err p r e
  | .ok _ r => .err p r .unmarshalType

/-- `decodeRawMessage`, `/repo/decode.go:1097-1109`. -/
def decodeRawMessage : Dec := fun b p =>
  match parseValue b with
  | .fail _ _ => inputErr b p
  | .ok v r => .ok (.raw v) r

/-- `decodeJSONUnmarshaler`, `/repo/decode.go:1111-1131`. -/
def decodeJSONUnmarshaler (f : Bytes → Option Err) : Dec := fun b p =>
  match parseValue b with
  | .fail r e => .err p r e
  | .ok v b =>
    if v.head? = some (ch! 'n') then .ok p b
    else match f v with
      | some e => .err p b e
      | none => .ok (.user (some v)) b

/-- The end of `decodeInterface`, `/repo/decode.go:1057-1066`: `t` is the type of the
stored value, `b` the input behind it. -/
def ifaceEnd (t : Ty) (b : Bytes) : DRes → DRes
  | .crash c => .crash c
  | .err _ _ e => .err .ifaceNil b e
  | .ok v r => if skipSpaces r ≠ [] then .err .ifaceNil b .syntax else .ok (.iface t v) b

/-- `decodeInterface` on an interface that holds no pointer,
`/repo/decode.go:990-992, 1012-1067`. Fuel stands for the nesting depth of the input. -/
def ifaceValue (c : DCfg) : Nat → Dec
  | 0 => fun _ _ => .crash .fuel
  | n + 1 => fun b _ =>
    match parseValue b with
    | .fail r e => .err .ifaceNil r e
    | .ok v b =>
      match v with
      | [] => .crash .panic
      | ch :: _ =>
        if ch = ch! '{' then
          ifaceEnd .mapSI b (decodeMap .str (ifaceValue c n) .ifaceNil v (.map []))
        else if ch = ch! '[' then
          ifaceEnd (.slice .iface) b (decodeSlice (ifaceValue c n) .ifaceNil v (.slice [] []))
        else if ch = ch! '"' then ifaceEnd .string b (decodeString v (.string []))
        else if ch = ch! 'n' then
          match decodeNull v .ifaceNil with
          | .crash x => .crash x
          | .err _ _ e => .err .ifaceNil b e
          | .ok v r => if skipSpaces r ≠ [] then .err .ifaceNil b .syntax else .ok v b
        else if ch = ch! 't' ∨ ch = ch! 'f' then ifaceEnd .bool b (decodeBool v (.bool false))
        else if ch = ch! '-' ∨ isDigit ch then
          if c.useNumber then ifaceEnd .number b (decodeNumber v (.number []))
          else ifaceEnd .float64 b (decodeFloat c.lib false v (.float (.fin false [0x30] (.f [] [0x30] [] (.inl rfl) .zero .none))))
        else .err .ifaceNil b .syntax

/-- `Parse` into a pointer to a value of type `t`, `/repo/json.go:221-231`; `dec`
decodes that type. -/
def parseInto (dec : Dec) : Dec := fun b p =>
  match dec (skipSpaces b) p with
  | .crash c => .crash c
  | .err p r e => .err p (skipSpaces r) e
  | .ok p r => .ok p (skipSpaces r)

/-- `Parse` without a usable pointer, `/repo/json.go:213-220`. -/
def parseInvalid : Dec := fun b p =>
  match parseValue (skipSpaces b) with
  | .fail r e => .err p (skipSpaces r) e
  | .ok _ r => .err p (skipSpaces r) .invalidUnmarshal

/-- `decodeInterface`, `/repo/decode.go:990-1067`; `dyn` decodes into pointers found
in interfaces. -/
def decodeInterface (c : DCfg) (dyn : Ty → Dec) : Dec := fun b p =>
  match p with
  | .iface (.ptr t) v =>
    match v with
    | .ptr w =>
      if !t.isPtr && hasNullPrefix b then .ok .ifaceNil (b.drop 4)
      else match parseInto (dyn t) b w with
        | .crash c => .crash c
        | .err _ r e => .err .ifaceNil r e
        | .ok w r => .ok (.iface (.ptr t) (.ptr w)) r
    | _ =>
      if hasNullPrefix b then .ok .ifaceNil (b.drop 4)
      else parseInvalid b .ifaceNil
  | _ => ifaceValue c (b.length + 1) b p

/-- `decodeMaybeEmptyInterface`, `/repo/decode.go:1069-1084`. -/
def decodeIfaceM (c : DCfg) (dyn : Ty → Dec) (empty : Bool) : Dec := fun b p =>
  if hasNullPrefix b then .ok .ifaceNil (b.drop 4)
  else match p with
    | .iface t v =>
      match t, v with
      | .ptr t, .ptr w => (parseInto (dyn t) b w).map fun w => .iface (.ptr t) (.ptr w)
      | .ptr _, _ => parseInvalid b p
      | _, _ => decodeUnmarshalTypeError b p
    | _ =>
      if empty then parseInto (decodeInterface c dyn) b p
      else decodeUnmarshalTypeError b p

mutual
/-- The zero value of a type. -/
def zero : Ty → DV
  | .bool => .bool false
  | .int _ => .int 0
  | .float32 | .float64 => .float (.fin false [0x30] (.f [] [0x30] [] (.inl rfl) .zero .none))
  | .number => .number []
  | .string => .string []
  | .bytes => .bytesNil
  | .duration => .int 0
  | .time => .time (bs! "0001-01-01T00:00:00Z")
  | .raw => .rawNil
  | .iface => .ifaceNil
  | .ifaceM _ => .ifaceNil
  | .slice _ => .sliceNil
  | .array n t => .array (List.replicate n (zero t))
  | .map _ _ | .mapSI | .mapRaw => .mapNil
  | .ptr _ => .ptrNil
  | .struct fs => .struct (zeroF fs)
  | .quoted t | .quotedInt t => zero t
  | .jsonU _ | .textU _ => .user none
  | .unsupported => .user none
def zeroF : List (Bytes × Ty) → List DV
  | [] => []
  | (_, t) :: fs => zero t :: zeroF fs
end

mutual
/-- The decoding function of a type, as selected by `constructCodec`,
`/repo/codec.go:79-213`; `dyn` decodes into pointers found in interfaces. -/
def dec (c : DCfg) (dyn : Ty → Dec) : Ty → Dec
  | .bool => decodeBool
  | .int k => decodeInt k
  | .float32 => decodeFloat c.lib true
  | .float64 => decodeFloat c.lib false
  | .number => decodeNumber
  | .string => decodeString
  | .bytes => decodeBytes
  | .duration => decodeDuration c.lib
  | .time => decodeTime c.lib
  | .raw => decodeRawMessage
  | .iface => decodeInterface c dyn
  | .ifaceM empty => decodeIfaceM c dyn empty
  | .slice t => decodeSlice (dec c dyn t) (zero t)
  | .array n t => decodeArray n (dec c dyn t) (zero t)
  | .map k t => decodeMap k (dec c dyn t) (zero t)
  | .mapSI => decodeMap .str (decodeInterface c dyn) .ifaceNil
  | .mapRaw => decodeMap .str decodeRawMessage .rawNil
  | .ptr t => decodePointer t.isPtr (dec c dyn t) (zero t)
  | .struct fs => decodeStruct c (fs.map (·.1)) (decF c dyn fs)
  | .quoted t => decodeFromString (dec c dyn t)
  | .quotedInt t => decodeFromStringToInt c.lib (dec c dyn t)
  | .jsonU f => decodeJSONUnmarshaler f
  | .textU f => decodeTextUnmarshaler f
  | .unsupported => decodeUnmarshalTypeError
def decF (c : DCfg) (dyn : Ty → Dec) : List (Bytes × Ty) → List Dec
  | [] => []
  | (_, t) :: fs => dec c dyn t :: decF c dyn fs
end

/-- Decoding functions where pointers in interfaces are followed at most `n` deep
(contents of destinations are finite, so some `n` suffices). -/
def decN (c : DCfg) : Nat → Ty → Dec
  | 0 => dec c fun _ _ _ => .crash .fuel
  | n + 1 => dec c (decN c n)

/-- What `Unmarshal` and `Decode` do to a destination. -/
inductive URes where
  | done (v : DV) (err : Option Err)
  | crash (c : Crash)

/-- `Unmarshal` into a non-nil pointer, `/repo/json.go:193-205`. -/
def unmarshal (c : DCfg) (n : Nat) (t : Ty) (b : Bytes) (p : DV) : URes :=
  match parseInto (decN c n t) b p with
  | .crash x => .crash x
  | .ok v r => .done v (if r ≠ [] then some .syntax else none)
  | .err v r e => .done v (if r ≠ [] then some .syntax else some e)

end JC

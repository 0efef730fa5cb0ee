import Verif.Model.Work
/-!
The decoding functions of all types with a count of the work they do.

As in `Model/Work.lean`: one step for each call, one for each round of a loop, and one for each byte that is looked at, as
often as it is looked at; taking a slice, allocating and writing cost nothing. Where two counts come together in an
error, the larger is taken. `UnmarshalJSON` and `UnmarshalText` are not counted. `strconv.ParseFloat`,
`time.ParseDuration` and `time.Parse` take as many steps as finding the end of their text, looking up a field as many as
its key has bytes.
-/
namespace JC

/-- `parseStringUnquote`, `/repo/parse.go:433-514`: the string is looked for, and if it has escapes it is gone through twice
more. -/
def unquoteW (b : Bytes) : Nat :=
  (parseStringFastW b).2 + 1 + match (parseStringFastW b).1 with
    | .ok v _ true => 2 * v.length
    | _ => 0

/-- `decodeBool`, `/repo/decode.go:24-40`. -/
def decodeBoolW : DecW := fun b p =>
  match decodeBool b p with
  | .ok v r => (.ok v r, 14)
  | _ => tick 14 (inputErrW b p)

/-- `decodeInt` … `decodeUint64`, `/repo/decode.go:42-218`, with `parseInt` and `parseUint`, `/repo/parse.go:44-179`. -/
def decodeIntW (k : IntKind) : DecW := fun b p =>
  match decodeInt k b p with
  | .ok v r => (.ok v r, b.length - r.length + 9)
  | d => (d, b.length + 9 + (parseNumberW b).2 + (inputErrW b p).2)

/-- `decodeFloat32`, `decodeFloat64`, `/repo/decode.go:220-256`. -/
def decodeFloatW (l : Lib) (bits32 : Bool) : DecW := fun b p =>
  if hasNullPrefix b then (.ok p (b.drop 4), 5)
  else match parseNumberW b with
    | (.fail _ _, k) => tick (k + 5) (inputErrW b p)
    | (.ok v r, k) => match l.parseFloat bits32 v with
      | none => tick (2 * k + 5) (inputErrW b p)
      | some f => (.ok (.float f) r, 2 * k + 5)

/-- `decodeNumber`, `/repo/decode.go:258-275`. -/
def decodeNumberW : DecW := fun b p =>
  if hasNullPrefix b then (.ok p (b.drop 4), 5)
  else match parseNumberW b with
    | (.fail _ _, k) => tick (k + 5) (inputErrW b p)
    | (.ok v r, k) => (.ok (.number v) r, k + 5)

/-- `decodeFromString`, `/repo/decode.go:299-318`. -/
def decodeFromStringW (dec : DecW) : DecW := fun b p =>
  if hasNullPrefix b then tick 5 (dec b p)
  else match parseStringUnquote b [] with
    | .panic => (.crash .panic, unquoteW b + 5)
    | .fail _ _ => tick (unquoteW b + 5) (inputErrW [] p)
    | .ok v b' _ =>
      match dec v p with
      | (.crash c, k) => (.crash c, unquoteW b + 5 + k)
      | (.err p _ e, k) => (.err p b' e, unquoteW b + 5 + k)
      | (.ok p v, k) => (if (skipSpacesW v).1 ≠ [] then .err p b' .syntax else .ok p b', unquoteW b + 5 + k + (skipSpacesW v).2)

/-- `decodeFromStringToInt`, `/repo/decode.go:320-403`: a number without quotes is parsed, searched for its point and
exponent, and converted; leading zeroes are gone over once; on an error the text in the string is parsed as a number and as
a value. -/
def decodeFromStringToIntW (l : Lib) (dec : DecW) : DecW := fun b p =>
  if hasNullPrefix b then tick 5 (dec b p)
  else if b ≠ [] ∧ b.head? ≠ some (ch! '"') then (.err p (unquotedErr l b).1 (unquotedErr l b).2, 5 * (parseNumberW b).2 + 5)
  else if b.take 2 = bs! "\"\"" then (.err p b (.other 1), 7)
  else match parseStringUnquote b [] with
    | .panic => (.crash .panic, unquoteW b + 7)
    | .fail _ _ => tick (unquoteW b + 7) (inputErrW [] p)
    | .ok v b' _ =>
      let u := unquoteW b + 7 + v.length
      let v := stripZeroes v
      match dec v p with
      | (.crash c, k) => (.crash c, u + k)
      | (.ok p r, k) => (if r ≠ [] then .err p r .unmarshalType else .ok p b', u + k)
      | (.err p _ e, k) =>
        if e = .syntax then
          (if v.head? = some (ch! '-') then .err p b' .unmarshalType else .err p b' (.other 1), u + k)
        else match parseNumberW v with
          | (.ok _ _, m) => (.err p b' e, u + k + m)
          | (.fail _ _, m) => match parseValueW v with
            | (.ok _ _, m') => (.err p b' (.other 1), u + k + m + m')
            | (.fail _ _, m') => (.err p b' e, u + k + m + m')

/-- `decodeDuration`, `/repo/decode.go:441-478`. -/
def decodeDurationW (l : Lib) : DecW := fun b p =>
  if hasNullPrefix b then (.ok p (b.drop 4), 5)
  else match b with
    | [] => tick 5 (inputErrW b p)
    | c :: t =>
      if c ≠ ch! '"' then
        match parseInt b with
        | .fail _ _ => tick (b.length + 9 + (parseNumberW b).2 + (inputErrW b p).2) (inputErrW b p)
        | .ok v r => (.ok (.int v) r, b.length - r.length + 9)
      else if b.length < 2 then tick 6 (inputErrW b p)
      else
        let i := indexByteW t (ch! '"')
        match i.1 with
        | none => tick (i.2 + 6) (inputErrW b p)
        | some j => match l.parseDuration (t.take j) with
          | none => tick (2 * i.2 + 6) (inputErrW b p)
          | some v => (.ok (.int v) (t.drop (j + 1)), 2 * i.2 + 6)

/-- `decodeTime`, `/repo/decode.go:480-503`. -/
def decodeTimeW (l : Lib) : DecW := fun b p =>
  if hasNullPrefix b then (.ok p (b.drop 4), 5)
  else match b with
    | [] => tick 5 (inputErrW b p)
    | c :: t =>
      if b.length < 2 ∨ c ≠ ch! '"' then tick 6 (inputErrW b p)
      else
        let i := indexByteW t (ch! '"')
        match i.1 with
        | none => tick (i.2 + 6) (inputErrW b p)
        | some j => match l.parseTime (t.take j) with
          | none => tick (2 * i.2 + 6) (inputErrW b p)
          | some v => (.ok (.time v) (t.drop (j + 1)), 2 * i.2 + 6)

/-- The rest of `decodeArray` once the array is full, `/repo/decode.go:546-564`. -/
def arrayRestW (p : DV) : Nat → Bytes → DRes × Nat
  | 0, _ => (.crash .fuel, 0)
  | n + 1, b =>
    let s := skipSpacesW b
    match s.1 with
    | [] => (.err p s.1 .syntax, s.2 + 1)
    | c :: t =>
      if c = ch! ']' then (.ok p t, s.2 + 1)
      else
        let s' := if c = ch! ',' then skipSpacesW t else (s.1, 0)
        match parseValueW s'.1 with
        | (.fail r e, k) => (.err p r e, s.2 + s'.2 + k + 1)
        | (.ok _ r, k) => tick (s.2 + s'.2 + k + 1) (arrayRestW p n r)

/-- What the loop of `decodeArray` does with the result of decoding an element, `/repo/decode.go:536-541`. -/
def arrayNextW (d : DRes × Nat) (dest : DV → DV) (next : DV → Bytes → DRes × Nat) : DRes × Nat :=
  match d with
  | (.crash c, l) => (.crash c, l)
  | (.err x r e, l) => (.err (dest x) r e, l)
  | (.ok x r, l) => tick l (next x r)

/-- The loop of `decodeArray`, `/repo/decode.go:516-542`. -/
def arrayElemsW (dec : DecW) (zero : DV) (first : Bool) (done : List DV) : Nat → List DV → Bytes → DRes × Nat
  | 0, mem, b => tick 1 (arrayRestW (.array (done ++ mem)) (b.length + 1) b)
  | n + 1, mem, b =>
    let s := skipSpacesW b
    let elem := fun b =>
      arrayNextW (dec b (mem.headD zero)) (fun x => .array (done ++ x :: mem.tail))
        fun x r => arrayElemsW dec zero false (done ++ [x]) n mem.tail r
    if first then tick (s.2 + 1) (elem s.1)
    else match s.1 with
      | [] => (.err (.array (done ++ mem)) s.1 .syntax, s.2 + 1)
      | c :: t =>
        if c = ch! ',' then tick (s.2 + (skipSpacesW t).2 + 1) (elem (skipSpacesW t).1)
        else if c = ch! ']' then (.ok (.array (done ++ mem)) t, s.2 + 1)
        else (.err (.array (done ++ mem)) s.1 .syntax, s.2 + 1)

/-- `decodeArray`, `/repo/decode.go:505-565`. -/
def decodeArrayW (n : Nat) (dec : DecW) (zero : DV) : DecW := fun b p =>
  if hasNullPrefix b then (.ok p (b.drop 4), 5)
  else match b with
    | [] => tick 5 (inputErrW b p)
    | c :: t =>
      if b.length < 2 ∨ c ≠ ch! '[' then tick 5 (inputErrW b p)
      else tick 5 (arrayElemsW dec zero true [] n (match p with | .array xs => xs | _ => []) t)

/-- The loop of `decodeSlice`, `/repo/decode.go:597-646`; growing the slice is not counted. -/
def sliceLoopT (dec : DecW) (zero : DV) (input : Bytes) : Nat → List DV → List DV → Bytes → DRes × Nat
  | 0, _, _, _ => (.crash .fuel, 0)
  | n + 1, done, mem, b =>
    let s := skipSpacesW b
    let elem := fun b =>
      elemW (dec b (mem.headD zero)) (parseValueW input) (fun x => .slice done (x :: mem.tail))
        fun x r => sliceLoopT dec zero input n (done ++ [x]) mem.tail r
    if s.1.head? = some (ch! ']') then (.ok (.slice done mem) s.1.tail, s.2 + 1)
    else if done.isEmpty then tick (s.2 + 1) (elem s.1)
    else match s.1 with
      | [] => (.err (.slice done mem) s.1 .syntax, s.2 + 1)
      | c :: t =>
        if c ≠ ch! ',' then (.err (.slice done mem) s.1 .syntax, s.2 + 1)
        else tick (s.2 + (skipSpacesW t).2 + 1) (elem (skipSpacesW t).1)

/-- `decodeSlice`, `/repo/decode.go:570-647`. -/
def decodeSliceT (dec : DecW) (zero : DV) : DecW := fun b p =>
  if hasNullPrefix b then (.ok .sliceNil (b.drop 4), 5)
  else match b with
    | [] => tick 5 (inputErrW b p)
    | c :: t =>
      if b.length < 2 ∨ c ≠ ch! '[' then tick 5 (inputErrW b p)
      else tick 5 (sliceLoopT dec zero b (b.length + 1) [] (match p with | .slice xs sp => xs ++ sp | _ => []) t)

/-- `decodeBytes`, `/repo/decode.go:405-439`; base64 takes a step for each byte. -/
def decodeBytesW : DecW := fun b p =>
  if hasNullPrefix b then (.ok .bytesNil (b.drop 4), 5)
  else match b with
    | [] => tick 5 (inputErrW b p)
    | c :: _ =>
      if b.length < 2 then tick 5 (inputErrW b p)
      else if c ≠ ch! '"' then
        if c = ch! '[' then
          let q := match p with
            | .bytes s sp => DV.slice (s.map byteDV) (sp.map byteDV)
            | _ => .sliceNil
          let d := decodeSliceT (decodeIntW .uint8) (.int 0) b q
          (d.1.map fun
            | .slice xs sp => .bytes (xs.map dvByte) (sp.map dvByte)
            | _ => .bytesNil, d.2 + 6)
        else tick 6 (inputErrW b p)
      else match parseStringUnquote b [] with
        | .panic => (.crash .panic, unquoteW b + 6)
        | .fail _ _ => tick (unquoteW b + 6) (inputErrW b p)
        | .ok src r _ => match b64Decode src with
          | none => (.err p r (.other 0), unquoteW b + 6 + (b.length - r.length))
          | some s => (.ok (.bytes s []) r, unquoteW b + 6 + (b.length - r.length))

/-- Looking at a value of `n` bytes before it goes to `UnmarshalText`, `/repo/decode.go:1140-1175`. -/
def textW (v : Bytes) (n : Nat) : Nat :=
  match v with
  | [] => 1
  | c :: _ => if c = ch! '"' then unquoteW v else n

/-- `decodeTextUnmarshaler`, `/repo/decode.go:1133-1176`. -/
def decodeTextUW (f : Bytes → Option Err) : DecW := fun b p =>
  match parseValueW b with
  | (.fail r e, k) => (.err p r e, k + 1)
  | (.ok v b', k) => (decodeTextUnmarshaler f b p, k + 6 + textW v (b.length - b'.length))

/-- The key decoders, `/repo/codec.go:355-406`. -/
def decodeKeyW : KTy → Bytes → DRes × Nat
  | .str, b => decodeStringW b (.string [])
  | .int k, b => decodeFromStringW (decodeIntW k) b (.int 0)
  | .text tk, b =>
    match decodeTextUW tk.answer b (.user none) with
    | (.crash c, k) => (.crash c, k)
    | (.err v r e, k) => (.err v r e, k)
    | (.ok v r, k) => (.ok (tk.store v) r, k)

/-- The key of a struct member and the look-ups in the tables of fields, `/repo/decode.go:908-928`. -/
def structKeyW (b : Bytes) : DRes × Nat :=
  match parseStringUnquote b [] with
  | .panic => (.crash .panic, unquoteW b)
  | .fail r e => (.err (.string []) r e, unquoteW b)
  | .ok s r _ => (.ok (.string s) r, unquoteW b + 3 * (b.length - r.length))

/-- What follows comma: key and colon, `/repo/decode.go:690-709`, 836-866, 902-921. -/
def keyRestW (key : Bytes → DRes × Nat) (b : Bytes) : (Crash ⊕ (Bytes × Err) ⊕ (DV × Bytes)) × Nat :=
  if hasNullPrefix b then (.inr (.inl (b, .syntax)), 5)
  else match key b with
    | (.crash c, k) => (.inl c, k + 5)
    | (.err _ r e, k) => (.inr (.inl (objectKeyError r e)), k + 5)
    | (.ok d r, k) =>
      match (skipSpacesW r).1 with
      | [] => (.inr (.inl ((skipSpacesW r).1, .syntax)), k + 5 + (skipSpacesW r).2)
      | c :: t =>
        if c ≠ ch! ':' then (.inr (.inl ((skipSpacesW r).1, .syntax)), k + 5 + (skipSpacesW r).2)
        else (.inr (.inr (d, (skipSpacesW t).1)), k + 5 + (skipSpacesW r).2 + (skipSpacesW t).2)

/-- Comma, key and colon of a member, as `memberKey`. -/
def memberKeyT (key : Bytes → DRes × Nat) (first : Bool) (b : Bytes) : (Crash ⊕ (Bytes × Err) ⊕ (DV × Bytes)) × Nat :=
  if first then keyRestW key b
  else match b with
    | [] => (.inr (.inl (b, .syntax)), 1)
    | c :: t => if c ≠ ch! ',' then (.inr (.inl (b, .syntax)), 1) else tick (skipSpacesW t).2 (keyRestW key (skipSpacesW t).1)

/-- The loops of `decodeMap`, `/repo/decode.go:674-727`, `decodeMapStringInterface`, 747-779, and
`decodeMapStringRawMessage`, 799-833. -/
def mapLoopT (k : KTy) (dec : DecW) (zero p : DV) (fresh : Bool) (input : Bytes) : Nat → Bool → List (MK × DV) → Bytes → DRes × Nat
  | 0, _, _, _ => (.crash .fuel, 0)
  | n + 1, first, m, b =>
    let s := skipSpacesW b
    if s.1.head? = some (ch! '}') then (.ok (.map m) s.1.tail, s.2 + 1)
    else
      let dest := if fresh then p else .map m
      match memberKeyT (decodeKeyW k) first s.1 with
      | (.inl c, l) => (.crash c, s.2 + l + 1)
      | (.inr (.inl (r, e)), l) => (.err dest r e, s.2 + l + 1)
      | (.inr (.inr (kv, b)), l) =>
        tick (s.2 + l + 1) (elemW (dec b zero) (parseValueW input) (fun _ => dest)
          fun v r => mapLoopT k dec zero p fresh input n false (mapSet (keyOf kv) v m) r)

/-- `decodeMap`, `/repo/decode.go:649-728`, `decodeMapStringInterface`, 730-780, and `decodeMapStringRawMessage`, 782-834. -/
def decodeMapT (k : KTy) (dec : DecW) (zero : DV) : DecW := fun b p =>
  if hasNullPrefix b then (.ok .mapNil (b.drop 4), 5)
  else match b with
    | [] => tick 5 (inputErrW b p)
    | c :: t =>
      if b.length < 2 ∨ c ≠ ch! '{' then tick 5 (inputErrW b p)
      else tick 5 (match p with
        | .map m => mapLoopT k dec zero p false b (b.length + 1) true m t
        | _ => mapLoopT k dec zero p true b (b.length + 1) true [] t)

/-- The loop of `decodeStruct`, `/repo/decode.go:887-954`. -/
def structLoopT (c : DCfg) (names : List Bytes) (decs : List DecW) (input : Bytes) : Nat → Bool → List DV → Bytes → DRes × Nat
  | 0, _, _, _ => (.crash .fuel, 0)
  | n + 1, first, fs, b =>
    let s := skipSpacesW b
    if s.1.head? = some (ch! '}') then (.ok (.struct fs) s.1.tail, s.2 + 1)
    else
      match memberKeyT structKeyW first s.1 with
      | (.inl c, l) => (.crash c, s.2 + l + 1)
      | (.inr (.inl (r, e)), l) => (.err (.struct fs) r e, s.2 + l + 1)
      | (.inr (.inr (kv, b)), l) =>
        let k := match kv with | .string s => s | _ => []
        match pickField c names k with
        | none =>
          if c.disallowUnknown then (.err (.struct fs) b (.other 2), s.2 + l + 1)
          else match parseValueW b with
            | (.fail r e, m) => (.err (.struct fs) r e, s.2 + l + m + 1)
            | (.ok _ r, m) => tick (s.2 + l + m + 1) (structLoopT c names decs input n false fs r)
        | some i =>
          match decs[i]? with
          | none => (.crash .panic, s.2 + l + 1)
          | some dec =>
            tick (s.2 + l + 1) (elemW (dec b (fs.getD i (.user none))) (parseValueW input) (fun x => .struct (fs.set i x))
              fun x r => structLoopT c names decs input n false (fs.set i x) r)

/-- `decodeStruct`, `/repo/decode.go:868-955`. -/
def decodeStructT (c : DCfg) (names : List Bytes) (decs : List DecW) : DecW := fun b p =>
  if hasNullPrefix b then (.ok p (b.drop 4), 5)
  else match b with
    | [] => tick 5 (inputErrW b p)
    | ch :: t =>
      if b.length < 2 ∨ ch ≠ ch! '{' then tick 5 (inputErrW b p)
      else tick 5 (structLoopT c names decs b (b.length + 1) true (match p with | .struct fs => fs | _ => []) t)

/-- `decodePointer`, `/repo/decode.go:971-988`. -/
def decodePointerW (elemPtr : Bool) (dec : DecW) (zero : DV) : DecW := fun b p =>
  if hasNullPrefix b then
    match p with
    | .ptr v => if elemPtr then ((dec b v).1.map .ptr, (dec b v).2 + 5) else (.ok .ptrNil (b.drop 4), 5)
    | _ => (.ok .ptrNil (b.drop 4), 5)
  else
    let v := match p with | .ptr v => v | _ => zero
    ((dec b v).1.map .ptr, (dec b v).2 + 5)

/-- `decodeUnmarshalTypeError`, `/repo/decode.go:1086-1095`. -/
def unsupportedW : DecW := fun b p => (decodeUnmarshalTypeError b p, (parseValueW b).2 + 1)

/-- `decodeRawMessage`, `/repo/decode.go:1097-1109`. -/
def decodeRawW : DecW := fun b p =>
  match parseValueW b with
  | (.fail _ _, k) => tick (k + 1) (inputErrW b p)
  | (.ok v r, k) => (.ok (.raw v) r, k + 1)

/-- `decodeJSONUnmarshaler`, `/repo/decode.go:1111-1131`. -/
def decodeJSONUW (f : Bytes → Option Err) : DecW := fun b p => (decodeJSONUnmarshaler f b p, (parseValueW b).2 + 2)

/-- `Parse` into a pointer, `/repo/json.go:221-231`. -/
def parseIntoW (dec : DecW) : DecW := fun b p =>
  let s := skipSpacesW b
  match dec s.1 p with
  | (.crash c, k) => (.crash c, s.2 + k)
  | (.err p r e, k) => (.err p (skipSpacesW r).1 e, s.2 + k + (skipSpacesW r).2)
  | (.ok p r, k) => (.ok p (skipSpacesW r).1, s.2 + k + (skipSpacesW r).2)

/-- `Parse` without a usable pointer, `/repo/json.go:213-220`. -/
def parseInvalidW : DecW := fun b p =>
  (parseInvalid b p, (skipSpacesW b).2 + (parseValueW (skipSpaces b)).2 +
    match parseValue (skipSpaces b) with | .fail r _ => (skipSpacesW r).2 | .ok _ r => (skipSpacesW r).2)

/-- `decodeInterface`, `/repo/decode.go:990-1067`. -/
def decodeInterfaceW (c : DCfg) (dyn : Ty → DecW) : DecW := fun b p =>
  match p with
  | .iface (.ptr t) v =>
    match v with
    | .ptr w =>
      if !t.isPtr && hasNullPrefix b then (.ok .ifaceNil (b.drop 4), 5)
      else match parseIntoW (dyn t) b w with
        | (.crash c, k) => (.crash c, k + 5)
        | (.err _ r e, k) => (.err .ifaceNil r e, k + 5)
        | (.ok w r, k) => (.ok (.iface (.ptr t) (.ptr w)) r, k + 5)
    | _ =>
      if hasNullPrefix b then (.ok .ifaceNil (b.drop 4), 5)
      else tick 5 (parseInvalidW b .ifaceNil)
  | _ => ifaceValueW c (b.length + 1) b p

/-- `decodeMaybeEmptyInterface`, `/repo/decode.go:1069-1084`. -/
def decodeIfaceMW (c : DCfg) (dyn : Ty → DecW) (empty : Bool) : DecW := fun b p =>
  if hasNullPrefix b then (.ok .ifaceNil (b.drop 4), 5)
  else match p with
    | .iface t v =>
      match t, v with
      | .ptr t, .ptr w => ((parseIntoW (dyn t) b w).1.map fun w => .iface (.ptr t) (.ptr w), (parseIntoW (dyn t) b w).2 + 5)
      | .ptr _, _ => tick 5 (parseInvalidW b p)
      | _, _ => tick 5 (unsupportedW b p)
    | _ =>
      if empty then tick 5 (parseIntoW (decodeInterfaceW c dyn) b p)
      else tick 5 (unsupportedW b p)

mutual
/-- The decoding function of a type, `/repo/codec.go:79-213`. -/
def decW (c : DCfg) (dyn : Ty → DecW) : Ty → DecW
  | .bool => decodeBoolW
  | .int k => decodeIntW k
  | .float32 => decodeFloatW c.lib true
  | .float64 => decodeFloatW c.lib false
  | .number => decodeNumberW
  | .string => decodeStringW
  | .bytes => decodeBytesW
  | .duration => decodeDurationW c.lib
  | .time => decodeTimeW c.lib
  | .raw => decodeRawW
  | .iface => decodeInterfaceW c dyn
  | .ifaceM empty => decodeIfaceMW c dyn empty
  | .slice t => decodeSliceT (decW c dyn t) (zero t)
  | .array n t => decodeArrayW n (decW c dyn t) (zero t)
  | .map k t => decodeMapT k (decW c dyn t) (zero t)
  | .mapSI => decodeMapT .str (decodeInterfaceW c dyn) .ifaceNil
  | .mapRaw => decodeMapT .str decodeRawW .rawNil
  | .ptr t => decodePointerW t.isPtr (decW c dyn t) (zero t)
  | .struct fs => decodeStructT c (fs.map (·.1)) (decWF c dyn fs)
  | .quoted t => decodeFromStringW (decW c dyn t)
  | .quotedInt t => decodeFromStringToIntW c.lib (decW c dyn t)
  | .jsonU f => decodeJSONUW f
  | .textU f => decodeTextUW f
  | .unsupported => unsupportedW
def decWF (c : DCfg) (dyn : Ty → DecW) : List (Bytes × Ty) → List DecW
  | [] => []
  | (_, t) :: fs => decW c dyn t :: decWF c dyn fs
end

/-- Decoding functions where pointers in interfaces are followed at most `n` deep, as `decN`. -/
def decNW (c : DCfg) : Nat → Ty → DecW
  | 0 => decW c fun _ _ _ => (.crash .fuel, 0)
  | n + 1 => decW c (decNW c n)

/-- `Unmarshal` into a non-nil pointer, `/repo/json.go:193-205`. -/
def unmarshalW (c : DCfg) (n : Nat) (t : Ty) (b : Bytes) (p : DV) : URes × Nat :=
  match parseIntoW (decNW c n t) b p with
  | (.crash x, k) => (.crash x, k)
  | (.ok v r, k) => (.done v (if r ≠ [] then some .syntax else none), k)
  | (.err v r e, k) => (.done v (if r ≠ [] then some .syntax else some e), k)

end JC

import Verif.Model.Decode
/-!
The parser and the decoder of `interface{}` with a count of the work they do.

Every function of `Model/Parse.lean` that reads text has a twin here that returns, beside the result, the number of
steps taken: one for each call, one for each round of a loop, and one for each byte that is looked at, as often as it
is looked at.

Simplifications: `bytes.IndexByte` looks at the bytes up to the one it finds. `asciiValidPrint` (`/repo/ascii.go:51-89`)
looks at every byte, though the code takes eight at a time and stops early. Taking a slice, allocating and writing cost
nothing. The first argument of the recursive functions is fuel as in `Model/Parse.lean`.
-/
namespace JC

/-- `k` steps more. -/
def tick {α : Type} (k : Nat) (x : α × Nat) : α × Nat := (x.1, x.2 + k)

/-- `skipSpaces`, `/repo/parse.go:20-34`. -/
def skipSpacesW : Bytes → Bytes × Nat
  | [] => ([], 1)
  | c :: t => if isSpace c then tick 1 (skipSpacesW t) else (c :: t, 1)

/-- `bytes.IndexByte`. -/
def indexByteW : Bytes → UInt8 → Option Nat × Nat
  | [], _ => (none, 1)
  | x :: xs, c => if x = c then (some 0, 1) else ((indexByteW xs c).1.map (· + 1), (indexByteW xs c).2 + 1)

/-- The digit-skipping loops of `parseNumber`, `/repo/parse.go:307-309, 315-324, 348-357`. -/
def skipDigitsW : Bytes → Bytes × Nat
  | [] => ([], 1)
  | c :: t => if isDigit c then tick 1 (skipDigitsW t) else (c :: t, 1)

/-- Exponent part of `parseNumber`, `/repo/parse.go:334-359`. -/
def numExpW (b s : Bytes) : PR × Nat :=
  match s with
  | c :: t =>
    if c = ch! 'e' ∨ c = ch! 'E' then
      let t' : Bytes := match t with
        | d :: u => if d = ch! '+' ∨ d = ch! '-' then u else t
        | [] => t
      match t' with
      | [] => (.fail [] .syntax, 3)
      | d :: u =>
        if isDigit d then (okAt b (skipDigitsW u).1, (skipDigitsW u).2 + 3)
        else (.fail [] .syntax, 3)
    else (okAt b s, 1)
  | [] => (okAt b s, 1)

/-- Decimal part of `parseNumber`, `/repo/parse.go:311-331`. -/
def numFracW (b s : Bytes) : PR × Nat :=
  match s with
  | c :: t =>
    if c = ch! '.' then
      match t with
      | [] => (.fail [] .syntax, 2)
      | d :: u =>
        if isDigit d then tick ((skipDigitsW u).2 + 2) (numExpW b (skipDigitsW u).1) else (.fail t .syntax, 2)
    else tick 1 (numExpW b s)
  | [] => tick 1 (numExpW b s)

/-- `parseNumber`, `/repo/parse.go:271-363`. -/
def parseNumberW (b : Bytes) : PR × Nat :=
  match b with
  | [] => (.fail [] .syntax, 1)
  | c0 :: t0 =>
    let s : Bytes := if c0 = ch! '-' then t0 else b
    match s with
    | [] => (.fail [] .syntax, 2)
    | d :: u =>
      if isDigit d then
        if d = ch! '0' then
          match u with
          | [] => (okAt b u, 3)
          | e :: _ =>
            if e ≠ ch! '.' ∧ e ≠ ch! 'e' ∧ e ≠ ch! 'E' then (okAt b u, 4)
            else if isDigit e then (.fail u .syntax, 4)
            else tick ((skipDigitsW u).2 + 4) (numFracW b (skipDigitsW u).1)
        else tick ((skipDigitsW s).2 + 3) (numFracW b (skipDigitsW s).1)
      else (.fail s .syntax, 3)

/-- The slow scan of `parseStringFast`, `/repo/parse.go:399-425`. -/
def scanStringW (b : Bytes) : Bytes → Nat → SR × Nat
  | [], _ => (.fail [] .syntax, 1)
  | c :: t, i =>
    if c = ch! '\\' then
      match t with
      | [] => (.fail [] .syntax, 2)
      | e :: t' =>
        if isSimpleEsc e then tick 2 (scanStringW b t' (i + 2))
        else if e = ch! 'u' then
          match parseUnicode t' with
          | none => (.fail b .syntax, 6)
          | some _ =>
            match t' with
            | _ :: _ :: _ :: _ :: t'' => tick 6 (scanStringW b t'' (i + 6))
            | _ => (.fail b .syntax, 6)
        else (.fail b .syntax, 2)
    else if c = ch! '"' then (.ok (b.take (i + 1)) (b.drop (i + 1)) true, 1)
    else if c < 0x20 then (.fail b .syntax, 1)
    else tick 1 (scanStringW b t (i + 1))

/-- `parseStringFast`, `/repo/parse.go:382-426`. -/
def parseStringFastW (b : Bytes) : SR × Nat :=
  match b with
  | [] => (.fail [] .syntax, 1)
  | [_] => (.fail [] .syntax, 1)
  | q :: t =>
    if q ≠ ch! '"' then (.fail b .syntax, 1)
    else
      let i := indexByteW t (ch! '"')
      match i.1 with
      | none => (.fail [] .syntax, i.2 + 1)
      | some k =>
        let e := indexByteW (t.take (k + 1)) (ch! '\\')
        if e.1 = none then
          if asciiValidPrint (t.take (k + 1)) = true then
            (.ok (b.take (k + 2)) (b.drop (k + 2)) false, i.2 + e.2 + (t.take (k + 1)).length + 1)
          else tick (i.2 + e.2 + (t.take (k + 1)).length + 1) (scanStringW b t 1)
        else tick (i.2 + e.2 + 1) (scanStringW b t 1)

/-- `parseString`, `/repo/parse.go:428-431`. -/
def parseStringW (b : Bytes) : PR × Nat :=
  match parseStringFastW b with
  | (.ok v r _, k) => (.ok v r, k + 1)
  | (.fail r e, k) => (.fail r e, k + 1)

mutual

/-- `parseValue`, `/repo/parse.go:650-672`. The words `null`, `true` and `false` are compared byte by byte. -/
def parseValueWF : Nat → Bytes → PR × Nat
  | 0, b => (.fail b .outOfFuel, 0)
  | n + 1, b =>
    match b with
    | [] => (.fail b .syntax, 1)
    | c :: _ =>
      if c = ch! '{' then tick 1 (parseObjectWF n b)
      else if c = ch! '[' then tick 1 (parseArrayWF n b)
      else if c = ch! '"' then tick 1 (parseStringW b)
      else if c = ch! 'n' then (parseNull b, 6)
      else if c = ch! 't' then (parseTrue b, 6)
      else if c = ch! 'f' then (parseFalse b, 7)
      else if c = ch! '-' ∨ isDigit c then tick 1 (parseNumberW b)
      else (.fail b .syntax, 1)

/-- `parseObject`, `/repo/parse.go:532-546`, up to the loop. -/
def parseObjectWF : Nat → Bytes → PR × Nat
  | 0, b => (.fail b .outOfFuel, 0)
  | n + 1, b =>
    if b.length < 2 then (.fail [] .syntax, 1)
    else match b with
      | [] => (.fail [] .syntax, 1)
      | c :: t => if c ≠ ch! '{' then (.fail b .syntax, 1) else tick 1 (objLoopW n b true t)

/-- One round of the loop of `parseObject` up to the key, `/repo/parse.go:547-577`. -/
def objLoopW : Nat → Bytes → Bool → Bytes → PR × Nat
  | 0, _, _, b => (.fail b .outOfFuel, 0)
  | n + 1, a, first, b =>
    let s := skipSpacesW b
    match s.1 with
    | [] => (.fail s.1 .syntax, s.2 + 1)
    | c :: t =>
      if c = ch! '}' then (closeAt a s.1, s.2 + 1)
      else if first then tick (s.2 + 1) (objItemW n a s.1)
      else if c ≠ ch! ',' then (.fail s.1 .syntax, s.2 + 1)
      else
        let s' := skipSpacesW t
        match s'.1 with
        | [] => (.fail s'.1 .syntax, s.2 + s'.2 + 1)
        | c :: _ =>
          if c = ch! '}' then (.fail s'.1 .syntax, s.2 + s'.2 + 1) else tick (s.2 + s'.2 + 1) (objItemW n a s'.1)

/-- The rest of the loop body of `parseObject`, `/repo/parse.go:579-594`. -/
def objItemW : Nat → Bytes → Bytes → PR × Nat
  | 0, _, b => (.fail b .outOfFuel, 0)
  | n + 1, a, b =>
    match parseStringW b with
    | (.fail r e, k) => (.fail r e, k)
    | (.ok _ b, k) =>
      let s := skipSpacesW b
      match s.1 with
      | [] => (.fail s.1 .syntax, k + s.2)
      | c :: t =>
        if c ≠ ch! ':' then (.fail s.1 .syntax, k + s.2)
        else
          let s' := skipSpacesW t
          match parseValueWF n s'.1 with
          | (.fail r e, l) => (.fail r e, k + s.2 + s'.2 + l)
          | (.ok _ b, l) => tick (k + s.2 + s'.2 + l) (objLoopW n a false b)

/-- `parseArray`, `/repo/parse.go:598-612`, up to the loop. -/
def parseArrayWF : Nat → Bytes → PR × Nat
  | 0, b => (.fail b .outOfFuel, 0)
  | n + 1, b =>
    if b.length < 2 then (.fail [] .syntax, 1)
    else match b with
      | [] => (.fail [] .syntax, 1)
      | c :: t => if c ≠ ch! '[' then (.fail b .syntax, 1) else tick 1 (arrLoopW n b true t)

/-- One round of the loop of `parseArray` up to the element, `/repo/parse.go:613-640`. -/
def arrLoopW : Nat → Bytes → Bool → Bytes → PR × Nat
  | 0, _, _, b => (.fail b .outOfFuel, 0)
  | n + 1, a, first, b =>
    let s := skipSpacesW b
    match s.1 with
    | [] => (.fail s.1 .syntax, s.2 + 1)
    | c :: t =>
      if c = ch! ']' then (closeAt a s.1, s.2 + 1)
      else if first then tick (s.2 + 1) (arrItemW n a s.1)
      else if c ≠ ch! ',' then (.fail s.1 .syntax, s.2 + 1)
      else
        let s' := skipSpacesW t
        match s'.1 with
        | [] => (.fail s'.1 .syntax, s.2 + s'.2 + 1)
        | c :: _ =>
          if c = ch! ']' then (.fail s'.1 .syntax, s.2 + s'.2 + 1) else tick (s.2 + s'.2 + 1) (arrItemW n a s'.1)

/-- The rest of the loop body of `parseArray`, `/repo/parse.go:642-646`. -/
def arrItemW : Nat → Bytes → Bytes → PR × Nat
  | 0, _, b => (.fail b .outOfFuel, 0)
  | n + 1, a, b =>
    match parseValueWF n b with
    | (.fail r e, l) => (.fail r e, l)
    | (.ok _ b, l) => tick l (arrLoopW n a false b)

end

/-- `parseValue` as called from outside, `/repo/parse.go:650`. -/
def parseValueW (b : Bytes) : PR × Nat := parseValueWF (fuelFor b) b

/-- `Valid`, `/repo/json.go:235-241`. -/
def validW (data : Bytes) : Bool × Nat :=
  match parseValueW (skipSpacesW data).1 with
  | (.fail _ _, k) => (false, (skipSpacesW data).2 + k)
  | (.ok _ r, k) => ((skipSpacesW r).1.length == 0, (skipSpacesW data).2 + k + (skipSpacesW r).2)

/-! ### Decoding into `interface{}` -/

/-- A decoding function with a count of its steps. -/
abbrev DecW := Bytes → DV → DRes × Nat

/-- `inputError`, `/repo/codec.go:972-981`: the value is parsed once more. -/
def inputErrW (b : Bytes) (p : DV) : DRes × Nat :=
  (inputErr b p, if b = [] then 1 else (parseValueW b).2 + b.length + 1)

/-- `decodeString`, `/repo/decode.go:277-297`. The loop of `parseStringUnquote` (`/repo/parse.go:449-511`) runs if there
are escapes; it looks at no byte more than twice. -/
def decodeStringW : DecW := fun b p =>
  if hasNullPrefix b then (.ok p (b.drop 4), 5)
  else match parseStringFastW b with
    | (.fail _ _, k) => tick (k + 5) (if b.head? ≠ some (ch! '"') then inputErrW b p else (decodeString b p, 0))
    | (.ok v _ escaped, k) => (decodeString b p, k + 5 + if escaped then 2 * v.length else 0)

/-- Comma, key and colon of a member in `decodeMapStringInterface`, `/repo/decode.go:747-765` with `preprocessInput`,
836-866. -/
def memberKeyW (first : Bool) (b : Bytes) : (Crash ⊕ (Bytes × Err) ⊕ (DV × Bytes)) × Nat :=
  let rest := fun b =>
    if hasNullPrefix b then (.inr (.inl (b, .syntax)), 5)
    else match decodeStringW b (.string []) with
      | (.crash c, k) => (.inl c, k + 5)
      | (.err _ r e, k) => (.inr (.inl (objectKeyError r e)), k + 5)
      | (.ok d r, k) =>
        let s := skipSpacesW r
        match s.1 with
        | [] => (.inr (.inl (s.1, .syntax)), k + 5 + s.2)
        | c :: t =>
          if c ≠ ch! ':' then (.inr (.inl (s.1, .syntax)), k + 5 + s.2)
          else (.inr (.inr (d, (skipSpacesW t).1)), k + 5 + s.2 + (skipSpacesW t).2)
  if first then rest b
  else match b with
    | [] => (.inr (.inl (b, .syntax)), 1)
    | c :: t =>
      if c ≠ ch! ',' then (.inr (.inl (b, .syntax)), 1) else tick (skipSpacesW t).2 (rest (skipSpacesW t).1)

/-- What the loops of `decodeMapStringInterface` and `decodeSlice` do with the result `d` of decoding an element
(`/repo/decode.go:764-778, 630-645`): go on with `next`, or parse the whole input again to find its end, with the result
`o`, and return the error; `dest` is what the destination holds then. -/
def elemW (d : DRes × Nat) (o : PR × Nat) (dest : DV → DV) (next : DV → Bytes → DRes × Nat) : DRes × Nat :=
  match d with
  | (.crash c, l) => (.crash c, l)
  | (.err x _ e, l) =>
    match o with
    | (.fail r e2, k) => (.err (dest x) r e2, l + k)
    | (.ok _ r, k) => (.err (dest x) r e, l + k)
  | (.ok x r, l) => tick l (next x r)

/-- The loop of `decodeMapStringInterface`, `/repo/decode.go:747-779`, into an existing map. The steps of storing an
entry are not counted. -/
def mapLoopW (dec : DecW) (input : Bytes) : Nat → Bool → List (MK × DV) → Bytes → DRes × Nat
  | 0, _, _, _ => (.crash .fuel, 0)
  | n + 1, first, m, b =>
    let s := skipSpacesW b
    if s.1.head? = some (ch! '}') then (.ok (.map m) s.1.tail, s.2 + 1)
    else
      match memberKeyW first s.1 with
      | (.inl c, k) => (.crash c, s.2 + k + 1)
      | (.inr (.inl (r, e)), k) => (.err (.map m) r e, s.2 + k + 1)
      | (.inr (.inr (kv, b)), k) =>
        tick (s.2 + k + 1) (elemW (dec b .ifaceNil) (parseValueW input) (fun _ => .map m)
          fun v r => mapLoopW dec input n false (mapSet (keyOf kv) v m) r)

/-- `decodeMapStringInterface`, `/repo/decode.go:730-780`, as called by `decodeInterface` with an empty map. -/
def decodeMapW (dec : DecW) : DecW := fun b p =>
  if hasNullPrefix b then (.ok .mapNil (b.drop 4), 5)
  else match b with
    | [] => inputErrW b p
    | c :: t =>
      if b.length < 2 ∨ c ≠ ch! '{' then tick 5 (inputErrW b p)
      else tick 5 (mapLoopW dec b (b.length + 1) true [] t)

/-- The loop of `decodeSlice`, `/repo/decode.go:597-646`. The steps of growing the slice are not counted. -/
def sliceLoopW (dec : DecW) (input : Bytes) : Nat → List DV → List DV → Bytes → DRes × Nat
  | 0, _, _, _ => (.crash .fuel, 0)
  | n + 1, done, mem, b =>
    let s := skipSpacesW b
    let elem := fun b =>
      elemW (dec b (mem.headD .ifaceNil)) (parseValueW input) (fun x => .slice done (x :: mem.tail))
        fun x r => sliceLoopW dec input n (done ++ [x]) mem.tail r
    if s.1.head? = some (ch! ']') then (.ok (.slice done mem) s.1.tail, s.2 + 1)
    else if done.isEmpty then tick (s.2 + 1) (elem s.1)
    else match s.1 with
      | [] => (.err (.slice done mem) s.1 .syntax, s.2 + 1)
      | c :: t =>
        if c ≠ ch! ',' then (.err (.slice done mem) s.1 .syntax, s.2 + 1)
        else tick (s.2 + (skipSpacesW t).2 + 1) (elem (skipSpacesW t).1)

/-- `decodeSlice`, `/repo/decode.go:570-647`, as called by `decodeInterface` with an empty slice. -/
def decodeSliceW (dec : DecW) : DecW := fun b p =>
  if hasNullPrefix b then (.ok .sliceNil (b.drop 4), 5)
  else match b with
    | [] => inputErrW b p
    | c :: t =>
      if b.length < 2 ∨ c ≠ ch! '[' then tick 5 (inputErrW b p)
      else tick 5 (sliceLoopW dec b (b.length + 1) [] [] t)

/-- `decodeInterface` on an interface that holds no pointer, `/repo/decode.go:990-992, 1012-1067`: the value is parsed,
and then decoded. Words take as many steps as they have bytes, numbers twice as many as parsing them takes (parsing
and `strconv.ParseFloat`). -/
def ifaceValueW (c : DCfg) : Nat → DecW
  | 0 => fun _ _ => (.crash .fuel, 0)
  | n + 1 => fun b _ =>
    match parseValueW b with
    | (.fail r e, k) => (.err .ifaceNil r e, k + 1)
    | (.ok v b, k) =>
      match v with
      | [] => (.crash .panic, k + 1)
      | ch :: _ =>
        if ch = ch! '{' then
          let d := decodeMapW (ifaceValueW c n) v (.map [])
          (ifaceEnd .mapSI b d.1, k + d.2 + 1)
        else if ch = ch! '[' then
          let d := decodeSliceW (ifaceValueW c n) v (.slice [] [])
          (ifaceEnd (.slice .iface) b d.1, k + d.2 + 1)
        else if ch = ch! '"' then
          let d := decodeStringW v (.string [])
          (ifaceEnd .string b d.1, k + d.2 + 1)
        else if ch = ch! 'n' then
          match decodeNull v .ifaceNil with
          | .crash x => (.crash x, k + v.length + 1)
          | .err _ _ e => (.err .ifaceNil b e, k + v.length + 1)
          | .ok x r => (if skipSpaces r ≠ [] then .err .ifaceNil b .syntax else .ok x b, k + v.length + 1)
        else if ch = ch! 't' ∨ ch = ch! 'f' then (ifaceEnd .bool b (decodeBool v (.bool false)), k + v.length + 1)
        else if ch = ch! '-' ∨ isDigit ch then
          if c.useNumber then (ifaceEnd .number b (decodeNumber v (.number [])), k + 2 * (parseNumberW v).2 + 1)
          else (ifaceEnd .float64 b (decodeFloat c.lib false v (.float (.fin false [0x30] (.f [] [0x30] [] (.inl rfl) .zero .none)))),
            k + 2 * (parseNumberW v).2 + 1)
        else (.err .ifaceNil b .syntax, k + 1)

/-- `Unmarshal` into an `interface{}` that is nil, `/repo/json.go:193-231`. -/
def unmarshalAnyW (c : DCfg) (b : Bytes) : URes × Nat :=
  let s := skipSpacesW b
  match ifaceValueW c (s.1.length + 1) s.1 .ifaceNil with
  | (.crash x, k) => (.crash x, s.2 + k)
  | (.ok v r, k) => (.done v (if (skipSpacesW r).1 ≠ [] then some .syntax else none), s.2 + k + (skipSpacesW r).2)
  | (.err v r e, k) => (.done v (if (skipSpacesW r).1 ≠ [] then some .syntax else some e), s.2 + k + (skipSpacesW r).2)

end JC

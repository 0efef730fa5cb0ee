import Verif.Model.Parse
/-!
Model of the errors that the parser of `/repo/parse.go` makes, with their messages (property C97).  Each function does
what the function of the same name in `Model/Parse.lean` does; `Lemmas/Message.lean` proves so.
-/
namespace JC

/-- A `SyntaxError` as made by `syntaxError`, `/repo/codec.go:963-970`: the formatted message, the bytes whose beginning
is quoted, and the field `Offset`, which is not set. -/
structure SynErr where
  what : Bytes
  near : Bytes
  offset : Nat := 0
deriving DecidableEq, Repr

/-- `prefix`, `/repo/codec.go:994-999`. -/
def prefix32 (b : Bytes) : Bytes := if b.length < 32 then b else b.take 32 ++ bs! "..."

/-- The text of the error, `/repo/codec.go:965`. -/
def SynErr.text (e : SynErr) : Bytes := bs! "json: " ++ e.what ++ bs! ": " ++ prefix32 e.near

/-- `unexpectedEOF`, `/repo/codec.go:959-961`. -/
def unexpectedEOF (b : Bytes) : SynErr := ⟨bs! "unexpected end of JSON input", b, 0⟩

/-- `%c` of the package `fmt` for a byte: the code point of that number in UTF-8. -/
def fmtC (c : UInt8) : Bytes := if c < 0x80 then [c] else [(0xc0 : UInt8) ||| (c >>> 6), (0x80 : UInt8) ||| (c &&& 0x3f)]

/-- A message with `'%c'`. -/
def withC (a : Bytes) (c : UInt8) (z : Bytes) : Bytes := a ++ ch! '\'' :: (fmtC c ++ ch! '\'' :: z)

/-- Result `(v, r, err)` of the parse functions with the error as it is. -/
inductive PM where
  | ok (v r : Bytes)
  | fail (r : Bytes) (m : SynErr)
  /-- the model ran out of fuel -/
  | fuel (r : Bytes)
deriving DecidableEq, Repr

/-- The result without the message. -/
def PM.erase : PM → PR
  | .ok v r => .ok v r
  | .fail r _ => .fail r .syntax
  | .fuel r => .fail r .outOfFuel

/-- `parseNull`, `/repo/parse.go:241-249`. -/
def parseNullM (b : Bytes) : PM :=
  if b.length ≥ 4 ∧ b.take 4 = bs! "null" then .ok (b.take 4) (b.drop 4)
  else if b.length < 4 then .fail [] (unexpectedEOF b)
  else .fail b ⟨bs! "expected 'null' but found invalid token", b, 0⟩

/-- `parseTrue`, `/repo/parse.go:251-259`. -/
def parseTrueM (b : Bytes) : PM :=
  if b.length ≥ 4 ∧ b.take 4 = bs! "true" then .ok (b.take 4) (b.drop 4)
  else if b.length < 4 then .fail [] (unexpectedEOF b)
  else .fail b ⟨bs! "expected 'true' but found invalid token", b, 0⟩

/-- `parseFalse`, `/repo/parse.go:261-269`. -/
def parseFalseM (b : Bytes) : PM :=
  if b.length ≥ 5 ∧ b.take 5 = bs! "false" then .ok (b.take 5) (b.drop 5)
  else if b.length < 5 then .fail [] (unexpectedEOF b)
  else .fail b ⟨bs! "expected 'false' but found invalid token", b, 0⟩

/-- `b[:i], b[i:]`, where `rest` is `b[i:]`. -/
def okAtM (b rest : Bytes) : PM :=
  .ok (b.take (b.length - rest.length)) (b.drop (b.length - rest.length))

/-- The exponent in `parseNumber`, `/repo/parse.go:334-359`; `s` is `b[i:]`. -/
def numExpM (b s : Bytes) : PM :=
  match s with
  | c :: t =>
    if c = ch! 'e' ∨ c = ch! 'E' then
      let t' : Bytes := match t with
        | d :: u => if d = ch! '+' ∨ d = ch! '-' then u else t
        | [] => t
      match t' with
      | [] => .fail [] ⟨bs! "missing exponent in number", b, 0⟩
      | d :: u =>
        if isDigit d then okAtM b (skipDigits u)
        else .fail [] ⟨withC (bs! "expected digit but found ") d [], b, 0⟩
    else okAtM b s
  | [] => okAtM b s

/-- The decimal part in `parseNumber`, `/repo/parse.go:311-331`; `s` is `b[i:]`. -/
def numFracM (b s : Bytes) : PM :=
  match s with
  | c :: t =>
    if c = ch! '.' then
      match t with
      | [] => .fail [] ⟨bs! "expected decimal part after '.'", b, 0⟩
      | d :: u => if isDigit d then numExpM b (skipDigits u) else .fail t ⟨withC (bs! "expected digit but found ") d [], b, 0⟩
    else numExpM b s
  | [] => numExpM b s

/-- `parseNumber`, `/repo/parse.go:271-363`. -/
def parseNumberM (b : Bytes) : PM :=
  match b with
  | [] => .fail [] (unexpectedEOF b)
  | c0 :: t0 =>
    let s : Bytes := if c0 = ch! '-' then t0 else b
    match s with
    | [] => .fail [] ⟨bs! "missing number value after sign", b, 0⟩
    | d :: u =>
      if isDigit d then
        if d = ch! '0' then
          match u with
          | [] => okAtM b u
          | e :: _ =>
            if e ≠ ch! '.' ∧ e ≠ ch! 'e' ∧ e ≠ ch! 'E' then okAtM b u
            else if isDigit e then .fail u ⟨bs! "cannot decode number with leading '0' character", b, 0⟩
            else numFracM b (skipDigits u)
        else numFracM b (skipDigits s)
      else .fail s ⟨withC (bs! "expected digit but got ") d [], b, 0⟩

/-- The error of `parseUnicode`, `/repo/parse.go:365-380`, if there is one.  The error of `parseUintHex` for a text
that does not begin with a digit, `/repo/parse.go:220-222`, is part of the message; four digits are in range. -/
def unicodeErr (b : Bytes) : Option SynErr :=
  if b.length < 4 then some ⟨bs! "unicode code point must have at least 4 characters", b, 0⟩
  else match parseUintHex (b.take 4) with
    | none => some ⟨bs! "parsing unicode code point: " ++
        (SynErr.mk (withC (bs! "expected hexadecimal digit but found ") (b.headD 0) []) (b.take 4) 0).text, b, 0⟩
    | some (_, r) => if r.length ≠ 0 then some ⟨bs! "invalid unicode code point", b, 0⟩ else none

/-- The slow scan loop of `parseStringFast`, `/repo/parse.go:399-425`; as `scanString` without the flag. -/
def scanStringM (b : Bytes) : Bytes → Nat → PM
  | [], _ => .fail [] ⟨bs! "missing '\"' at the end of a string value", b, 0⟩
  | c :: t, i =>
    if c = ch! '\\' then
      match t with
      | [] => .fail [] ⟨bs! "missing '\"' at the end of a string value", b, 0⟩
      | e :: t' =>
        if isSimpleEsc e then scanStringM b t' (i + 2)
        else if e = ch! 'u' then
          match unicodeErr t' with
          | some m => .fail b m
          | none =>
            match t' with
            | _ :: _ :: _ :: _ :: t'' => scanStringM b t'' (i + 6)
            | _ => .fail b (unexpectedEOF b)   -- not reachable: parseUnicode needs 4 bytes
        else .fail b ⟨withC (bs! "invalid character ") e (bs! " in string escape code"), b, 0⟩
    else if c = ch! '"' then .ok (b.take (i + 1)) (b.drop (i + 1))
    else if c < 0x20 then .fail b ⟨withC (bs! "invalid character ") c (bs! " in string escape code"), b, 0⟩
    else scanStringM b t (i + 1)

/-- `parseString`, `/repo/parse.go:382-431`. -/
def parseStringM (b : Bytes) : PM :=
  match b with
  | [] => .fail [] (unexpectedEOF b)
  | [_] => .fail [] (unexpectedEOF b)
  | q :: t =>
    if q ≠ ch! '"' then .fail b ⟨bs! "expected '\"' at the beginning of a string value", b, 0⟩
    else match indexByte t (ch! '"') with
      | none => .fail [] ⟨bs! "missing '\"' at the end of a string value", b, 0⟩
      | some k =>
        if indexByte (t.take (k + 1)) (ch! '\\') = none ∧ asciiValidPrint (t.take (k + 1)) = true then
          .ok (b.take (k + 2)) (b.drop (k + 2))
        else scanStringM b t 1

/-- `a[:j], a[j:]` with `j = (n - len(b)) + 1`, `/repo/parse.go:558-559, 624-625`. -/
def closeAtM (a b : Bytes) : PM :=
  let j := (a.length - b.length) + 1
  .ok (a.take j) (a.drop j)

mutual

/-- `parseValue`, `/repo/parse.go:650-672`. -/
def parseValueMF : Nat → Bytes → PM
  | 0, b => .fuel b
  | n + 1, b =>
    match b with
    | [] => .fail b (unexpectedEOF b)
    | c :: _ =>
      if c = ch! '{' then parseObjectMF n b
      else if c = ch! '[' then parseArrayMF n b
      else if c = ch! '"' then parseStringM b
      else if c = ch! 'n' then parseNullM b
      else if c = ch! 't' then parseTrueM b
      else if c = ch! 'f' then parseFalseM b
      else if c = ch! '-' ∨ isDigit c then parseNumberM b
      else .fail b ⟨withC (bs! "invalid character ") c (bs! " looking for beginning of value"), b, 0⟩

/-- `parseObject`, `/repo/parse.go:532-546`, up to the loop. -/
def parseObjectMF : Nat → Bytes → PM
  | 0, b => .fuel b
  | n + 1, b =>
    if b.length < 2 then .fail [] (unexpectedEOF b)
    else match b with
      | [] => .fail [] (unexpectedEOF b)
      | c :: t => if c ≠ ch! '{' then .fail b ⟨bs! "expected '{' at the beginning of an object value", b, 0⟩ else objLoopM n b true t

/-- One round of the loop of `parseObject` up to the key, `/repo/parse.go:547-577`. -/
def objLoopM : Nat → Bytes → Bool → Bytes → PM
  | 0, _, _, b => .fuel b
  | n + 1, a, first, b =>
    let b := skipSpaces b
    match b with
    | [] => .fail b ⟨bs! "cannot decode object from empty input", b, 0⟩
    | c :: t =>
      if c = ch! '}' then closeAtM a b
      else if first then objItemM n a b
      else if c ≠ ch! ',' then .fail b ⟨withC (bs! "expected ',' after object field value but found ") c [], b, 0⟩
      else
        let b := skipSpaces t
        match b with
        | [] => .fail b (unexpectedEOF b)
        | c :: _ => if c = ch! '}' then .fail b ⟨bs! "unexpected trailing comma after object field", b, 0⟩ else objItemM n a b

/-- The rest of the loop body of `parseObject`, `/repo/parse.go:579-594`. -/
def objItemM : Nat → Bytes → Bytes → PM
  | 0, _, b => .fuel b
  | n + 1, a, b =>
    match parseStringM b with
    | .fuel r => .fuel r
    | .fail r e => .fail r e
    | .ok _ b =>
      let b := skipSpaces b
      match b with
      | [] => .fail b ⟨bs! "unexpected EOF after object field key", b, 0⟩
      | c :: t =>
        if c ≠ ch! ':' then .fail b ⟨withC (bs! "expected ':' after object field key but found ") c [], b, 0⟩
        else match parseValueMF n (skipSpaces t) with
          | .fuel r => .fuel r
          | .fail r e => .fail r e
          | .ok _ b => objLoopM n a false b

/-- `parseArray`, `/repo/parse.go:598-612`, up to the loop. -/
def parseArrayMF : Nat → Bytes → PM
  | 0, b => .fuel b
  | n + 1, b =>
    if b.length < 2 then .fail [] (unexpectedEOF b)
    else match b with
      | [] => .fail [] (unexpectedEOF b)
      | c :: t => if c ≠ ch! '[' then .fail b ⟨bs! "expected '[' at the beginning of array value", b, 0⟩ else arrLoopM n b true t

/-- One round of the loop of `parseArray` up to the element, `/repo/parse.go:613-640`. -/
def arrLoopM : Nat → Bytes → Bool → Bytes → PM
  | 0, _, _, b => .fuel b
  | n + 1, a, first, b =>
    let b := skipSpaces b
    match b with
    | [] => .fail b ⟨bs! "missing closing ']' after array value", b, 0⟩
    | c :: t =>
      if c = ch! ']' then closeAtM a b
      else if first then arrItemM n a b
      else if c ≠ ch! ',' then .fail b ⟨withC (bs! "expected ',' after array element but found ") c [], b, 0⟩
      else
        let b := skipSpaces t
        match b with
        | [] => .fail b (unexpectedEOF b)
        | c :: _ => if c = ch! ']' then .fail b ⟨bs! "unexpected trailing comma after object field", b, 0⟩ else arrItemM n a b

/-- The rest of the loop body of `parseArray`, `/repo/parse.go:642-646`. -/
def arrItemM : Nat → Bytes → Bytes → PM
  | 0, _, b => .fuel b
  | n + 1, a, b =>
    match parseValueMF n b with
    | .fuel r => .fuel r
    | .fail r e => .fail r e
    | .ok _ b => arrLoopM n a false b

end

/-- `parseValue` as called from outside, `/repo/parse.go:650`. -/
def parseValueM (b : Bytes) : PM := parseValueMF (fuelFor b) b

/-- The `SyntaxError` that `Unmarshal` returns, if it returns one, for a destination that takes every value, such as a
`RawMessage`: `/repo/json.go:193-205, 221-231` with `decodeRawMessage`, `/repo/decode.go:1097-1109`, and `inputError`,
`/repo/codec.go:972-981`. -/
def unmarshalErr (b : Bytes) : Option SynErr :=
  match parseValueM (skipSpaces b) with
  | .fuel _ => none
  | .fail _ m => some m
  | .ok _ r =>
    match skipSpaces r with
    | [] => none
    | c :: t => some ⟨withC (bs! "invalid character ") c (bs! " after top-level value"), c :: t, 0⟩

end JC

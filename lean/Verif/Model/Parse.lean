import Verif.Model.Ascii
/-!
Model of the scanning part of `/repo/parse.go`.
-/
namespace JC

/-- Result `(v, r, err)` of the Go parse functions. On every error path Go
returns `v == nil`, so only the remainder and the error are kept. -/
inductive PR where
  | ok (v r : Bytes)
  | fail (r : Bytes) (e : Err)
deriving DecidableEq, Repr

/-- `/repo/parse.go:25-34`. The second component counts skipped bytes; note
`(nil, 0)` when the input is all whitespace. -/
def skipSpacesN : Bytes → Bytes × Nat
  | [] => ([], 0)
  | c :: t =>
    if isSpace c then
      match skipSpacesN t with
      | ([], _) => ([], 0)
      | (r, n) => (r, n + 1)
    else (c :: t, 0)

/-- `/repo/parse.go:20-23`. -/
def skipSpaces (b : Bytes) : Bytes := (skipSpacesN b).1

/-- `/repo/parse.go:241-249` with `hasNullPrefix`, 674-676. -/
def parseNull (b : Bytes) : PR :=
  if b.length ≥ 4 ∧ b.take 4 = bs! "null" then .ok (b.take 4) (b.drop 4)
  else if b.length < 4 then .fail [] .syntax
  else .fail b .syntax

/-- `/repo/parse.go:251-259`. -/
def parseTrue (b : Bytes) : PR :=
  if b.length ≥ 4 ∧ b.take 4 = bs! "true" then .ok (b.take 4) (b.drop 4)
  else if b.length < 4 then .fail [] .syntax
  else .fail b .syntax

/-- `/repo/parse.go:261-269`. -/
def parseFalse (b : Bytes) : PR :=
  if b.length ≥ 5 ∧ b.take 5 = bs! "false" then .ok (b.take 5) (b.drop 5)
  else if b.length < 5 then .fail [] .syntax
  else .fail b .syntax

/-- The digit-skipping loops of `parseNumber`: the remaining slice `b[i:]`
after skipping digits. -/
def skipDigits : Bytes → Bytes
  | [] => []
  | c :: t => if isDigit c then skipDigits t else c :: t

/-- Length of the consumed prefix, i.e. the loop index `i` recovered from the
remaining slice. -/
def okAt (b rest : Bytes) : PR :=
  .ok (b.take (b.length - rest.length)) (b.drop (b.length - rest.length))

/-- Exponent part, `/repo/parse.go:334-359`; `s` is `b[i:]`. -/
def numExp (b s : Bytes) : PR :=
  match s with
  | c :: t =>
    if c = ch! 'e' ∨ c = ch! 'E' then
      let t' : Bytes := match t with
        | d :: u => if d = ch! '+' ∨ d = ch! '-' then u else t
        | [] => t
      match t' with
      | [] => .fail [] .syntax
      | d :: u =>
        if isDigit d then okAt b (skipDigits u)
        else .fail [] .syntax        -- `r` is left nil here (line 352)
    else okAt b s
  | [] => okAt b s

/-- Decimal part, `/repo/parse.go:311-331`; `s` is `b[i:]`. -/
def numFrac (b s : Bytes) : PR :=
  match s with
  | c :: t =>
    if c = ch! '.' then
      match t with
      | [] => .fail [] .syntax
      | d :: u => if isDigit d then numExp b (skipDigits u) else .fail t .syntax
    else numExp b s
  | [] => numExp b s

/-- `/repo/parse.go:271-363`. -/
def parseNumber (b : Bytes) : PR :=
  match b with
  | [] => .fail [] .syntax
  | c0 :: t0 =>
    let s : Bytes := if c0 = ch! '-' then t0 else b
    match s with
    | [] => .fail [] .syntax
    | d :: u =>
      if isDigit d then
        if d = ch! '0' then
          match u with
          | [] => okAt b u
          | e :: _ =>
            if e ≠ ch! '.' ∧ e ≠ ch! 'e' ∧ e ≠ ch! 'E' then okAt b u
            else if isDigit e then .fail u .syntax
            else numFrac b (skipDigits u)
        else numFrac b (skipDigits s)
      else .fail s .syntax

/-- One iteration of `parseUintHex`, `/repo/parse.go:206-225`: value of a
hexadecimal digit. -/
def hexVal (d : UInt8) : Option Nat :=
  if 0x30 ≤ d ∧ d ≤ 0x39 then some (d.toNat - 0x30)
  else if 0x41 ≤ d ∧ d ≤ 0x46 then some (d.toNat - 0x41 + 0xA)
  else if 0x61 ≤ d ∧ d ≤ 0x66 then some (d.toNat - 0x61 + 0xA)
  else none

/-- `/repo/parse.go:194-239` loop from a given accumulator; `none` is an error
return. `first` is `i == 0`. Values are `uint64`, hence the range tests. -/
def parseUintHexLoop (value : Nat) (first : Bool) : Bytes → Option (Nat × Bytes)
  | [] => some (value, [])
  | d :: t =>
    match hexVal d with
    | none => if first then none else some (value, d :: t)
    | some x =>
      if value > (2 ^ 64 - 1) / 16 then none
      else if value * 16 > 2 ^ 64 - 1 - x then none
      else parseUintHexLoop (value * 16 + x) false t

/-- `/repo/parse.go:194-239`. -/
def parseUintHex (b : Bytes) : Option (Nat × Bytes) :=
  if b = [] then none else parseUintHexLoop 0 true b

/-- `/repo/parse.go:365-380`: the code point, or `none` on error. The count 4
returned by Go is constant. -/
def parseUnicode (b : Bytes) : Option Nat :=
  if b.length < 4 then none
  else match parseUintHex (b.take 4) with
    | none => none
    | some (u, r) => if r.length ≠ 0 then none else some u

/-- The characters accepted after a backslash in the scan loop,
`/repo/parse.go:404`. -/
def isSimpleEsc (c : UInt8) : Bool :=
  c == ch! '"' || c == ch! '\\' || c == ch! '/' || c == ch! 'n' || c == ch! 'r' ||
  c == ch! 't' || c == ch! 'f' || c == ch! 'b'

/-- Result of `parseStringFast`: as `PR` with the `escaped` flag. -/
inductive SR where
  | ok (v r : Bytes) (escaped : Bool)
  | fail (r : Bytes) (e : Err)
deriving DecidableEq, Repr

/-- The slow scan loop of `parseStringFast`, `/repo/parse.go:399-425`. Second
argument is `b[i:]`, third is `i`. -/
def scanString (b : Bytes) : Bytes → Nat → SR
  | [], _ => .fail [] .syntax
  | c :: t, i =>
    if c = ch! '\\' then
      match t with
      | [] => .fail [] .syntax
      | e :: t' =>
        if isSimpleEsc e then scanString b t' (i + 2)
        else if e = ch! 'u' then
          match parseUnicode t' with
          | none => .fail b .syntax
          | some _ =>
            match t' with
            | _ :: _ :: _ :: _ :: t'' => scanString b t'' (i + 6)
            | _ => .fail b .syntax   -- not reachable: parseUnicode needs 4 bytes
        else .fail b .syntax
    else if c = ch! '"' then .ok (b.take (i + 1)) (b.drop (i + 1)) true
    else if c < 0x20 then .fail b .syntax
    else scanString b t (i + 1)

/-- `/repo/parse.go:382-426`. -/
def parseStringFast (b : Bytes) : SR :=
  match b with
  | [] => .fail [] .syntax
  | [_] => .fail [] .syntax
  | q :: t =>
    if q ≠ ch! '"' then .fail b .syntax
    else match indexByte t (ch! '"') with
      | none => .fail [] .syntax
      | some k =>
        -- n = k + 2, b[1:n] = t[:k+1]
        if indexByte (t.take (k + 1)) (ch! '\\') = none ∧ asciiValidPrint (t.take (k + 1)) = true then
          .ok (b.take (k + 2)) (b.drop (k + 2)) false
        else scanString b t 1

/-- `/repo/parse.go:428-431`. -/
def parseString (b : Bytes) : PR :=
  match parseStringFast b with
  | .ok v r _ => .ok v r
  | .fail r e => .fail r e

/-- `a[:j], a[j:]` with `j = (n - len(b)) + 1`, `/repo/parse.go:558-559, 624-625`. -/
def closeAt (a b : Bytes) : PR :=
  let j := (a.length - b.length) + 1
  .ok (a.take j) (a.drop j)

mutual

/-- `/repo/parse.go:650-672`. Fuel stands for the call depth plus loop counts. -/
def parseValueF : Nat → Bytes → PR
  | 0, b => .fail b .outOfFuel
  | n + 1, b =>
    match b with
    | [] => .fail b .syntax
    | c :: _ =>
      if c = ch! '{' then parseObjectF n b
      else if c = ch! '[' then parseArrayF n b
      else if c = ch! '"' then parseString b
      else if c = ch! 'n' then parseNull b
      else if c = ch! 't' then parseTrue b
      else if c = ch! 'f' then parseFalse b
      else if c = ch! '-' ∨ isDigit c then parseNumber b
      else .fail b .syntax

/-- `/repo/parse.go:532-546`, up to the loop. -/
def parseObjectF : Nat → Bytes → PR
  | 0, b => .fail b .outOfFuel
  | n + 1, b =>
    if b.length < 2 then .fail [] .syntax
    else match b with
      | [] => .fail [] .syntax
      | c :: t => if c ≠ ch! '{' then .fail b .syntax else objLoop n b true t

/-- One round of the loop of `parseObject` up to the key, `/repo/parse.go:547-577`.
`first` is `i == 0`. -/
def objLoop : Nat → Bytes → Bool → Bytes → PR
  | 0, _, _, b => .fail b .outOfFuel
  | n + 1, a, first, b =>
    let b := skipSpaces b
    match b with
    | [] => .fail b .syntax
    | c :: t =>
      if c = ch! '}' then closeAt a b
      else if first then objItem n a b
      else if c ≠ ch! ',' then .fail b .syntax
      else
        let b := skipSpaces t
        match b with
        | [] => .fail b .syntax
        | c :: _ => if c = ch! '}' then .fail b .syntax else objItem n a b

/-- The rest of the loop body of `parseObject`, `/repo/parse.go:579-594`. -/
def objItem : Nat → Bytes → Bytes → PR
  | 0, _, b => .fail b .outOfFuel
  | n + 1, a, b =>
    match parseString b with
    | .fail r e => .fail r e
    | .ok _ b =>
      let b := skipSpaces b
      match b with
      | [] => .fail b .syntax
      | c :: t =>
        if c ≠ ch! ':' then .fail b .syntax
        else match parseValueF n (skipSpaces t) with
          | .fail r e => .fail r e
          | .ok _ b => objLoop n a false b

/-- `/repo/parse.go:598-612`, up to the loop. -/
def parseArrayF : Nat → Bytes → PR
  | 0, b => .fail b .outOfFuel
  | n + 1, b =>
    if b.length < 2 then .fail [] .syntax
    else match b with
      | [] => .fail [] .syntax
      | c :: t => if c ≠ ch! '[' then .fail b .syntax else arrLoop n b true t

/-- One round of the loop of `parseArray` up to the element, `/repo/parse.go:613-640`. -/
def arrLoop : Nat → Bytes → Bool → Bytes → PR
  | 0, _, _, b => .fail b .outOfFuel
  | n + 1, a, first, b =>
    let b := skipSpaces b
    match b with
    | [] => .fail b .syntax
    | c :: t =>
      if c = ch! ']' then closeAt a b
      else if first then arrItem n a b
      else if c ≠ ch! ',' then .fail b .syntax
      else
        let b := skipSpaces t
        match b with
        | [] => .fail b .syntax
        | c :: _ => if c = ch! ']' then .fail b .syntax else arrItem n a b

/-- The rest of the loop body of `parseArray`, `/repo/parse.go:642-646`. -/
def arrItem : Nat → Bytes → Bytes → PR
  | 0, _, b => .fail b .outOfFuel
  | n + 1, a, b =>
    match parseValueF n b with
    | .fail r e => .fail r e
    | .ok _ b => arrLoop n a false b

end

/-- Fuel that suffices for an input of this length (proved in
`Verif/Lemmas/ParseFuel.lean`). -/
def fuelFor (b : Bytes) : Nat := 4 * b.length + 4

/-- `parseValue` as called from outside, `/repo/parse.go:650`. -/
def parseValue (b : Bytes) : PR := parseValueF (fuelFor b) b
/-- `parseObject` as called from outside, `/repo/parse.go:532`. -/
def parseObject (b : Bytes) : PR := parseObjectF (fuelFor b) b
/-- `parseArray` as called from outside, `/repo/parse.go:598`. -/
def parseArray (b : Bytes) : PR := parseArrayF (fuelFor b) b

/-- `/repo/json.go:235-241`. -/
def Valid (data : Bytes) : Bool :=
  match parseValue (skipSpaces data) with
  | .fail _ _ => false
  | .ok _ data => (skipSpaces data).length == 0

end JC

import Verif.Model.Parse
/-!
Model of integer parsing (`/repo/parse.go:36-184`), of the integer decoders
(`/repo/decode.go:42-218`) and of integer formatting
(`/repo/jsoncolor.go`, `appendInt64` and `appendUint64`).

Machine integers are `Int` with an explicit wrap-around after every addition,
subtraction and multiplication, so an overflow in the Go code would be an
overflow here.
-/
namespace JC

/-- Two's complement wrap-around of an `n`-bit signed integer. -/
def wrapS (n : Nat) (x : Int) : Int := (x + 2 ^ (n - 1)) % 2 ^ n - 2 ^ (n - 1)
/-- Wrap-around of an `n`-bit unsigned integer. -/
def wrapU (n : Nat) (x : Int) : Int := x % 2 ^ n

/-- `inputError`, `/repo/codec.go:972-981`: remainder and error. -/
def inputError (b : Bytes) : Bytes × Err :=
  if b.length = 0 then ([], .syntax)
  else match parseValue b with
    | .fail r e => (r, e)
    | .ok _ r => (skipSpaces r, .unmarshalType)

/-- Outcome of a digit loop: `stop value count`, an overflow return, or the
`count == 0` return through `inputError`. -/
inductive DigLoop where
  | stop (value : Int) (count : Nat)
  | overflow
  | noDigit
deriving DecidableEq, Repr

/-- `int64(d - '0')`: the byte subtraction wraps modulo 256. -/
def digitVal (d : UInt8) : Int := ((d - 0x30).toNat : Int)

/-- Digit loop of the negative branch, `/repo/parse.go:64-86`.
`maxVal = math.MinInt64`, `lim = maxVal / 10` (Go division truncates). -/
def negLoop (value : Int) (count : Nat) : Bytes → DigLoop
  | [] => .stop value count
  | d :: t =>
    if d < 0x30 ∨ d > 0x39 then
      if count = 0 then .noDigit else .stop value count
    else if value < Int.tdiv (-9223372036854775808) 10 then .overflow
    else
      let value := wrapS 64 (value * 10)
      let x := digitVal d
      if value < wrapS 64 (-9223372036854775808 + x) then .overflow
      else negLoop (wrapS 64 (value - x)) (count + 1) t

/-- Digit loop of the non-negative branch, `/repo/parse.go:97-117`
(`maxVal = math.MaxInt64`), and of `parseUint`, `/repo/parse.go:150-170`
(`maxVal = math.MaxUint64`); `wrap` is the arithmetic of the accumulator type. -/
def posLoop (maxVal : Int) (wrap : Int → Int) (value : Int) (count : Nat) : Bytes → DigLoop
  | [] => .stop value count
  | d :: t =>
    if d < 0x30 ∨ d > 0x39 then
      if count = 0 then .noDigit else .stop value count
    else
      let x := digitVal d
      if value > Int.tdiv maxVal 10 then .overflow
      else
        let value := wrap (value * 10)
        if value > wrap (maxVal - x) then .overflow
        else posLoop maxVal wrap (wrap (value + x)) (count + 1) t

/-- Result `(value, remainder, err)` of the integer parsers; the value is 0 on
every error path and not looked at. -/
inductive IR where
  | ok (v : Int) (r : Bytes)
  | fail (r : Bytes) (e : Err)
deriving DecidableEq, Repr

/-- The check for a float after the loops, `/repo/parse.go:120-131, 172-183`. -/
def intTail (b : Bytes) (value : Int) (count : Nat) : IR :=
  match b.drop count with
  | c :: r =>
    if c = ch! '.' ∨ c = ch! 'e' ∨ c = ch! 'E' then
      match parseNumber b with
      | .ok _ r' => .fail r' .unmarshalType
      | .fail _ _ => .fail r .unmarshalType
    else .ok value (b.drop count)
  | [] => .ok value (b.drop count)

/-- The error returns of the digit loops and the continuation after them;
`extra` is the final `count++` of the negative branch. -/
def intFinish (b : Bytes) (extra : Nat) : DigLoop → IR
  | .overflow => .fail b .unmarshalType
  | .noDigit => .fail (inputError b).1 (inputError b).2
  | .stop value count => intTail b value (count + extra)

/-- `/repo/parse.go:44-132`. -/
def parseInt (b : Bytes) : IR :=
  match b with
  | [] => .fail b .syntax
  | c :: t =>
    if c = ch! '-' then
      match t with
      | [] => .fail b .syntax
      | d1 :: t1 =>
        if d1 = 0x30 ∧ t1.head?.any (fun d2 => 0x30 ≤ d2 && d2 ≤ 0x39) then .fail b .syntax
        else intFinish b 1 (negLoop 0 0 t)
    else if c = 0x30 ∧ t.head?.any (fun d2 => 0x30 ≤ d2 && d2 ≤ 0x39) then .fail b .syntax
    else intFinish b 0 (posLoop 9223372036854775807 (wrapS 64) 0 0 b)

/-- `/repo/parse.go:135-184`. -/
def parseUint (b : Bytes) : IR :=
  match b with
  | [] => .fail b .syntax
  | c :: t =>
    if c = 0x30 ∧ t.head?.any (fun d2 => 0x30 ≤ d2 && d2 ≤ 0x39) then .fail b .syntax
    else intFinish b 0 (posLoop 18446744073709551615 (wrapU 64) 0 0 b)

/-- `hasNullPrefix`, `/repo/parse.go:674-676`. -/
def hasNullPrefix (b : Bytes) : Bool := 4 ≤ b.length && b.take 4 == bs! "null"

/-- Result of a decoder: new contents of the destination, remainder, error
(`none` is a nil error). -/
structure DI where
  dest : Int
  rest : Bytes
  err : Option Err
deriving DecidableEq, Repr

/-- The integer kinds of Go (`int` and `uint` are taken to be 64 bits wide). -/
inductive IntKind where
  | int | int8 | int16 | int32 | int64
  | uint | uint8 | uint16 | uint32 | uint64 | uintptr
deriving DecidableEq, Repr

/-- Sized signed decoders `decodeInt8/16/32`, `/repo/decode.go:56-108`. -/
def decodeIntSized (n : Nat) (lo hi : Int) (b : Bytes) (p : Int) : DI :=
  if hasNullPrefix b then ⟨p, b.drop 4, none⟩
  else match parseInt b with
    | .fail r e => ⟨p, r, some e⟩
    | .ok v r => if v < lo ∨ v > hi then ⟨p, r, some .unmarshalType⟩ else ⟨wrapS n v, r, none⟩

/-- `decodeInt`, `decodeInt64`: no range check, `/repo/decode.go:42-54, 110-122`. -/
def decodeInt64 (b : Bytes) (p : Int) : DI :=
  if hasNullPrefix b then ⟨p, b.drop 4, none⟩
  else match parseInt b with
    | .fail r e => ⟨p, r, some e⟩
    | .ok v r => ⟨wrapS 64 v, r, none⟩

/-- Sized unsigned decoders `decodeUint8/16/32`, `/repo/decode.go:152-204`. -/
def decodeUintSized (n : Nat) (hi : Int) (b : Bytes) (p : Int) : DI :=
  if hasNullPrefix b then ⟨p, b.drop 4, none⟩
  else match parseUint b with
    | .fail r e => ⟨p, r, some e⟩
    | .ok v r => if v > hi then ⟨p, r, some .unmarshalType⟩ else ⟨wrapU n v, r, none⟩

/-- `decodeUint`, `decodeUintptr`, `decodeUint64`, `/repo/decode.go:124-150, 206-218`. -/
def decodeUint64 (b : Bytes) (p : Int) : DI :=
  if hasNullPrefix b then ⟨p, b.drop 4, none⟩
  else match parseUint b with
    | .fail r e => ⟨p, r, some e⟩
    | .ok v r => ⟨wrapU 64 v, r, none⟩

/-- The decoder selected for each integer kind, `/repo/codec.go`
(`constructCodec`), with the bounds written in each function. -/
def decodeIntKind : IntKind → Bytes → Int → DI
  | .int | .int64 => decodeInt64
  | .int8 => decodeIntSized 8 (-128) 127
  | .int16 => decodeIntSized 16 (-32768) 32767
  | .int32 => decodeIntSized 32 (-2147483648) 2147483647
  | .uint | .uint64 | .uintptr => decodeUint64
  | .uint8 => decodeUintSized 8 255
  | .uint16 => decodeUintSized 16 65535
  | .uint32 => decodeUintSized 32 4294967295

/-- Decimal digits of a natural number (`strconv.AppendUint` in base 10). -/
def fmtNat (n : Nat) : Bytes :=
  if n < 10 then [UInt8.ofNat (0x30 + n)] else fmtNat (n / 10) ++ [UInt8.ofNat (0x30 + n % 10)]

/-- `strconv.AppendInt` in base 10. -/
def fmtInt (z : Int) : Bytes :=
  if z < 0 then 0x2d :: fmtNat z.natAbs else fmtNat z.natAbs

end JC

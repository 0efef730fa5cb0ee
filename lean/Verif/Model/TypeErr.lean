import Verif.Model.Message
import Verif.Model.Decode
/-!
Model of the errors that the decoders of plain values make for values that do not fit (property C98): the fields `Value`
and `Type` of an `*UnmarshalTypeError`.  Each function does what the function of the same name in `Model/Ints.lean` or
`Model/Decode.lean` does; `Lemmas/TypeErr.lean` proves so.  Other errors are kept without their message: for syntax
errors see `Model/Message.lean`.
-/
namespace JC

/-- The types of plain values and the names of the types in their errors: `intType`, `durationType` and so on,
`/repo/codec.go:1016-1040`. -/
inductive Scalar where
  | bool
  | int (k : IntKind)
  | float32 | float64 | number | string | duration | time
deriving DecidableEq, Repr

/-- The type of the destination. -/
def Scalar.ty : Scalar → Ty
  | .bool => .bool
  | .int k => .int k
  | .float32 => .float32
  | .float64 => .float64
  | .number => .number
  | .string => .string
  | .duration => .duration
  | .time => .time

/-- An error: made by `unmarshalOverflow`, `/repo/codec.go:955-957`, by `unmarshalTypeError`, 951-953, both with the
type and the bytes they are given, or another one. -/
inductive TErr where
  | over (ty : Scalar) (near : Bytes)
  | quote (ty : Scalar) (near : Bytes)
  | other (e : Err)
deriving DecidableEq, Repr

/-- The field `Value`; `q` is `strconv.Quote`. -/
def TErr.value (q : Bytes → Bytes) : TErr → Bytes
  | .over _ near => bs! "number " ++ prefix32 near ++ bs! " overflows"
  | .quote _ near => q (prefix32 near)
  | .other _ => []

/-- The error without its fields. -/
def TErr.erase : TErr → Err
  | .over _ _ | .quote _ _ => .unmarshalType
  | .other e => e

/-- `inputError`, `/repo/codec.go:972-981`. -/
def inputErrorT (b : Bytes) (ty : Scalar) : Bytes × TErr :=
  if b.length = 0 then ([], .other .syntax)
  else match parseValue b with
    | .fail r e => (r, .other e)
    | .ok _ r => (skipSpaces r, .quote ty b)

/-- Result of the integer parsers. -/
inductive IT where
  | ok (v : Int) (r : Bytes)
  | fail (r : Bytes) (e : TErr)
deriving DecidableEq, Repr

/-- The check for a float after the loops, `/repo/parse.go:120-131, 172-183`. -/
def intTailT (b : Bytes) (ty : Scalar) (value : Int) (count : Nat) : IT :=
  match b.drop count with
  | c :: r =>
    if c = ch! '.' ∨ c = ch! 'e' ∨ c = ch! 'E' then
      match parseNumber b with
      | .ok v r' => .fail r' (.quote ty v)
      | .fail _ _ => .fail r (.quote ty (b.take (count + 1)))
    else .ok value (b.drop count)
  | [] => .ok value (b.drop count)

/-- The error returns of the digit loops and the continuation after them, as `intFinish`. -/
def intFinishT (b : Bytes) (ty : Scalar) (extra : Nat) : DigLoop → IT
  | .overflow => .fail b (.over ty b)
  | .noDigit => .fail (inputErrorT b ty).1 (inputErrorT b ty).2
  | .stop value count => intTailT b ty value (count + extra)

/-- `parseInt`, `/repo/parse.go:44-132`. -/
def parseIntT (b : Bytes) (ty : Scalar) : IT :=
  match b with
  | [] => .fail b (.other .syntax)
  | c :: t =>
    if c = ch! '-' then
      match t with
      | [] => .fail b (.other .syntax)
      | d1 :: t1 =>
        if d1 = 0x30 ∧ t1.head?.any (fun d2 => 0x30 ≤ d2 && d2 ≤ 0x39) then .fail b (.other .syntax)
        else intFinishT b ty 1 (negLoop 0 0 t)
    else if c = 0x30 ∧ t.head?.any (fun d2 => 0x30 ≤ d2 && d2 ≤ 0x39) then .fail b (.other .syntax)
    else intFinishT b ty 0 (posLoop 9223372036854775807 (wrapS 64) 0 0 b)

/-- `parseUint`, `/repo/parse.go:135-184`. -/
def parseUintT (b : Bytes) (ty : Scalar) : IT :=
  match b with
  | [] => .fail b (.other .syntax)
  | c :: t =>
    if c = 0x30 ∧ t.head?.any (fun d2 => 0x30 ≤ d2 && d2 ≤ 0x39) then .fail b (.other .syntax)
    else intFinishT b ty 0 (posLoop 18446744073709551615 (wrapU 64) 0 0 b)

/-- Result of a decoding function with its error. -/
inductive TRes where
  | ok (v : DV) (r : Bytes)
  | err (v : DV) (r : Bytes) (e : TErr)
  | crash (c : Crash)

/-- The result with the error erased. -/
def TRes.erase : TRes → DRes
  | .ok v r => .ok v r
  | .err v r e => .err v r e.erase
  | .crash c => .crash c

/-- `return inputError(b, t)` with the destination untouched. -/
def inputErrT (ty : Scalar) (b : Bytes) (p : DV) : TRes := .err p (inputErrorT b ty).1 (inputErrorT b ty).2

/-- The bytes that `parseInt` or `parseUint` has taken, `b[:len(b)-len(r)]`. -/
def taken (b r : Bytes) : Bytes := b.take (b.length - r.length)

/-- `decodeInt`, `decodeInt64` (no bounds), and `decodeInt8`, `decodeInt16`, `decodeInt32`, `/repo/decode.go:42-122`. -/
def decodeIntT (k : IntKind) (n : Nat) (bounds : Option (Int × Int)) (b : Bytes) (p : DV) : TRes :=
  if hasNullPrefix b then .ok p (b.drop 4)
  else match parseIntT b (.int k) with
    | .fail r e => .err p r e
    | .ok v r => match bounds with
      | none => .ok (.int (wrapS n v)) r
      | some (lo, hi) => if v < lo ∨ v > hi then .err p r (.over (.int k) (taken b r)) else .ok (.int (wrapS n v)) r

/-- `decodeUint`, `decodeUintptr`, `decodeUint64` (no bound), and `decodeUint8`, `decodeUint16`, `decodeUint32`,
`/repo/decode.go:124-218`. -/
def decodeUintT (k : IntKind) (n : Nat) (bound : Option Int) (b : Bytes) (p : DV) : TRes :=
  if hasNullPrefix b then .ok p (b.drop 4)
  else match parseUintT b (.int k) with
    | .fail r e => .err p r e
    | .ok v r => match bound with
      | none => .ok (.int (wrapU n v)) r
      | some hi => if v > hi then .err p r (.over (.int k) (taken b r)) else .ok (.int (wrapU n v)) r

/-- The decoder selected for each integer kind, as `decodeIntKind`. -/
def decodeKindT : IntKind → Bytes → DV → TRes
  | .int => decodeIntT .int 64 none
  | .int8 => decodeIntT .int8 8 (some (-128, 127))
  | .int16 => decodeIntT .int16 16 (some (-32768, 32767))
  | .int32 => decodeIntT .int32 32 (some (-2147483648, 2147483647))
  | .int64 => decodeIntT .int64 64 none
  | .uint => decodeUintT .uint 64 none
  | .uint8 => decodeUintT .uint8 8 (some 255)
  | .uint16 => decodeUintT .uint16 16 (some 65535)
  | .uint32 => decodeUintT .uint32 32 (some 4294967295)
  | .uint64 => decodeUintT .uint64 64 none
  | .uintptr => decodeUintT .uintptr 64 none

/-- `decodeBool`, `/repo/decode.go:24-40`. -/
def decodeBoolT (b : Bytes) (p : DV) : TRes :=
  if 4 ≤ b.length ∧ b.take 4 = bs! "true" then .ok (.bool true) (b.drop 4)
  else if 5 ≤ b.length ∧ b.take 5 = bs! "false" then .ok (.bool false) (b.drop 5)
  else if hasNullPrefix b then .ok p (b.drop 4)
  else inputErrT .bool b p

/-- `decodeFloat32`, `decodeFloat64`, `/repo/decode.go:220-256`. -/
def decodeFloatT (l : Lib) (bits32 : Bool) (ty : Scalar) (b : Bytes) (p : DV) : TRes :=
  if hasNullPrefix b then .ok p (b.drop 4)
  else match parseNumber b with
    | .fail _ _ => inputErrT ty b p
    | .ok v r => match l.parseFloat bits32 v with
      | none => inputErrT ty b p
      | some f => .ok (.float f) r

/-- `decodeNumber`, `/repo/decode.go:258-275`. -/
def decodeNumberT (b : Bytes) (p : DV) : TRes :=
  if hasNullPrefix b then .ok p (b.drop 4)
  else match parseNumber b with
    | .fail _ _ => inputErrT .number b p
    | .ok v r => .ok (.number v) r

/-- `decodeString`, `/repo/decode.go:277-297`. -/
def decodeStringT (b : Bytes) (p : DV) : TRes :=
  if hasNullPrefix b then .ok p (b.drop 4)
  else match parseStringUnquote b [] with
    | .panic => .crash .panic
    | .fail r e => if b.head? ≠ some (ch! '"') then inputErrT .string b p else .err p r (.other e)
    | .ok s r _ => .ok (.string s) r

/-- `decodeDuration`, `/repo/decode.go:441-478`; the type in the error of line 453 is `int32`. -/
def decodeDurationT (l : Lib) (b : Bytes) (p : DV) : TRes :=
  if hasNullPrefix b then .ok p (b.drop 4)
  else match b with
    | [] => inputErrT .duration b p
    | c :: t =>
      if c ≠ ch! '"' then
        match parseIntT b .duration with
        | .fail _ _ => inputErrT (.int .int32) b p
        | .ok v r => .ok (.int v) r
      else if b.length < 2 then inputErrT .duration b p
      else match indexByte t (ch! '"') with
        | none => inputErrT .duration b p
        | some i => match l.parseDuration (t.take i) with
          | none => inputErrT .duration b p
          | some v => .ok (.int v) (t.drop (i + 1))

/-- `decodeTime`, `/repo/decode.go:480-503`. -/
def decodeTimeT (l : Lib) (b : Bytes) (p : DV) : TRes :=
  if hasNullPrefix b then .ok p (b.drop 4)
  else match b with
    | [] => inputErrT .time b p
    | c :: t =>
      if b.length < 2 ∨ c ≠ ch! '"' then inputErrT .time b p
      else match indexByte t (ch! '"') with
        | none => inputErrT .time b p
        | some i => match l.parseTime (t.take i) with
          | none => inputErrT .time b p
          | some v => .ok (.time v) (t.drop (i + 1))

/-- The decoding function of a type of plain values, `/repo/codec.go:79-213`. -/
def decT (l : Lib) : Scalar → Bytes → DV → TRes
  | .bool => decodeBoolT
  | .int k => decodeKindT k
  | .float32 => decodeFloatT l true .float32
  | .float64 => decodeFloatT l false .float64
  | .number => decodeNumberT
  | .string => decodeStringT
  | .duration => decodeDurationT l
  | .time => decodeTimeT l

end JC

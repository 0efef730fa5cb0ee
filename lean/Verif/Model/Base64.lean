import Verif.Model.Basic
/-!
Model of `base64.StdEncoding` as used by `/repo/encode.go:307-329`
(`EncodedLen`, `Encode`) and `/repo/decode.go:427-434` (`Decode`).  The standard
library is not part of `/repo`; this is RFC 4648 §4 with padding.  As in Go, line
breaks in the input of `Decode` are skipped, and the unused bits of the last
digit are not checked.
-/
namespace JC

/-- The standard alphabet. -/
def b64Char (n : Nat) : UInt8 :=
  if n < 26 then UInt8.ofNat (0x41 + n)
  else if n < 52 then UInt8.ofNat (0x61 + (n - 26))
  else if n < 62 then UInt8.ofNat (0x30 + (n - 52))
  else if n = 62 then ch! '+'
  else ch! '/'

/-- `base64.StdEncoding.Encode`, three bytes at a time. -/
def b64Encode : Bytes → Bytes
  | [] => []
  | [a] => [b64Char (a.toNat / 4), b64Char (a.toNat % 4 * 16), ch! '=', ch! '=']
  | [a, b] => [b64Char (a.toNat / 4), b64Char (a.toNat % 4 * 16 + b.toNat / 16),
      b64Char (b.toNat % 16 * 4), ch! '=']
  | a :: b :: c :: r =>
    b64Char (a.toNat / 4) :: b64Char (a.toNat % 4 * 16 + b.toNat / 16) ::
    b64Char (b.toNat % 16 * 4 + c.toNat / 64) :: b64Char (c.toNat % 64) :: b64Encode r

/-- Value of a digit of the standard alphabet. -/
def b64Val (c : UInt8) : Option Nat :=
  if 0x41 ≤ c ∧ c ≤ 0x5a then some (c.toNat - 0x41)
  else if 0x61 ≤ c ∧ c ≤ 0x7a then some (c.toNat - 0x61 + 26)
  else if 0x30 ≤ c ∧ c ≤ 0x39 then some (c.toNat - 0x30 + 52)
  else if c = ch! '+' then some 62
  else if c = ch! '/' then some 63
  else none

/-- `Decode` on input without line breaks, four digits at a time; padding ends
the input. -/
def b64Quads : Bytes → Option Bytes
  | [] => some []
  | [c1, c2, c3, c4] =>
    match b64Val c1, b64Val c2 with
    | some x1, some x2 =>
      if c3 = ch! '=' ∧ c4 = ch! '=' then some [UInt8.ofNat (x1 * 4 + x2 / 16)]
      else match b64Val c3 with
        | none => none
        | some x3 =>
          if c4 = ch! '=' then some [UInt8.ofNat (x1 * 4 + x2 / 16), UInt8.ofNat (x2 % 16 * 16 + x3 / 4)]
          else match b64Val c4 with
            | none => none
            | some x4 => some [UInt8.ofNat (x1 * 4 + x2 / 16), UInt8.ofNat (x2 % 16 * 16 + x3 / 4), UInt8.ofNat (x3 % 4 * 64 + x4)]
    | _, _ => none
  | c1 :: c2 :: c3 :: c4 :: r =>
    match b64Val c1, b64Val c2, b64Val c3, b64Val c4, b64Quads r with
    | some x1, some x2, some x3, some x4, some out =>
      some (UInt8.ofNat (x1 * 4 + x2 / 16) :: UInt8.ofNat (x2 % 16 * 16 + x3 / 4) :: UInt8.ofNat (x3 % 4 * 64 + x4) :: out)
    | _, _, _, _, _ => none
  | _ => none

/-- `base64.StdEncoding.Decode`; `none` is a `CorruptInputError`. -/
def b64Decode (s : Bytes) : Option Bytes := b64Quads (s.filter fun c => c != 0x0a && c != 0x0d)

end JC

import Verif.Spec.Grammar
/-!
Specification: UTF-8 (RFC 3629) and the meaning of the inside of a JSON string
literal as a sequence of Unicode scalar values, independent of the model.
-/
namespace JC.Spec
open JC

/-- Unicode scalar value. -/
def Scalar (r : Nat) : Prop := r < 0xD800 ∨ (0xE000 ≤ r ∧ r ≤ 0x10FFFF)

/-- RFC 3629 §3: the UTF-8 octets of a scalar value. -/
def utf8 (r : Nat) : Bytes :=
  if r ≤ 0x7F then [UInt8.ofNat r]
  else if r ≤ 0x7FF then [UInt8.ofNat (0xC0 + r / 2 ^ 6), UInt8.ofNat (0x80 + r % 2 ^ 6)]
  else if r ≤ 0xFFFF then
    [UInt8.ofNat (0xE0 + r / 2 ^ 12), UInt8.ofNat (0x80 + r / 2 ^ 6 % 2 ^ 6), UInt8.ofNat (0x80 + r % 2 ^ 6)]
  else
    [UInt8.ofNat (0xF0 + r / 2 ^ 18), UInt8.ofNat (0x80 + r / 2 ^ 12 % 2 ^ 6),
     UInt8.ofNat (0x80 + r / 2 ^ 6 % 2 ^ 6), UInt8.ofNat (0x80 + r % 2 ^ 6)]

/-- UTF-8 of a sequence of scalar values. -/
def utf8s (rs : List Nat) : Bytes := rs.flatMap utf8

/-- Valid UTF-8 text. -/
def ValidUtf8 (s : Bytes) : Prop := ∃ rs, (∀ r ∈ rs, Scalar r) ∧ s = utf8s rs

/-- No scalar value's UTF-8 is a prefix of `s`. -/
def NoRune (s : Bytes) : Prop := ∀ r, Scalar r → ¬ utf8 r <+: s

/-- `Decodes s rs`: decoding bytes as UTF-8, with each byte at which no
character starts replaced by U+FFFD. -/
inductive Decodes : Bytes → List Nat → Prop
  | nil : Decodes [] []
  | rune (r : Nat) (s : Bytes) (rs : List Nat) : Scalar r → Decodes s rs → Decodes (utf8 r ++ s) (r :: rs)
  | bad (c : UInt8) (s : Bytes) (rs : List Nat) : NoRune (c :: s) → Decodes s rs → Decodes (c :: s) (0xFFFD :: rs)

/-- Value of a hexadecimal digit. -/
def hexDig (c : UInt8) : Nat :=
  if c ≤ 0x39 then c.toNat - 0x30 else if c ≤ 0x46 then c.toNat - 0x41 + 10 else c.toNat - 0x61 + 10

/-- The 16-bit unit written by four hexadecimal digits. -/
def hex4 (h1 h2 h3 h4 : UInt8) : Nat :=
  hexDig h1 * 4096 + hexDig h2 * 256 + hexDig h3 * 16 + hexDig h4

/-- The character denoted by a two-character escape. -/
inductive EscChar : UInt8 → Nat → Prop
  | quote : EscChar 0x22 0x22
  | backslash : EscChar 0x5c 0x5c
  | slash : EscChar 0x2f 0x2f
  | b : EscChar 0x62 0x08
  | f : EscChar 0x66 0x0c
  | n : EscChar 0x6e 0x0a
  | r : EscChar 0x72 0x0d
  | t : EscChar 0x74 0x09

def HighSur (u : Nat) : Prop := 0xD800 ≤ u ∧ u ≤ 0xDBFF
def LowSur (u : Nat) : Prop := 0xDC00 ≤ u ∧ u ≤ 0xDFFF

/-- `b` starts with a `\uXXXX` escape of a low surrogate. -/
def StartsLow (b : Bytes) : Prop :=
  ∃ h1 h2 h3 h4 t, b = 0x5c :: 0x75 :: h1 :: h2 :: h3 :: h4 :: t ∧ HexDigit h1 ∧ HexDigit h2 ∧
    HexDigit h3 ∧ HexDigit h4 ∧ LowSur (hex4 h1 h2 h3 h4)

/-- `StrMeans s rs`: the inside `s` of a string literal denotes the scalar
values `rs`. -/
inductive StrMeans : Bytes → List Nat → Prop
  | nil : StrMeans [] []
  /-- an unescaped character -/
  | rune (r : Nat) (s : Bytes) (rs : List Nat) : Scalar r → 0x20 ≤ r → r ≠ 0x22 → r ≠ 0x5c →
      StrMeans s rs → StrMeans (utf8 r ++ s) (r :: rs)
  /-- a byte that is not UTF-8 -/
  | bad (c : UInt8) (s : Bytes) (rs : List Nat) : 0x80 ≤ c → NoRune (c :: s) → StrMeans s rs →
      StrMeans (c :: s) (0xFFFD :: rs)
  | esc (e : UInt8) (r : Nat) (s : Bytes) (rs : List Nat) : EscChar e r → StrMeans s rs →
      StrMeans (0x5c :: e :: s) (r :: rs)
  | uni (h1 h2 h3 h4 : UInt8) (s : Bytes) (rs : List Nat) :
      HexDigit h1 → HexDigit h2 → HexDigit h3 → HexDigit h4 → Scalar (hex4 h1 h2 h3 h4) →
      StrMeans s rs → StrMeans (0x5c :: 0x75 :: h1 :: h2 :: h3 :: h4 :: s) (hex4 h1 h2 h3 h4 :: rs)
  /-- a surrogate pair -/
  | pair (h1 h2 h3 h4 l1 l2 l3 l4 : UInt8) (s : Bytes) (rs : List Nat) :
      HexDigit h1 → HexDigit h2 → HexDigit h3 → HexDigit h4 →
      HexDigit l1 → HexDigit l2 → HexDigit l3 → HexDigit l4 →
      HighSur (hex4 h1 h2 h3 h4) → LowSur (hex4 l1 l2 l3 l4) → StrMeans s rs →
      StrMeans (0x5c :: 0x75 :: h1 :: h2 :: h3 :: h4 :: 0x5c :: 0x75 :: l1 :: l2 :: l3 :: l4 :: s)
        ((0x10000 + (hex4 h1 h2 h3 h4 - 0xD800) * 0x400 + (hex4 l1 l2 l3 l4 - 0xDC00)) :: rs)
  /-- a surrogate that is not part of a pair -/
  | lone (h1 h2 h3 h4 : UInt8) (s : Bytes) (rs : List Nat) :
      HexDigit h1 → HexDigit h2 → HexDigit h3 → HexDigit h4 →
      (LowSur (hex4 h1 h2 h3 h4) ∨ (HighSur (hex4 h1 h2 h3 h4) ∧ ¬ StartsLow s)) →
      StrMeans s rs → StrMeans (0x5c :: 0x75 :: h1 :: h2 :: h3 :: h4 :: s) (0xFFFD :: rs)

end JC.Spec

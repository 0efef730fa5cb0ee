import Verif.Model.Basic
/-!
Model of the parts of Go's `unicode/utf8` and `unicode/utf16` that jsoncolor
calls (library code, not in `/repo`; part of the trusted base).
-/
namespace JC

/-- `utf8.RuneError` / `unicode.ReplacementChar`. -/
abbrev runeError : Nat := 0xFFFD

/-- continuation byte -/
def isCont (c : UInt8) : Bool := 0x80 ≤ c && c ≤ 0xBF

/-- Accepted range of the second byte of a three-byte sequence (`acceptRanges`). -/
def lo3 (b0 : UInt8) : UInt8 := if b0 = 0xE0 then 0xA0 else 0x80
def hi3 (b0 : UInt8) : UInt8 := if b0 = 0xED then 0x9F else 0xBF
/-- Accepted range of the second byte of a four-byte sequence. -/
def lo4 (b0 : UInt8) : UInt8 := if b0 = 0xF0 then 0x90 else 0x80
def hi4 (b0 : UInt8) : UInt8 := if b0 = 0xF4 then 0x8F else 0xBF

/-- `utf8.DecodeRune`, also what `for range` over a string does. Returns the
rune and the number of bytes; `(RuneError, 1)` for invalid bytes. -/
def decodeRune (s : Bytes) : Nat × Nat :=
  match s with
  | [] => (runeError, 0)
  | b0 :: t =>
    if b0 < 0x80 then (b0.toNat, 1)
    else if 0xC2 ≤ b0 ∧ b0 ≤ 0xDF then
      match t with
      | b1 :: _ =>
        if isCont b1 then ((b0.toNat - 0xC0) * 64 + (b1.toNat - 0x80), 2) else (runeError, 1)
      | [] => (runeError, 1)
    else if 0xE0 ≤ b0 ∧ b0 ≤ 0xEF then
      match t with
      | b1 :: b2 :: _ =>
        if lo3 b0 ≤ b1 ∧ b1 ≤ hi3 b0 ∧ isCont b2 then
          ((b0.toNat - 0xE0) * 4096 + (b1.toNat - 0x80) * 64 + (b2.toNat - 0x80), 3)
        else (runeError, 1)
      | _ => (runeError, 1)
    else if 0xF0 ≤ b0 ∧ b0 ≤ 0xF4 then
      match t with
      | b1 :: b2 :: b3 :: _ =>
        if lo4 b0 ≤ b1 ∧ b1 ≤ hi4 b0 ∧ isCont b2 ∧ isCont b3 then
          ((b0.toNat - 0xF0) * 262144 + (b1.toNat - 0x80) * 4096 + (b2.toNat - 0x80) * 64
            + (b3.toNat - 0x80), 4)
        else (runeError, 1)
      | _ => (runeError, 1)
    else (runeError, 1)

/-- `utf8.EncodeRune`: surrogates and out-of-range values become U+FFFD. -/
def encodeRune (r : Nat) : Bytes :=
  if r < 0x80 then [UInt8.ofNat r]
  else if r < 0x800 then [UInt8.ofNat (0xC0 + r / 64), UInt8.ofNat (0x80 + r % 64)]
  else if (0xD800 ≤ r ∧ r ≤ 0xDFFF) ∨ r > 0x10FFFF then [0xEF, 0xBF, 0xBD]
  else if r < 0x10000 then
    [UInt8.ofNat (0xE0 + r / 4096), UInt8.ofNat (0x80 + r / 64 % 64), UInt8.ofNat (0x80 + r % 64)]
  else
    [UInt8.ofNat (0xF0 + r / 262144), UInt8.ofNat (0x80 + r / 4096 % 64),
     UInt8.ofNat (0x80 + r / 64 % 64), UInt8.ofNat (0x80 + r % 64)]

theorem decodeRune_size_pos (c : UInt8) (t : Bytes) : 0 < (decodeRune (c :: t)).2 := by
  unfold decodeRune
  simp only
  repeat' split
  all_goals simp

/-- The runes visited by `for _, r := range string(s)`. -/
def runes (s : Bytes) : List Nat :=
  match h : s with
  | [] => []
  | c :: t => (decodeRune s).1 :: runes (s.drop (decodeRune s).2)
termination_by s.length
decreasing_by
  have := decodeRune_size_pos c t
  subst h
  simp only [List.length_drop, List.length_cons]; omega

/-- `utf16.IsSurrogate`. -/
def isSurrogate (r : Nat) : Bool := 0xD800 ≤ r && r < 0xE000

/-- `utf16.DecodeRune`. -/
def utf16Decode (r1 r2 : Nat) : Nat :=
  if 0xD800 ≤ r1 ∧ r1 < 0xDC00 ∧ 0xDC00 ≤ r2 ∧ r2 < 0xE000 then
    (r1 - 0xD800) * 1024 + (r2 - 0xDC00) + 0x10000
  else runeError

end JC

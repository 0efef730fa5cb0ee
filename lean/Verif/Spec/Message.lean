import Verif.Spec.Grammar
/-!
Specification: where a text that is not JSON goes wrong (property C97).
-/
namespace JC.Spec
open JC

/-- `p` can be continued to a JSON text. -/
def Viable (p : Bytes) : Prop := ∃ w, IsJson (p ++ w)

/-- `b` begins with four hexadecimal digits. -/
def FourHex (b : Bytes) : Prop := ∃ h1 h2 h3 h4 t, b = h1 :: h2 :: h3 :: h4 :: t ∧ HexDigit h1 ∧ HexDigit h2 ∧ HexDigit h3 ∧ HexDigit h4

/-- `b` begins with a number that stops short: `u` is the beginning of a number but not one, and either the text ends
after it or no number begins with it and the byte behind it. -/
def BadNumber (b : Bytes) : Prop :=
  ∃ u z, b = u ++ z ∧ u ≠ [] ∧ (∃ w, JNumber (u ++ w)) ∧ ¬ JNumber u ∧ ∀ c t, z = c :: t → ∀ w, ¬ JNumber (u ++ c :: w)

/-- What is wrong with the token at the beginning of `near`, which stands behind `pre`. -/
inductive BadToken (pre near : Bytes) : Prop
  | str (t : Bytes) : near = 0x22 :: t → (∀ s r, JString s → near ≠ s ++ r) → BadToken pre near
  | hex (p : Bytes) : pre = p ++ [0x5c, 0x75] → ¬ FourHex near → BadToken pre near
  | null (t : Bytes) : near = 0x6e :: t → (∀ r, near ≠ [0x6e, 0x75, 0x6c, 0x6c] ++ r) → BadToken pre near
  | tru (t : Bytes) : near = 0x74 :: t → (∀ r, near ≠ [0x74, 0x72, 0x75, 0x65] ++ r) → BadToken pre near
  | fls (t : Bytes) : near = 0x66 :: t → (∀ r, near ≠ [0x66, 0x61, 0x6c, 0x73, 0x65] ++ r) → BadToken pre near
  | num : BadNumber near → BadToken pre near

/-- `near` is where the text goes wrong: what stands before it can be continued to a JSON text, and either the whole
text only ends too early, or the first byte of `near` may not stand there, or a token begins there and is wrong. -/
def Fault (text near : Bytes) : Prop :=
  ∃ pre, text = pre ++ near ∧ Viable pre ∧
    (Viable text ∨ (∃ c t, near = c :: t ∧ ¬ Viable (pre ++ [c])) ∨ BadToken pre near)

end JC.Spec

import Verif.Model.Basic
/-!
Specification: the JSON grammar of RFC 8259 at the level of bytes, independent
of the model.  As in `encoding/json`, a string may contain any byte from 0x20
up except `"` and `\` (so bytes that are not valid UTF-8 are allowed; they are
replaced when the string is decoded).
-/
namespace JC.Spec

open JC

/-- Whitespace of RFC 8259 §2. -/
inductive IsWs : UInt8 → Prop
  | space : IsWs 0x20
  | tab : IsWs 0x09
  | lf : IsWs 0x0a
  | cr : IsWs 0x0d

/-- `ws = *( %x20 / %x09 / %x0A / %x0D )` -/
def Ws (w : Bytes) : Prop := ∀ c ∈ w, IsWs c

/-- `DIGIT` -/
def Digit (c : UInt8) : Prop := 0x30 ≤ c ∧ c ≤ 0x39

/-- `HEXDIG`, either case. -/
def HexDigit (c : UInt8) : Prop :=
  (0x30 ≤ c ∧ c ≤ 0x39) ∨ (0x41 ≤ c ∧ c ≤ 0x46) ∨ (0x61 ≤ c ∧ c ≤ 0x66)

/-- `1*DIGIT` -/
def Digits1 (b : Bytes) : Prop := b ≠ [] ∧ ∀ c ∈ b, Digit c

/-- `int = zero / ( digit1-9 *DIGIT )` -/
inductive JInt : Bytes → Prop
  | zero : JInt [0x30]
  | pos (d : UInt8) (ds : Bytes) : 0x31 ≤ d → d ≤ 0x39 → (∀ c ∈ ds, Digit c) → JInt (d :: ds)

/-- `[ frac ]`, `frac = decimal-point 1*DIGIT` -/
inductive JFrac : Bytes → Prop
  | none : JFrac []
  | some (ds : Bytes) : Digits1 ds → JFrac (0x2e :: ds)

/-- `[ exp ]`, `exp = e [ minus / plus ] 1*DIGIT` -/
inductive JExp : Bytes → Prop
  | none : JExp []
  | some (e : UInt8) (sgn ds : Bytes) : (e = 0x65 ∨ e = 0x45) →
      (sgn = [] ∨ sgn = [0x2b] ∨ sgn = [0x2d]) → Digits1 ds → JExp (e :: (sgn ++ ds))

/-- `number = [ minus ] int [ frac ] [ exp ]` -/
inductive JNumber : Bytes → Prop
  | mk (sgn i f e : Bytes) : (sgn = [] ∨ sgn = [0x2d]) → JInt i → JFrac f → JExp e →
      JNumber (sgn ++ i ++ f ++ e)

/-- The characters that may follow a backslash, other than `u`. -/
def SimpleEsc (c : UInt8) : Prop :=
  c = 0x22 ∨ c = 0x5c ∨ c = 0x2f ∨ c = 0x62 ∨ c = 0x66 ∨ c = 0x6e ∨ c = 0x72 ∨ c = 0x74

/-- `*char`: the inside of a string literal. -/
inductive JChars : Bytes → Prop
  | nil : JChars []
  | plain (c : UInt8) (b : Bytes) : 0x20 ≤ c → c ≠ 0x22 → c ≠ 0x5c → JChars b → JChars (c :: b)
  | esc (e : UInt8) (b : Bytes) : SimpleEsc e → JChars b → JChars (0x5c :: e :: b)
  | uni (h1 h2 h3 h4 : UInt8) (b : Bytes) :
      HexDigit h1 → HexDigit h2 → HexDigit h3 → HexDigit h4 → JChars b →
      JChars (0x5c :: 0x75 :: h1 :: h2 :: h3 :: h4 :: b)

/-- A string literal with its quotes. -/
inductive JString : Bytes → Prop
  | mk (s : Bytes) : JChars s → JString (0x22 :: (s ++ [0x22]))

end JC.Spec

namespace JC

/-- A JSON document as a tree. Scalars keep their source text (strings and
keys with their quotes), members keep their order and duplicates. -/
inductive Json where
  | null
  | tru
  | fls
  | num (raw : Bytes)
  | str (raw : Bytes)
  | arr (xs : List Json)
  | obj (ms : List (Bytes × Json))

end JC

namespace JC.Spec
open JC

/-- Nonterminals of the grammar, indexed by the tree they describe. -/
inductive Sym where
  | value (j : Json)
  /-- the inside of a non-empty array, surrounding whitespace included -/
  | elems (xs : List Json)
  /-- the inside of a non-empty object, surrounding whitespace included -/
  | members (ms : List (Bytes × Json))

/-- `Derives (.value j) b`: the bytes `b` are a JSON value (without surrounding
whitespace) whose tree is `j`. -/
inductive Derives : Sym → Bytes → Prop
  | null : Derives (.value .null) [0x6e, 0x75, 0x6c, 0x6c]
  | tru : Derives (.value .tru) [0x74, 0x72, 0x75, 0x65]
  | fls : Derives (.value .fls) [0x66, 0x61, 0x6c, 0x73, 0x65]
  | num (s : Bytes) : JNumber s → Derives (.value (.num s)) s
  | str (s : Bytes) : JString s → Derives (.value (.str s)) s
  | arrNil (w : Bytes) : Ws w → Derives (.value (.arr [])) (0x5b :: (w ++ [0x5d]))
  | arr (xs : List Json) (b : Bytes) : Derives (.elems xs) b →
      Derives (.value (.arr xs)) (0x5b :: (b ++ [0x5d]))
  | objNil (w : Bytes) : Ws w → Derives (.value (.obj [])) (0x7b :: (w ++ [0x7d]))
  | obj (ms : List (Bytes × Json)) (b : Bytes) : Derives (.members ms) b →
      Derives (.value (.obj ms)) (0x7b :: (b ++ [0x7d]))
  | elemOne (w1 w2 : Bytes) (j : Json) (b : Bytes) : Ws w1 → Ws w2 →
      Derives (.value j) b → Derives (.elems [j]) (w1 ++ b ++ w2)
  | elemCons (w1 w2 : Bytes) (j : Json) (b : Bytes) (xs : List Json) (bs : Bytes) :
      Ws w1 → Ws w2 → Derives (.value j) b → Derives (.elems xs) bs →
      Derives (.elems (j :: xs)) (w1 ++ b ++ w2 ++ 0x2c :: bs)
  | memOne (w1 w2 w3 w4 k : Bytes) (j : Json) (b : Bytes) :
      Ws w1 → Ws w2 → Ws w3 → Ws w4 → JString k →
      Derives (.value j) b →
      Derives (.members [(k, j)]) (w1 ++ k ++ w2 ++ 0x3a :: (w3 ++ b ++ w4))
  | memCons (w1 w2 w3 w4 k : Bytes) (j : Json) (b : Bytes) (ms : List (Bytes × Json)) (bs : Bytes) :
      Ws w1 → Ws w2 → Ws w3 → Ws w4 → JString k →
      Derives (.value j) b → Derives (.members ms) bs →
      Derives (.members ((k, j) :: ms)) (w1 ++ k ++ w2 ++ 0x3a :: (w3 ++ b ++ w4 ++ 0x2c :: bs))

/-- `JSON-text = ws value ws` -/
def JText (j : Json) (b : Bytes) : Prop :=
  ∃ w1 v w2, b = w1 ++ v ++ w2 ∧ Ws w1 ∧ Ws w2 ∧ Derives (.value j) v

/-- `b` is a JSON text. -/
def IsJson (b : Bytes) : Prop := ∃ j, JText j b

end JC.Spec

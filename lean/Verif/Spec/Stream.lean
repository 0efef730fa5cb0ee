import Verif.Spec.Grammar
/-!
Specification of streams of JSON values.
-/
namespace JC.Spec
open JC

/-- `Stream vs tl b`: the text `b` consists of the JSON values with trees and texts
`vs`, separated by whitespace, with optional whitespace around, and ends in `tl`. -/
inductive Stream : List (Json × Bytes) → Bytes → Bytes → Prop
  | nil (w tl : Bytes) : Ws w → Stream [] tl (w ++ tl)
  | cons (w v : Bytes) (j : Json) (vs : List (Json × Bytes)) (tl b : Bytes) : Ws w → Derives (.value j) v →
      (b = [] ∨ ∃ c t, b = c :: t ∧ IsWs c) → Stream vs tl b → Stream ((j, v) :: vs) tl (w ++ v ++ b)

/-- The document is a number. -/
def IsNum : Json → Prop
  | .num _ => True
  | _ => False

/-- In the text a `\"` is followed, in the same string, by a `\u` escape. -/
def QuoteThenU (b : Bytes) : Prop := ∃ x y z, b = x ++ 0x5c :: 0x22 :: (y ++ 0x5c :: 0x75 :: z) ∧ JChars y

/-- `tl` is the beginning of a longer JSON value with tree `j`, and not a value itself. -/
def Truncated (j : Json) (tl : Bytes) : Prop :=
  tl ≠ [] ∧ (∃ y, Derives (.value j) (tl ++ y)) ∧ ¬ ∃ j', Derives (.value j') tl

/-- `b` consists of the texts `vs` with whitespace before, between and behind. -/
inductive Passed : List Bytes → Bytes → Prop
  | nil (w : Bytes) : Ws w → Passed [] w
  | cons (w v : Bytes) (vs : List Bytes) (b : Bytes) : Ws w → Passed vs b → Passed (v :: vs) (w ++ v ++ b)

/-- `o` is the position in `b` behind the texts `vs`: at the end of the last one, or
at the beginning of what comes next. -/
def Position (vs : List Bytes) (b : Bytes) (o : Nat) : Prop :=
  ∃ p w rest, b = p ++ w ++ rest ∧ Passed vs p ∧ (∀ v, vs.getLast? = some v → ∃ q, p = q ++ v) ∧ Ws w ∧
    (o = p.length ∨ o = p.length + w.length ∧ ∀ c, rest.head? = some c → ¬ IsWs c)

end JC.Spec

import Verif.Spec.Grammar
/-!
Specification of nesting.
-/
namespace JC.Spec
open JC

mutual
/-- The number of levels of a document: one for a scalar or an empty array or object, one more than its deepest
element for any other. -/
def levels : Json → Nat
  | .arr xs => levelsL xs + 1
  | .obj ms => levelsM ms + 1
  | _ => 1
def levelsL : List Json → Nat
  | [] => 0
  | x :: xs => max (levels x) (levelsL xs)
def levelsM : List (Bytes × Json) → Nat
  | [] => 0
  | (_, x) :: ms => max (levels x) (levelsM ms)
end

/-- The number of opening brackets and braces in a text. -/
def opens (b : Bytes) : Nat := b.countP fun c => c == 0x5b || c == 0x7b

/-- `[[[...]]]` with `k` levels. -/
def tower : Nat → Bytes
  | 0 => []
  | k + 1 => 0x5b :: (tower k ++ [0x5d])

end JC.Spec

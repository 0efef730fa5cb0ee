import Verif.Spec.Render
import Verif.Spec.Clean
/-!
Specification: documents without structs that have no members, and how deeply
a document is nested.
-/
namespace JC.Spec
open JC

mutual
/-- No struct in the document is without members. -/
def NoBare : Doc → Prop
  | .leaf _ _ => True
  | .arr xs => NoBareL xs
  | .obj ms => NoBareM ms
  | .bare _ => False
def NoBareL : List Doc → Prop
  | [] => True
  | x :: xs => NoBare x ∧ NoBareL xs
def NoBareM : List (Role × Bytes × Doc) → Prop
  | [] => True
  | (_, _, x) :: ms => NoBare x ∧ NoBareM ms
end

mutual
/-- Nesting depth of a tree: scalars have depth 0. -/
def deep : Json → Nat
  | .arr xs => deepL xs + 1
  | .obj ms => deepM ms + 1
  | _ => 0
def deepL : List Json → Nat
  | [] => 0
  | j :: xs => max (deep j) (deepL xs)
def deepM : List (Bytes × Json) → Nat
  | [] => 0
  | (_, j) :: ms => max (deep j) (deepM ms)
end

end JC.Spec

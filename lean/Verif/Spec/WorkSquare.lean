import Verif.Spec.WorkTyped
/-!
Specification for C88: types with bounds on pointers in a row and `string` options, however deep, and numbers of steps.
-/
namespace JC.Spec
open JC

mutual
/-- The type has at most `m` pointers in a row, and at most `q` `string` options inside one another. -/
def Bounded (m : Nat) : Nat → Ty → Prop
  | q, .slice t => Bounded m q t
  | q, .array _ t => Bounded m q t
  | q, .map _ t => Bounded m q t
  | q, .ptr t => ptrs t + 1 ≤ m ∧ Bounded m q t
  | q, .struct fs => BoundedF m q fs
  | q, .quoted t => ∃ q', q = q' + 1 ∧ Bounded m q' t
  | q, .quotedInt t => ∃ q', q = q' + 1 ∧ Bounded m q' t
  | _, _ => True
def BoundedF (m : Nat) : Nat → List (Bytes × Ty) → Prop
  | _, [] => True
  | q, (_, t) :: fs => Bounded m q t ∧ BoundedF m q fs
end

/-- Steps for each pair of bytes, if decoding into pointers in interfaces takes `D`: the text of a string can be up to four times as long as
the string. -/
def quad (m D q : Nat) : Nat := (400 + 5 * m + D) * 20 ^ q

/-- Steps for each pair of bytes, with pointers in interfaces up to `n` deep. -/
def perSquare (m q : Nat) : Nat → Nat
  | 0 => quad m 0 q
  | n + 1 => quad m (perSquare m q n + 10) q

end JC.Spec

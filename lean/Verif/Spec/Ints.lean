import Verif.Spec.Grammar
/-!
Specification: integer literals, their mathematical value, ranges of the Go
integer types.
-/
namespace JC.Spec
open JC

/-- Positional value of a list of decimal digits. -/
def natVal (ds : Bytes) : Nat := ds.foldl (fun a c => 10 * a + (c.toNat - 48)) 0

/-- `IntLit b z`: `b` is a JSON number without fraction and exponent, and `z`
is the integer it denotes. -/
inductive IntLit : Bytes → Int → Prop
  | nonneg (i : Bytes) : JInt i → IntLit i (natVal i)
  | neg (i : Bytes) : JInt i → IntLit (0x2d :: i) (-(natVal i))

/-- Smallest and largest value of a signed type of `n` bits. -/
def FitsSigned (n : Nat) (z : Int) : Prop := -(2 ^ (n - 1)) ≤ z ∧ z < 2 ^ (n - 1)
def FitsUnsigned (n : Nat) (z : Int) : Prop := 0 ≤ z ∧ z < 2 ^ n

/-- What may follow an integer literal: nothing that would make it longer or a
fraction. -/
def IntStop (r : Bytes) : Prop :=
  ∀ c t, r = c :: t → ¬ Digit c ∧ c ≠ 0x2e ∧ c ≠ 0x65 ∧ c ≠ 0x45

end JC.Spec

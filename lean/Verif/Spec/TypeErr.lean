import Verif.Spec.Ints
import Verif.Props.Ints
/-!
Specification for C98: the integer that a number begins with.
-/
namespace JC.Spec
open JC Props

/-- `Whole v l z`: the number `v` begins with the integer literal `l`, of value `z`, and after it comes nothing, or a
fraction or an exponent. -/
def Whole (v l : Bytes) (z : Int) : Prop :=
  ∃ f e, v = l ++ f ++ e ∧ IntLit l z ∧ JFrac f ∧ JExp e

/-- The integers that the widest type of the same signedness holds. -/
def WideFits : IntKind → Int → Prop
  | .int | .int8 | .int16 | .int32 | .int64 => FitsSigned 64
  | _ => FitsUnsigned 64

end JC.Spec

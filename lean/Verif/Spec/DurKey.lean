import Verif.Spec.MapDec
import Verif.Model.DurKey
/-!
Specification of the keys of a map with keys of type `time.Duration`.
-/
namespace JC.Spec
open JC Props

/-- A member written `raw` has the key `z`, a number of nanoseconds: the string is an integer of the range of
`int64` in decimal or `null`, which stands for 0, or a text in quotation marks that `time.ParseDuration`
takes. White space may follow. -/
def HasDurKey (l : Lib) (raw : Bytes) (z : Int) : Prop :=
  ∃ t s, KeyMeans raw (t ++ s) ∧ Ws s ∧ ((IntLit t z ∧ FitsSigned 64 z) ∨ (t = bs! "null" ∧ z = 0) ∨
    ∃ u, t = 0x22 :: (u ++ [0x22]) ∧ 0x22 ∉ u ∧ l.parseDuration u = some z)

end JC.Spec

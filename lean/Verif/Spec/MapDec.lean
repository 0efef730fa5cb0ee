import Verif.Spec.Decode
import Verif.Props.Ints
/-!
Specification: which key of a map a member of an object has, and what decoding an object into a map
leaves in the map.
-/
namespace JC.Spec
open JC Props

/-- A member written `raw` has this key in a map with keys of type `kt`: the string itself; the integer of
the type's range that the string is in decimal, perhaps followed by white space, where `null` stands for 0; or
the key that `UnmarshalText` makes of the string without an error. -/
def HasKey : KTy → Bytes → MK → Prop
  | .str, raw, k => ∃ s, KeyMeans raw s ∧ k = .str s
  | .int i, raw, k => ∃ l s z, KeyMeans raw (l ++ s) ∧ Ws s ∧ ((KindLit i l z ∧ KindFits i z) ∨ (l = bs! "null" ∧ z = 0)) ∧ k = .int z
  | .text tk, raw, k => ∃ s, KeyMeans raw s ∧ tk.answer s = none ∧ k = .user (tk.key s)

/-- `Unmarshal` of the value into a new variable of type `t` stores `x`. -/
def Gives (c : DCfg) (n : Nat) (t : Ty) (j : Json) (x : DV) : Prop :=
  ∀ u, JText j u → unmarshal c n t u (zero t) = .done x none

/-- No member has this key. -/
def Absent (kt : KTy) (ms : List (Bytes × Json)) (k : MK) : Prop := ∀ m ∈ ms, ¬ HasKey kt m.1 k

/-- The entries of a map before decoding. -/
def entriesOf : DV → List (MK × DV)
  | .map es => es
  | _ => []

end JC.Spec

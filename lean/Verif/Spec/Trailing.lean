import Verif.Spec.Decode

/-! Types for the property that nothing may follow the value given to `Unmarshal`. -/

namespace JC

/-- A field with the `string` option of an integer type is decoded as a field of a
struct only; its decoder is not reached through pointers and arrays alone. -/
def Ty.bare : Ty → Prop
  | .quotedInt _ => False
  | .quoted t | .ptr t | .array _ t => t.bare
  | _ => True

end JC

namespace JC.Spec

/-- `b` consists of a value and something other than white space behind it: `v` is
the longest beginning of `b` (behind leading white space) that is a value. -/
def Trailing (b : Bytes) : Prop := ∃ w v r j, b = w ++ v ++ r ∧ Ws w ∧ Derives (.value j) v ∧
  (∀ j' u u', r = u ++ u' → u ≠ [] → ¬ Derives (.value j') (v ++ u)) ∧ ¬ Ws r

/-- The value is delimited: a number is not followed by a digit, a dot or an `e`. -/
def Delimited : Json → Bytes → Prop
  | .num _, r => ∀ c t, r = c :: t → ¬ Digit c ∧ c ≠ 0x2e ∧ c ≠ 0x65 ∧ c ≠ 0x45
  | _, _ => True

end JC.Spec

namespace JC

mutual
/-- Types whose decoders do not call a valid value a syntax error: no fixed-size
arrays, no integer map keys, no map keys that their type may reject, no `string` option other than for integers, and no
user-defined type that reports one itself. -/
def Ty.mild : Ty → Prop
  | .quoted _ | .array _ _ | .map (.int _) _ => False
  | .slice t | .map .str t | .ptr t | .quotedInt t => t.mild
  | .map (.text tk) t => (∀ s, tk.answer s = none) ∧ t.mild
  | .struct fs => mildF fs
  | .jsonU f | .textU f => ∀ s, f s ≠ some .syntax
  | _ => True
def mildF : List (Bytes × Ty) → Prop
  | [] => True
  | (_, t) :: fs => t.mild ∧ mildF fs
end

/-- Types that may be given to `Unmarshal` itself: no integers, whose decoder leaves
the whole input behind when it overflows. -/
def Ty.mildTop : Ty → Prop
  | .int _ | .quotedInt _ => False
  | .ptr t => t.mildTop
  | t => t.mild

end JC

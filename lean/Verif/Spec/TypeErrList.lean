import Verif.Spec.TypeErr
import Verif.Model.TypeErrList
/-!
Specification for C98, lists: which value of a document an error is about.
-/
namespace JC.Spec
open JC Props

/-- `Within t j t' j'`: decoding `j` into a `t` decodes `j'` into a `t'`, `j'` being `j` itself, an element or member of it, an
element of an element, and so on; behind a pointer type the same value is decoded. -/
inductive Within : LTy → Json → LTy → Json → Prop
  | self (t : LTy) (j : Json) : Within t j t j
  | elem (t : LTy) (xs : List Json) (j : Json) (t' : LTy) (j' : Json) : j ∈ xs → Within t j t' j' → Within (.list t) (.arr xs) t' j'
  | member (t : LTy) (ms : List (Bytes × Json)) (k : Bytes) (j : Json) (t' : LTy) (j' : Json) : (k, j) ∈ ms → Within t j t' j' →
      Within (.map t) (.obj ms) t' j'
  | behind (t : LTy) (j : Json) (t' : LTy) (j' : Json) : Within t j t' j' → Within (.ptr t) j t' j'

/-- An error about the bytes `near`, naming the type `ty`, which is never a pointer type. -/
def SaysOf (e : LErr) : LTy → Bytes → Prop
  | .plain s, near => e = .of (.over s near) ∨ e = .of (.quote s near)
  | .list t, near => e = .kind (.list t) near
  | .map t, near => e = .kind (.map t) near
  | .ptr _, _ => False

/-- An error for the value `j`, written `v` and followed by `r`, and the type `t`: it is about a value `u` in `v`, or about
`u` and all that follows it, and it names the type that `u` should have, or else `int32` for `time.Duration`. -/
def SaysIn (t : LTy) (j : Json) (v r : Bytes) (e : LErr) : Prop :=
  ∃ t' j' pre u post ty near, Within t j t' j' ∧ v = pre ++ (u ++ post) ∧ Derives (.value j') u ∧ SaysOf e ty near ∧
    (near = u ∨ near = u ++ (post ++ r)) ∧ (ty = t' ∨ t' = .plain .duration ∧ ty = .plain (.int .int32))

end JC.Spec

import Verif.Spec.Decode
/-!
Specification: which field of a struct a member of an object goes to, and what
decoding an object into a struct does.
-/
namespace JC.Spec
open JC

/-- The same byte, or the same ASCII letter in the other case. -/
def SameLetter (a b : UInt8) : Prop :=
  a = b ∨ (0x41 ≤ a ∧ a ≤ 0x5a ∧ b = a + 0x20) ∨ (0x41 ≤ b ∧ b ≤ 0x5a ∧ a = b + 0x20)

/-- Equal up to the case of ASCII letters. -/
inductive EqFold : Bytes → Bytes → Prop
  | nil : EqFold [] []
  | cons (a b : UInt8) (s t : Bytes) : SameLetter a b → EqFold s t → EqFold (a :: s) (b :: t)

/-- `Selects fold names k i`: a member with key `k` goes to the field with index `i`.
Either it is the field with exactly that name (the last one, should there be
several), or there is none, and it is the first with that name up to case, if
`fold`. -/
def Selects (fold : Bool) (names : List Bytes) (k : Bytes) (i : Nat) : Prop :=
  (names[i]? = some k ∧ ∀ j, i < j → names[j]? ≠ some k) ∨
  (k ∉ names ∧ fold = true ∧ (∃ nm, names[i]? = some nm ∧ EqFold nm k) ∧
    ∀ j nm, j < i → names[j]? = some nm → ¬ EqFold nm k)

/-- `Members c n fs ms ps qs`: the members `ms` of an object, taken one after the
other, change the contents of the fields `fs` of a struct from `ps` to `qs`. A
member for a field has the effect that `Unmarshal` of its value on that field
would have. -/
inductive Members (c : DCfg) (n : Nat) (fs : List (Bytes × Ty)) : List (Bytes × Json) → List DV → List DV → Prop
  | nil (ps : List DV) : Members c n fs [] ps ps
  | skip (raw k : Bytes) (j : Json) (ms : List (Bytes × Json)) (ps qs : List DV) : KeyMeans raw k →
      (∀ i, ¬ Selects (!c.noFold) (fs.map (·.1)) k i) → c.disallowUnknown = false →
      Members c n fs ms ps qs → Members c n fs ((raw, j) :: ms) ps qs
  | field (raw k : Bytes) (i : Nat) (nm : Bytes) (t : Ty) (p q : DV) (j : Json) (b : Bytes) (ms : List (Bytes × Json)) (ps qs : List DV) :
      KeyMeans raw k → Selects (!c.noFold) (fs.map (·.1)) k i → fs[i]? = some (nm, t) → ps[i]? = some p →
      JText j b → unmarshal c n t b p = .done q none →
      Members c n fs ms (ps.set i q) qs → Members c n fs ((raw, j) :: ms) ps qs

end JC.Spec

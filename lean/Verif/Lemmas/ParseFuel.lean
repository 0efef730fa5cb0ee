import Verif.Lemmas.ParseValue
/-! The fuel of the entry points suffices, and more fuel changes nothing. -/
namespace JC
open Spec

theorem numExp_err {b s r : Bytes} {e : Err} (h : numExp b s = .fail r e) : e = .syntax := by
  unfold numExp okAt at h
  split at h
  · split at h
    · simp only at h
      split at h
      · injection h with _ h; exact h.symm
      · split at h
        · contradiction
        · injection h with _ h; exact h.symm
    · contradiction
  · contradiction

theorem numFrac_err {b s r : Bytes} {e : Err} (h : numFrac b s = .fail r e) : e = .syntax := by
  unfold numFrac at h
  split at h
  · split at h
    · split at h
      · injection h with _ h; exact h.symm
      · split at h
        · exact numExp_err h
        · injection h with _ h; exact h.symm
    · exact numExp_err h
  · exact numExp_err h

theorem parseNumber_err {b r : Bytes} {e : Err} (h : parseNumber b = .fail r e) : e = .syntax := by
  unfold parseNumber at h
  split at h
  · injection h with _ h; exact h.symm
  · simp only at h
    split at h
    · injection h with _ h; exact h.symm
    · split at h
      · split at h
        · split at h
          · simp [okAt] at h
          · split at h
            · simp [okAt] at h
            · split at h
              · injection h with _ h; exact h.symm
              · exact numFrac_err h
        · exact numFrac_err h
      · injection h with _ h; exact h.symm

theorem parseNull_err {b r : Bytes} {e : Err} (h : parseNull b = .fail r e) : e = .syntax := by
  unfold parseNull at h
  split at h
  · contradiction
  · split at h <;> (injection h with _ h; exact h.symm)
theorem parseTrue_err {b r : Bytes} {e : Err} (h : parseTrue b = .fail r e) : e = .syntax := by
  unfold parseTrue at h
  split at h
  · contradiction
  · split at h <;> (injection h with _ h; exact h.symm)
theorem parseFalse_err {b r : Bytes} {e : Err} (h : parseFalse b = .fail r e) : e = .syntax := by
  unfold parseFalse at h
  split at h
  · contradiction
  · split at h <;> (injection h with _ h; exact h.symm)

theorem scanString_err {b t r : Bytes} {i : Nat} {e : Err} (h : scanString b t i = .fail r e) : e = .syntax := by
  fun_induction scanString b t i with
  | case1 => injection h with _ h; exact h.symm
  | case2 => injection h with _ h; exact h.symm
  | case3 _ _ _ _ ih => exact ih h
  | case4 => injection h with _ h; exact h.symm
  | case5 _ _ _ _ _ _ _ _ _ ih => exact ih h
  | case6 => injection h with _ h; exact h.symm
  | case7 => injection h with _ h; exact h.symm
  | case8 => contradiction
  | case9 => injection h with _ h; exact h.symm
  | case10 _ _ _ _ _ _ ih => exact ih h

theorem parseStringFast_err {b r : Bytes} {e : Err} (h : parseStringFast b = .fail r e) : e = .syntax := by
  unfold parseStringFast at h
  split at h
  · injection h with _ h; exact h.symm
  · injection h with _ h; exact h.symm
  · split at h
    · injection h with _ h; exact h.symm
    · split at h
      · injection h with _ h; exact h.symm
      · split at h
        · contradiction
        · exact scanString_err h

theorem parseString_err {b r : Bytes} {e : Err} (h : parseString b = .fail r e) : e = .syntax := by
  unfold parseString at h
  split at h
  · contradiction
  · injection h with h1 h2; subst h2; rename_i hh; exact parseStringFast_err hh

/-- With enough fuel all errors are syntax errors (in particular, never `outOfFuel`). -/
structure FuelAt (n : Nat) : Prop where
  value : ∀ b r e, 4 * b.length + 1 ≤ n → parseValueF n b = .fail r e → e = .syntax
  object : ∀ b r e, b ≠ [] → 4 * b.length ≤ n → parseObjectF n b = .fail r e → e = .syntax
  array : ∀ b r e, b ≠ [] → 4 * b.length ≤ n → parseArrayF n b = .fail r e → e = .syntax
  objLoop : ∀ a f b r e, 4 * b.length + 3 ≤ n → objLoop n a f b = .fail r e → e = .syntax
  objItem : ∀ a b r e, 4 * b.length + 2 ≤ n → objItem n a b = .fail r e → e = .syntax
  arrLoop : ∀ a f b r e, 4 * b.length + 3 ≤ n → arrLoop n a f b = .fail r e → e = .syntax
  arrItem : ∀ a b r e, 4 * b.length + 2 ≤ n → arrItem n a b = .fail r e → e = .syntax

theorem fuelAt (n : Nat) : FuelAt n := by
  induction n with
  | zero =>
    constructor
    · intro b r e hn; omega
    · intro b r e hb hn; cases b with
      | nil => exact absurd rfl hb
      | cons => simp at hn
    · intro b r e hb hn; cases b with
      | nil => exact absurd rfl hb
      | cons => simp at hn
    all_goals intros; omega
  | succ n ih =>
    have inj : ∀ {r r' : Bytes} {e : Err}, PR.fail r .syntax = PR.fail r' e → e = .syntax := by
      intro r r' e h; injection h with _ h; exact h.symm
    constructor
    · intro b r e hn h
      unfold parseValueF at h
      split at h
      · exact inj h
      · split at h
        · exact ih.object _ _ _ (by simp) (by omega) h
        · split at h
          · exact ih.array _ _ _ (by simp) (by omega) h
          · split at h
            · exact parseString_err h
            · split at h
              · exact parseNull_err h
              · split at h
                · exact parseTrue_err h
                · split at h
                  · exact parseFalse_err h
                  · split at h
                    · exact parseNumber_err h
                    · exact inj h
    · intro b r e hb hn h
      unfold parseObjectF at h
      split at h
      · exact inj h
      · split at h
        · exact inj h
        · split at h
          · exact inj h
          · exact ih.objLoop _ _ _ _ _ (by simp at hn; omega) h
    · intro b r e hb hn h
      unfold parseArrayF at h
      split at h
      · exact inj h
      · split at h
        · exact inj h
        · split at h
          · exact inj h
          · exact ih.arrLoop _ _ _ _ _ (by simp at hn; omega) h
    · intro a f b r e hn h
      have hl := skipSpaces_length_le b
      unfold objLoop at h
      generalize skipSpaces b = b' at h hl
      simp only at h
      split at h
      · exact inj h
      · rename_i c t
        simp at hl
        split at h
        · simp [closeAt] at h
        · split at h
          · exact ih.objItem _ _ _ _ (by simp; omega) h
          · split at h
            · exact inj h
            · have hl2 := skipSpaces_length_le t
              generalize skipSpaces t = t' at h hl2
              split at h
              · exact inj h
              · split at h
                · exact inj h
                · exact ih.objItem _ _ _ _ (by omega) h
    · intro a b r e hn h
      unfold objItem at h
      split at h
      · rename_i hh; injection h with _ h; subst h; exact parseString_err hh
      · rename_i k b1 hk
        obtain ⟨e1, hks⟩ := parseString_sound hk
        obtain ⟨t0, hk0⟩ := JString.head hks
        have hl := skipSpaces_length_le b1
        generalize skipSpaces b1 = b1' at h hl
        simp only at h
        split at h
        · exact inj h
        · rename_i c t
          split at h
          · exact inj h
          · have hl2 := skipSpaces_length_le t
            generalize skipSpaces t = t' at h hl2
            have hbl : b.length = k.length + b1.length := by rw [e1]; simp
            have hkl : k.length = t0.length + 1 := by rw [hk0]; simp
            simp at hl
            split at h
            · rename_i hh; injection h with _ h; subst h
              exact ih.value _ _ _ (by omega) hh
            · rename_i v' b2 hv
              obtain ⟨e2, j, hj⟩ := (soundAt n).value _ _ _ hv
              have : t'.length = v'.length + b2.length := by rw [e2]; simp
              exact ih.objLoop _ _ _ _ _ (by omega) h
    · intro a f b r e hn h
      have hl := skipSpaces_length_le b
      unfold arrLoop at h
      generalize skipSpaces b = b' at h hl
      simp only at h
      split at h
      · exact inj h
      · rename_i c t
        simp at hl
        split at h
        · simp [closeAt] at h
        · split at h
          · exact ih.arrItem _ _ _ _ (by simp; omega) h
          · split at h
            · exact inj h
            · have hl2 := skipSpaces_length_le t
              generalize skipSpaces t = t' at h hl2
              split at h
              · exact inj h
              · split at h
                · exact inj h
                · exact ih.arrItem _ _ _ _ (by omega) h
    · intro a b r e hn h
      unfold arrItem at h
      split at h
      · rename_i hh; injection h with _ h; subst h
        exact ih.value _ _ _ (by omega) hh
      · rename_i v' b2 hv
        obtain ⟨e2, j, hj⟩ := (soundAt n).value _ _ _ hv
        obtain ⟨c, t, hv', _⟩ := derives_value_head hj
        have : b.length = v'.length + b2.length := by rw [e2]; simp
        have : v'.length = t.length + 1 := by rw [hv']; simp
        exact ih.arrLoop _ _ _ _ _ (by omega) h

theorem parseValue_err {b r : Bytes} {e : Err} (h : parseValue b = .fail r e) : e = .syntax :=
  (fuelAt _).value b r e (by simp [fuelFor]) h

theorem parseObject_err {b r : Bytes} {e : Err} (h : parseObject b = .fail r e) : e = .syntax := by
  cases b with
  | nil => simp [parseObject, fuelFor, parseObjectF] at h; exact h.2.symm
  | cons c t => exact (fuelAt _).object _ r e (by simp) (by simp [fuelFor]) h

theorem parseArray_err {b r : Bytes} {e : Err} (h : parseArray b = .fail r e) : e = .syntax := by
  cases b with
  | nil => simp [parseArray, fuelFor, parseArrayF] at h; exact h.2.symm
  | cons c t => exact (fuelAt _).array _ r e (by simp) (by simp [fuelFor]) h

end JC

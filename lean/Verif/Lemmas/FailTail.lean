import Verif.Lemmas.ParseValue
import Verif.Lemmas.DecSuff
/-!
What the parser returns with an error is an end of its input.
-/
namespace JC
open Spec

theorem skipDigits_suf (s : Bytes) : skipDigits s <:+ s := by
  obtain ⟨ds, h, _⟩ := exists_skipDigits s
  exact ⟨ds, h.symm⟩

theorem numExp_tail {b s r : Bytes} {e : Err} (h : numExp b s = .fail r e) : r = [] := by
  unfold numExp okAt at h
  simp only [] at h
  repeat' split at h
  all_goals first | contradiction | (injection h with h _; exact h.symm)

theorem numFrac_tail {b s r : Bytes} {e : Err} (h : numFrac b s = .fail r e) : r <:+ s := by
  unfold numFrac at h
  split at h
  · split at h
    · split at h
      · injection h with h _; rw [← h]; exact List.nil_suffix
      · split at h
        · rw [numExp_tail h]; exact List.nil_suffix
        · injection h with h _; rw [← h]; exact List.suffix_cons _ _
    · rw [numExp_tail h]; exact List.nil_suffix
  · rw [numExp_tail h]; exact List.nil_suffix

theorem parseNumber_tail {b r : Bytes} {e : Err} (h : parseNumber b = .fail r e) : r <:+ b := by
  unfold parseNumber at h
  cases b with
  | nil => simp only [] at h; injection h with h _; rw [← h]; exact List.nil_suffix
  | cons c0 t0 =>
    simp only [] at h
    have hs : (if c0 = 45 then t0 else c0 :: t0) <:+ c0 :: t0 := by
      split
      · exact List.suffix_cons _ _
      · exact List.suffix_refl _
    revert hs h
    generalize (if c0 = 45 then t0 else c0 :: t0) = s
    intro h hs
    cases s with
    | nil => simp only [] at h; injection h with h _; rw [← h]; exact List.nil_suffix
    | cons d u =>
      simp only [] at h
      have hu : u <:+ c0 :: t0 := (List.suffix_cons _ _).trans hs
      split at h
      · split at h
        · split at h
          · simp [okAt] at h
          · split at h
            · simp [okAt] at h
            · split at h
              · injection h with h _; rw [← h]; exact hu
              · exact ((numFrac_tail h).trans (skipDigits_suf _)).trans hu
        · exact ((numFrac_tail h).trans (skipDigits_suf _)).trans hs
      · injection h with h _; rw [← h]; exact hs

theorem word_tail {b r : Bytes} {e : Err} {k : Nat} {P : Prop} [Decidable P] (h : (if P then PR.ok (b.take k) (b.drop k)
    else if b.length < k then .fail [] .syntax else .fail b .syntax) = .fail r e) : r <:+ b := by
  split at h
  · contradiction
  · split at h
    · injection h with h _; rw [← h]; exact List.nil_suffix
    · injection h with h _; rw [← h]; exact List.suffix_refl _

theorem scanString_tail (b : Bytes) : ∀ t i r e, scanString b t i = .fail r e → r = [] ∨ r = b := by
  intro t i
  fun_induction scanString b t i <;> intro r e h <;> simp_all

theorem parseString_tail {b r : Bytes} {e : Err} (h : parseString b = .fail r e) : r <:+ b := by
  unfold parseString at h
  split at h
  · contradiction
  · rename_i hf
    injection h with h _
    subst h
    unfold parseStringFast at hf
    split at hf
    · injection hf with h _; rw [← h]; exact List.nil_suffix
    · injection hf with h _; rw [← h]; exact List.nil_suffix
    · split at hf
      · injection hf with h _; rw [← h]; exact List.suffix_refl _
      · split at hf
        · injection hf with h _; rw [← h]; exact List.nil_suffix
        · split at hf
          · contradiction
          · rcases scanString_tail _ _ _ _ _ hf with h | h
            · rw [h]; exact List.nil_suffix
            · rw [h]; exact List.suffix_refl _

structure TailAt (n : Nat) : Prop where
  value : ∀ b r e, parseValueF n b = .fail r e → r <:+ b
  object : ∀ b r e, parseObjectF n b = .fail r e → r <:+ b
  array : ∀ b r e, parseArrayF n b = .fail r e → r <:+ b
  objLoop : ∀ a f b r e, objLoop n a f b = .fail r e → r <:+ b
  objItem : ∀ a b r e, objItem n a b = .fail r e → r <:+ b
  arrLoop : ∀ a f b r e, arrLoop n a f b = .fail r e → r <:+ b
  arrItem : ∀ a b r e, arrItem n a b = .fail r e → r <:+ b

theorem tailAt (n : Nat) : TailAt n := by
  induction n with
  | zero =>
    constructor
    all_goals
      intros
      rename_i h
      simp only [parseValueF, parseObjectF, parseArrayF, JC.objLoop, JC.objItem, JC.arrLoop, JC.arrItem] at h
      injection h with h _
      rw [← h]; exact List.suffix_refl _
  | succ n ih =>
    have hfail : ∀ {b r t : Bytes} {e1 e2 : Err}, PR.fail b e1 = .fail r e2 → b <:+ t → r <:+ t := by
      intro b r t e1 e2 h hs; injection h with h _; rw [← h]; exact hs
    constructor
    · intro b r e h
      unfold parseValueF at h
      split at h
      · exact hfail h (List.suffix_refl _)
      · split at h
        · exact ih.object _ _ _ h
        · split at h
          · exact ih.array _ _ _ h
          · split at h
            · exact parseString_tail h
            · split at h
              · exact word_tail h
              · split at h
                · exact word_tail h
                · split at h
                  · exact word_tail h
                  · split at h
                    · exact parseNumber_tail h
                    · exact hfail h (List.suffix_refl _)
    · intro b r e h
      unfold parseObjectF at h
      split at h
      · exact hfail h List.nil_suffix
      · split at h
        · exact hfail h List.nil_suffix
        · split at h
          · exact hfail h (List.suffix_refl _)
          · exact (ih.objLoop _ _ _ _ _ h).trans (List.suffix_cons _ _)
    · intro b r e h
      unfold parseArrayF at h
      split at h
      · exact hfail h List.nil_suffix
      · split at h
        · exact hfail h List.nil_suffix
        · split at h
          · exact hfail h (List.suffix_refl _)
          · exact (ih.arrLoop _ _ _ _ _ h).trans (List.suffix_cons _ _)
    · intro a f b r e h
      unfold JC.objLoop at h
      simp only [] at h
      split at h
      · exact hfail h (skip_suf b)
      · rename_i c t hs
        split at h
        · simp [closeAt] at h
        · split at h
          · exact (ih.objItem _ _ _ _ h).trans (skip_suf b)
          · split at h
            · exact hfail h (skip_suf b)
            · have ht : skipSpaces t <:+ b := (skip_suf t).trans (skip_cons_suf hs)
              split at h
              · exact hfail h ht
              · split at h
                · exact hfail h ht
                · exact (ih.objItem _ _ _ _ h).trans ht
    · intro a b r e h
      unfold JC.objItem at h
      split at h
      · rename_i hs; exact hfail h (parseString_tail hs)
      · rename_i v b1 hs
        have h1 : b1 <:+ b := by rw [(parseString_sound hs).1]; exact List.suffix_append _ _
        simp only [] at h
        split at h
        · exact hfail h ((skip_suf _).trans h1)
        · rename_i c t hc
          split at h
          · exact hfail h ((skip_suf _).trans h1)
          · have ht : skipSpaces t <:+ b := ((skip_suf t).trans (skip_cons_suf hc)).trans h1
            split at h
            · rename_i hv
              exact hfail h ((ih.value _ _ _ hv).trans ht)
            · rename_i b2 hv
              have h2 : b2 <:+ skipSpaces t := by
                rw [((soundAt n).value _ _ _ hv).1]; exact List.suffix_append _ _
              exact (ih.objLoop _ _ _ _ _ h).trans (h2.trans ht)
    · intro a f b r e h
      unfold JC.arrLoop at h
      simp only [] at h
      split at h
      · exact hfail h (skip_suf b)
      · rename_i c t hs
        split at h
        · simp [closeAt] at h
        · split at h
          · exact (ih.arrItem _ _ _ _ h).trans (skip_suf b)
          · split at h
            · exact hfail h (skip_suf b)
            · have ht : skipSpaces t <:+ b := (skip_suf t).trans (skip_cons_suf hs)
              split at h
              · exact hfail h ht
              · split at h
                · exact hfail h ht
                · exact (ih.arrItem _ _ _ _ h).trans ht
    · intro a b r e h
      unfold JC.arrItem at h
      split at h
      · rename_i hv
        exact hfail h (ih.value _ _ _ hv)
      · rename_i b2 hv
        have h2 : b2 <:+ b := by
          rw [((soundAt n).value _ _ _ hv).1]; exact List.suffix_append _ _
        exact (ih.arrLoop _ _ _ _ _ h).trans h2

theorem parseValue_tail {b r : Bytes} {e : Err} (h : parseValue b = .fail r e) : r <:+ b := (tailAt _).value _ _ _ h

end JC

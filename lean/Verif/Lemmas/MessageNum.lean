import Verif.Spec.Message
import Verif.Lemmas.Cut
/-! Numbers that stop short, and numbers followed by something else. -/
namespace JC
open Spec

theorem isDigit_E {c : UInt8} (h : c = 0x65 ∨ c = 0x45) : isDigit c = false := by rcases h with rfl | rfl <;> decide

/-- The integer part of a number. -/
theorem int_split (sgn : Bytes) (hs : sgn = [] ∨ sgn = [0x2d]) (d : UInt8) (u : Bytes) (hd : isDigit d = true) :
    ∃ i x, d :: u = i ++ x ∧ JInt i ∧ ∀ x' : Bytes, x'.head? = x.head? → parseNumber (sgn ++ i ++ x') = numFrac (sgn ++ i ++ x') x' := by
  have hdig := (isDigit_iff d).1 hd
  have hne : d ≠ 0x2d := (digit_facts hdig).2.1
  have start : ∀ y : Bytes, parseNumber (sgn ++ d :: y) =
      (if d = 0x30 then
          match y with
          | [] => okAt (sgn ++ d :: y) y
          | e :: _ =>
            if e ≠ 0x2e ∧ e ≠ 0x65 ∧ e ≠ 0x45 then okAt (sgn ++ d :: y) y
            else if isDigit e then .fail y .syntax
            else numFrac (sgn ++ d :: y) (skipDigits y)
        else numFrac (sgn ++ d :: y) (skipDigits (d :: y))) := by
    intro y
    rcases hs with rfl | rfl
    · rw [List.nil_append, parseNumber.eq_def]
      simp only []
      rw [if_neg hne]
      simp only []
      rw [if_pos hd]
      cases y <;> rfl
    · rw [List.cons_append, List.nil_append, parseNumber.eq_def]
      simp only [if_true]
      rw [if_pos hd]
      cases y <;> rfl
  by_cases h0 : d = 0x30
  · subst h0
    refine ⟨[0x30], u, rfl, .zero, ?_⟩
    intro x' _
    rw [List.append_assoc, List.cons_append, List.nil_append, start, if_pos rfl]
    cases x' with
    | nil => rfl
    | cons e y =>
      simp only []
      split
      · rename_i he
        rw [numFrac.eq_def]; simp only []
        rw [if_neg he.1, numExp.eq_def]; simp only []
        rw [if_neg (by simp [he.2.1, he.2.2])]
      · rename_i he
        have : isDigit e = false := by
          by_cases e1 : e = 0x2e
          · subst e1; decide
          · exact isDigit_E (by
              by_cases e2 : e = 0x65
              · exact .inl e2
              · by_cases e3 : e = 0x45
                · exact .inr e3
                · exact absurd ⟨e1, e2, e3⟩ he)
        rw [if_neg (by simp [this]), skipDigits, if_neg (by simp [this])]
  · obtain ⟨ds, h1, h2, h3⟩ := exists_skipDigits u
    refine ⟨d :: ds, skipDigits u, by rw [List.cons_append, ← h1], .pos d ds (digit_ne_zero hd h0).1 (digit_ne_zero hd h0).2 h2, ?_⟩
    intro x' hx
    rw [List.append_assoc, List.cons_append, start, if_neg h0, skipDigits, if_pos hd, skipDigits_append ds x' h2]
    intro c hc
    exact h3 c (by rw [← hx]; exact hc)

theorem okAt_len {b s v r : Bytes} (h : okAt b s = .ok v r) : r.length ≤ s.length := by
  unfold okAt at h
  injection h with _ h
  subst h
  simp; omega

theorem skipDigits_len (b : Bytes) : (skipDigits b).length ≤ b.length := by
  induction b with
  | nil => simp [skipDigits]
  | cons c t ih => simp only [skipDigits]; split <;> simp <;> omega

theorem numExp_len {b s v r : Bytes} (h : numExp b s = .ok v r) : r.length ≤ s.length := by
  unfold numExp at h
  split at h
  · rename_i c t
    split at h
    · simp only [] at h
      cases t with
      | nil => cases h
      | cons d u =>
        simp only [] at h
        by_cases hd : d = 43 ∨ d = 45
        · rw [if_pos hd] at h
          cases u with
          | nil => cases h
          | cons e w =>
            simp only [] at h
            split at h
            · have h1 := okAt_len h; have h2 := skipDigits_len w; simp; omega
            · cases h
        · rw [if_neg hd] at h
          simp only [] at h
          split at h
          · have h1 := okAt_len h; have h2 := skipDigits_len u; simp; omega
          · cases h
    · exact okAt_len h
  · exact okAt_len h

theorem skipDigits_local (k : Bytes) (d : UInt8) (y x : Bytes) (h : (d :: y).length ≤ (skipDigits (k ++ d :: y)).length) :
    ∃ k0 q, k = k0 ++ q ∧ skipDigits (k ++ d :: y) = q ++ d :: y ∧ skipDigits (k ++ d :: x) = q ++ d :: x := by
  induction k with
  | nil =>
    refine ⟨[], [], rfl, ?_⟩
    simp only [List.nil_append, skipDigits] at *
    split at h
    · have := skipDigits_len y; simp at h; omega
    · rename_i hd; rw [if_neg hd, if_neg hd]; exact ⟨rfl, rfl⟩
  | cons c k ih =>
    rw [List.cons_append, skipDigits] at h
    rw [List.cons_append, List.cons_append, skipDigits, skipDigits]
    split at h
    · rename_i hc
      obtain ⟨k0, q, h1, h2, h3⟩ := ih h
      exact ⟨c :: k0, q, by rw [h1]; rfl, by rw [if_pos hc, h2], by rw [if_pos hc, h3]⟩
    · rename_i hc
      exact ⟨[], c :: k, rfl, by rw [if_neg hc]; rfl, by rw [if_neg hc]; rfl⟩

theorem digs_swap {Q k : Bytes} {d : UInt8} {y v : Bytes} (x : Bytes)
    (h : okAt (Q ++ (k ++ d :: y)) (skipDigits (k ++ d :: y)) = .ok v (d :: y)) :
    okAt (Q ++ (k ++ d :: x)) (skipDigits (k ++ d :: x)) = .ok (Q ++ k) (d :: x) := by
  obtain ⟨k0, q, rfl, h2, h3⟩ := skipDigits_local k d y x (okAt_len h)
  rw [h2, show Q ++ (k0 ++ q ++ d :: y) = (Q ++ k0) ++ (q ++ d :: y) by simp, okAt_append] at h
  injection h with _ h
  have : q = [] := by
    cases q with
    | nil => rfl
    | cons a q => have := congrArg List.length h; simp at this; omega
  subst this
  rw [h3, show Q ++ (k0 ++ [] ++ d :: x) = (Q ++ k0) ++ ([] ++ d :: x) by simp, okAt_append]
  simp

theorem numExp_swap {P k : Bytes} {d : UInt8} {y v : Bytes} (x : Bytes)
    (h : numExp (P ++ (k ++ d :: y)) (k ++ d :: y) = .ok v (d :: y)) :
    numExp (P ++ (k ++ d :: x)) (k ++ d :: x) = .ok (P ++ k) (d :: x) := by
  cases k with
  | nil =>
    simp only [List.nil_append, List.append_nil] at *
    by_cases he : d = 0x65 ∨ d = 0x45
    · exfalso
      rw [numExp.eq_def] at h
      simp only [] at h
      rw [if_pos he] at h
      cases y with
      | nil => cases h
      | cons e w =>
        simp only [] at h
        by_cases hd : e = 43 ∨ e = 45
        · rw [if_pos hd] at h
          cases w with
          | nil => cases h
          | cons f w =>
            simp only [] at h
            split at h
            · have h1 := okAt_len h; have h2 := skipDigits_len w; simp at h1; omega
            · cases h
        · rw [if_neg hd] at h
          simp only [] at h
          split at h
          · have h1 := okAt_len h; have h2 := skipDigits_len w; simp at h1; omega
          · cases h
    · rw [numExp.eq_def]; simp only []; rw [if_neg he, okAt_append]
  | cons c k =>
    rw [List.cons_append] at h ⊢
    by_cases he : c = 0x65 ∨ c = 0x45
    · rw [numExp.eq_def] at h ⊢
      simp only [] at h ⊢
      rw [if_pos he] at h ⊢
      cases k with
      | nil =>
        exfalso
        simp only [List.nil_append] at h
        by_cases hd : d = 43 ∨ d = 45
        · rw [if_pos hd] at h
          cases y with
          | nil => cases h
          | cons f w =>
            simp only [] at h
            split at h
            · have h1 := okAt_len h; have h2 := skipDigits_len w; simp at h1; omega
            · cases h
        · rw [if_neg hd] at h
          simp only [] at h
          split at h
          · have h1 := okAt_len h; have h2 := skipDigits_len y; simp at h1; omega
          · cases h
      | cons s k =>
        simp only [List.cons_append] at h ⊢
        by_cases hd : s = 43 ∨ s = 45
        · rw [if_pos hd] at h ⊢
          cases k with
          | nil =>
            exfalso
            simp only [List.nil_append] at h
            split at h
            · have h1 := okAt_len h; have h2 := skipDigits_len y; simp at h1; omega
            · cases h
          | cons g k =>
            simp only [List.cons_append] at h ⊢
            split at h
            · rename_i hg
              rw [if_pos hg]
              have := digs_swap (Q := P ++ [c, s, g]) x (by simpa using h)
              simpa using this
            · cases h
        · rw [if_neg hd] at h ⊢
          simp only [] at h ⊢
          split at h
          · rename_i hg
            rw [if_pos hg]
            have := digs_swap (Q := P ++ [c, s]) x (by simpa using h)
            simpa using this
          · cases h
    · exfalso
      rw [numExp.eq_def] at h
      simp only [] at h
      rw [if_neg he, okAt_append] at h
      injection h with _ h
      have := congrArg List.length h; simp at this; omega

theorem numFrac_swap {P k : Bytes} {d : UInt8} {y v : Bytes} (x : Bytes)
    (h : numFrac (P ++ (k ++ d :: y)) (k ++ d :: y) = .ok v (d :: y)) :
    numFrac (P ++ (k ++ d :: x)) (k ++ d :: x) = .ok (P ++ k) (d :: x) := by
  cases k with
  | nil =>
    simp only [List.nil_append, List.append_nil] at *
    rw [numFrac.eq_def] at h ⊢
    simp only [] at h ⊢
    split at h
    · exfalso
      cases y with
      | nil => cases h
      | cons e w =>
        simp only [] at h
        split at h
        · have h1 := numExp_len h; have h2 := skipDigits_len w; simp at h1; omega
        · cases h
    · rename_i hd
      rw [if_neg hd]
      have := numExp_swap (P := P) (k := []) x h
      simpa using this
  | cons c k =>
    rw [List.cons_append] at h ⊢
    rw [numFrac.eq_def] at h ⊢
    simp only [] at h ⊢
    split at h
    · rename_i hc
      rw [if_pos hc]
      cases k with
      | nil =>
        exfalso
        simp only [List.nil_append] at h
        split at h
        · have h1 := numExp_len h; have h2 := skipDigits_len y; simp at h1; omega
        · cases h
      | cons g k =>
        simp only [List.cons_append] at h ⊢
        split at h
        · rename_i hg
          rw [if_pos hg]
          obtain ⟨k0, q, rfl, h2, h3⟩ := skipDigits_local k d y x (numExp_len h)
          rw [h2] at h
          rw [h3]
          have := numExp_swap (P := P ++ (c :: g :: k0)) (k := q) x (by simpa using h)
          simpa using this
        · cases h
    · rename_i hc
      rw [if_neg hc]
      exact numExp_swap (P := P) (k := c :: k) x h

/-- What a number is followed by, past the next byte, does not matter. -/
theorem parseNumber_swap {v : Bytes} {d : UInt8} {y : Bytes} (x : Bytes) (h : parseNumber (v ++ d :: y) = .ok v (d :: y)) :
    parseNumber (v ++ d :: x) = .ok v (d :: x) := by
  obtain ⟨_, hv⟩ := parseNumber_sound h
  have key : ∀ sgn : Bytes, (sgn = [] ∨ sgn = [0x2d]) → ∀ g k, v = sgn ++ g :: k → isDigit g = true → parseNumber (v ++ d :: x) = .ok v (d :: x) := by
    intro sgn hs g k hvk hg
    obtain ⟨i, X, h1, h2, h3⟩ := int_split sgn hs g (k ++ d :: y) hg
    have e : v ++ d :: y = sgn ++ i ++ X := by rw [hvk, List.append_assoc, List.cons_append, h1, List.append_assoc]
    rw [e, h3 X rfl] at h
    obtain ⟨f, ex, h4, h5, _⟩ := numFrac_sound (sgn ++ i) X v _ h
    rw [List.append_assoc] at h4
    rw [← List.append_assoc] at h4
    subst h4
    have := numFrac_swap (P := sgn ++ i) (k := f ++ ex) x h
    have hh : ((f ++ ex) ++ d :: x).head? = ((f ++ ex) ++ d :: y).head? := by cases f ++ ex <;> rfl
    rw [← h3 _ hh] at this
    rw [h5]
    simpa using this
  obtain ⟨sgn, i, f, ex, hs, hi, hf, he⟩ := hv
  cases hi with
  | zero => exact key sgn hs 0x30 (f ++ ex) (by simp) (by decide)
  | pos g ds h1 h2 h3 =>
    refine key sgn hs g (ds ++ f ++ ex) (by simp) ((isDigit_iff g).2 ⟨?_, h2⟩)
    rw [UInt8.le_iff_toNat_le] at h1 ⊢
    have e1 : (0x30 : UInt8).toNat = 48 := rfl
    have e2 : (0x31 : UInt8).toNat = 49 := rfl
    omega

/-! ### numbers that stop short -/

theorem notnum {u r : Bytes} {e : Err} (h : parseNumber u = .fail r e) : ¬ JNumber u := by
  intro hn
  have := parseNumber_complete hn NumStop.nil
  rw [List.append_nil, h] at this
  cases this

/-- Where an exponent stops short. -/
theorem numExp_bad {b X r : Bytes} {e : Err} (h : numExp b X = .fail r e) :
    ∃ u z, X = u ++ z ∧ (∃ c t, u = c :: t ∧ (c = 0x65 ∨ c = 0x45)) ∧ JExp (u ++ [0x30]) ∧ (∀ b', ∃ r, numExp b' u = .fail r .syntax) ∧
      ∀ c t, z = c :: t → ∀ b' w, ∃ r, numExp b' (u ++ c :: w) = .fail r .syntax := by
  have hz : Digits1 [0x30] := ⟨by simp, by intro c hc; simp at hc; subst hc; exact ⟨by decide, by decide⟩⟩
  cases X with
  | nil => simp [numExp, okAt] at h
  | cons c t =>
    rw [numExp.eq_def] at h
    simp only [] at h
    split at h
    · rename_i hc
      cases t with
      | nil =>
        refine ⟨[c], [], rfl, ⟨c, [], rfl, hc⟩, .some c [] [0x30] hc (.inl rfl) hz, ?_, by intro _ _ h; cases h⟩
        intro b'; exact ⟨[], by rw [numExp.eq_def]; simp only []; rw [if_pos hc]⟩
      | cons d t =>
        simp only [] at h
        by_cases hd : d = 43 ∨ d = 45
        · have hs : [d] = ([] : Bytes) ∨ [d] = [0x2b] ∨ [d] = [0x2d] := by rcases hd with rfl | rfl <;> simp
          refine ⟨[c, d], t, rfl, ⟨c, [d], rfl, hc⟩, .some c [d] [0x30] hc hs hz, ?_, ?_⟩
          · intro b'; exact ⟨[], by rw [numExp.eq_def]; simp only []; rw [if_pos hc, if_pos hd]⟩
          · rintro f t' rfl b' w
            rw [if_pos hd] at h
            simp only [] at h
            split at h
            · cases h
            · rename_i hf
              refine ⟨[], ?_⟩
              simp only [List.cons_append, List.nil_append]
              rw [numExp.eq_def]; simp only []; rw [if_pos hc, if_pos hd]; simp only []; rw [if_neg hf]
        · rw [if_neg hd] at h
          simp only [] at h
          split at h
          · cases h
          · rename_i hf
            refine ⟨[c], d :: t, rfl, ⟨c, [], rfl, hc⟩, .some c [] [0x30] hc (.inl rfl) hz, ?_, ?_⟩
            · intro b'; exact ⟨[], by rw [numExp.eq_def]; simp only []; rw [if_pos hc]⟩
            · intro d' t' heq b' w
              injection heq with h1 h2; subst h1
              refine ⟨[], ?_⟩
              simp only [List.cons_append, List.nil_append]
              rw [numExp.eq_def]; simp only []; rw [if_pos hc, if_neg hd]; simp only []; rw [if_neg hf]
    · cases h

theorem badExp {P X b r : Bytes} {e : Err} (h : numExp b X = .fail r e)
    (hP : ∀ x' : Bytes, x'.head? = X.head? → parseNumber (P ++ x') = numExp (P ++ x') x') (hG : ∀ e, JExp e → JNumber (P ++ e)) :
    BadNumber (P ++ X) := by
  obtain ⟨u, z, rfl, ⟨c, t, rfl, _⟩, h3, h4, h5⟩ := numExp_bad h
  refine ⟨P ++ c :: t, z, by simp, by simp, ⟨[0x30], by rw [List.append_assoc]; exact hG _ h3⟩, ?_, ?_⟩
  · obtain ⟨r', hr⟩ := h4 (P ++ c :: t)
    exact notnum (by rw [hP (c :: t) rfl]; exact hr)
  · intro d t' hz w
    obtain ⟨r', hr⟩ := h5 d t' hz (P ++ (c :: t ++ d :: w)) w
    rw [List.append_assoc]
    exact notnum (by rw [hP (c :: t ++ d :: w) rfl]; exact hr)

theorem badFrac {P X b r : Bytes} {e : Err} (h : numFrac b X = .fail r e)
    (hP : ∀ x' : Bytes, x'.head? = X.head? → parseNumber (P ++ x') = numFrac (P ++ x') x')
    (hG : ∀ f e, JFrac f → JExp e → JNumber (P ++ f ++ e)) : BadNumber (P ++ X) := by
  cases X with
  | nil => simp [numFrac, numExp, okAt] at h
  | cons c t =>
    by_cases hc : c = 0x2e
    · subst hc
      have hz : Digits1 [0x30] := ⟨by simp, by intro c hc; simp at hc; subst hc; exact ⟨by decide, by decide⟩⟩
      have hv : ∃ w, JNumber (P ++ [0x2e] ++ w) := ⟨[0x30], by
        have := hG [0x2e, 0x30] [] (.some [0x30] hz) .none
        simpa using this⟩
      have hn : ¬ JNumber (P ++ [0x2e]) := notnum (r := []) (e := .syntax) (by rw [hP [0x2e] rfl]; rfl)
      rw [numFrac.eq_def] at h
      simp only [if_true] at h
      cases t with
      | nil => exact ⟨P ++ [0x2e], [], by simp, by simp, hv, hn, by intro _ _ h; cases h⟩
      | cons d t =>
        simp only [] at h
        split at h
        · rename_i hd
          obtain ⟨ds, h1, h2, h3⟩ := exists_skipDigits t
          have hdd : Digits1 (d :: ds) := ⟨by simp, by
            intro c hc
            rcases List.mem_cons.1 hc with rfl | hc
            · exact (isDigit_iff _).1 hd
            · exact h2 c hc⟩
          have e1 : P ++ 0x2e :: d :: t = (P ++ 0x2e :: d :: ds) ++ skipDigits t := by
            conv => lhs; rw [h1]
            simp
          rw [e1]
          refine badExp h ?_ ?_
          · intro x' hx
            rw [List.append_assoc, hP (0x2e :: d :: ds ++ x') rfl, List.cons_append, numFrac.eq_def]
            simp only [if_true, List.cons_append]
            rw [if_pos hd, skipDigits_append ds x' h2]
            intro c hc
            exact h3 c (by rw [← hx]; exact hc)
          · intro e he
            exact hG _ _ (.some _ hdd) he
        · rename_i hd
          refine ⟨P ++ [0x2e], d :: t, by simp, by simp, hv, hn, ?_⟩
          intro d' t' heq w
          injection heq with h1 h2; subst h1
          rw [List.append_assoc]
          refine notnum (r := d :: w) (e := .syntax) ?_
          rw [hP ([0x2e] ++ d :: w) rfl]
          simp only [List.cons_append, List.nil_append]
          rw [numFrac.eq_def]; simp only [if_true]; rw [if_neg hd]
    · rw [numFrac.eq_def] at h
      simp only [] at h
      rw [if_neg hc] at h
      refine badExp h ?_ ?_
      · intro x' hx
        rw [hP x' hx]
        cases x' with
        | nil => simp at hx
        | cons c' t' =>
          simp at hx; subst hx
          rw [numFrac.eq_def]; simp only []; rw [if_neg hc]
      · intro e he
        have := hG [] e .none he
        simpa using this

theorem badNumber {c : UInt8} {t r : Bytes} {e : Err} (hc : c = 0x2d ∨ isDigit c = true) (h : parseNumber (c :: t) = .fail r e) :
    BadNumber (c :: t) := by
  have key : ∀ sgn : Bytes, (sgn = [] ∨ sgn = [0x2d]) → ∀ g k, c :: t = sgn ++ g :: k → isDigit g = true → BadNumber (c :: t) := by
    intro sgn hs g k hvk hg
    obtain ⟨i, X, h1, h2, h3⟩ := int_split sgn hs g k hg
    have e : c :: t = sgn ++ i ++ X := by rw [hvk, h1, List.append_assoc]
    rw [e, h3 X rfl] at h
    rw [e]
    exact badFrac h h3 (fun f e hf he => .mk sgn i f e hs h2 hf he)
  by_cases hm : c = 0x2d
  · subst hm
    have hv : ∃ w, JNumber ([0x2d] ++ w) := ⟨[0x30], by
      have := JNumber.mk [0x2d] [0x30] [] [] (.inr rfl) .zero .none .none
      simpa using this⟩
    have hn : ¬ JNumber [0x2d] := notnum (r := []) (e := .syntax) rfl
    cases t with
    | nil => exact ⟨[0x2d], [], rfl, by simp, hv, hn, by intro _ _ h; cases h⟩
    | cons d t =>
      by_cases hd : isDigit d = true
      · exact key [0x2d] (.inr rfl) d t rfl hd
      · refine ⟨[0x2d], d :: t, rfl, by simp, hv, hn, ?_⟩
        intro d' t' heq w
        injection heq with h1 h2; subst h1
        refine notnum (r := d :: w) (e := .syntax) ?_
        simp only [List.cons_append, List.nil_append]
        rw [parseNumber.eq_def]; simp only [if_true]; rw [if_neg hd]
  · exact key [] (.inl rfl) c t rfl (hc.resolve_left hm)

end JC

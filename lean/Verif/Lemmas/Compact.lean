import Verif.Lemmas.Strings
/-! Helper lemmas: `appendCompactEscapeHTML` on a string literal. -/
namespace JC
open Spec

/-- HTML escaping of a string body -/
def htmlBody (s : Bytes) : Bytes :=
  match s with
  | [] => []
  | c :: t =>
    if c = 0x5c then
      match t with
      | e :: t' => c :: e :: htmlBody t'
      | [] => [c]
    else if c = ch! '<' ∨ c = ch! '>' ∨ c = ch! '&' then u00 c ++ htmlBody t
    else
      match sepAt (c :: t) with
      | some c2 => bs! "\\u202" ++ [hexDigit (c2 &&& 0xF)] ++ htmlBody (t.drop 2)
      | none => c :: htmlBody t
termination_by s.length
decreasing_by all_goals (simp only [List.length_cons, List.length_drop]; omega)

theorem and_fe (c : UInt8) : c &&& 0xFE = 0xA8 ↔ c = 0xA8 ∨ c = 0xA9 := by
  have : ∀ n : Fin 256, (UInt8.ofNat n &&& 0xFE = 0xA8 ↔ UInt8.ofNat n = 0xA8 ∨ UInt8.ofNat n = 0xA9) := by
    decide +kernel
  simpa using this ⟨c.toNat, c.toNat_lt⟩

theorem sepAt_some {s : Bytes} {c2 : UInt8} (h : sepAt s = some c2) :
    (c2 = 0xA8 ∨ c2 = 0xA9) ∧ ∃ t, s = 0xE2 :: 0x80 :: c2 :: t := by
  unfold sepAt at h
  split at h
  · split at h
    · rename_i h3
      obtain ⟨rfl, rfl, hc⟩ := h3
      injection h with h; subst h
      exact ⟨(and_fe _).1 hc, _, rfl⟩
    · cases h
  · cases h

theorem sepAt_of {c2 : UInt8} (h : c2 = 0xA8 ∨ c2 = 0xA9) (t : Bytes) : sepAt (0xE2 :: 0x80 :: c2 :: t) = some c2 := by
  simp only [sepAt]
  rw [if_pos ⟨trivial, trivial, (and_fe c2).2 h⟩]

theorem sepAt_none {s : Bytes} (h2 : ¬ [0xE2, 0x80, 0xA8] <+: s) (h3 : ¬ [0xE2, 0x80, 0xA9] <+: s) :
    sepAt s = none := by
  cases h : sepAt s with
  | none => rfl
  | some c2 =>
    obtain ⟨hc, t, rfl⟩ := sepAt_some h
    rcases hc with rfl | rfl
    · exact absurd ⟨t, rfl⟩ h2
    · exact absurd ⟨t, rfl⟩ h3

theorem htmlBody_nil : htmlBody [] = [] := by rw [htmlBody]

theorem htmlBody_esc (e : UInt8) (t : Bytes) : htmlBody (0x5c :: e :: t) = 0x5c :: e :: htmlBody t := by
  rw [htmlBody]; rfl

theorem htmlBody_html {c : UInt8} (h : c = ch! '<' ∨ c = ch! '>' ∨ c = ch! '&') (t : Bytes) :
    htmlBody (c :: t) = u00 c ++ htmlBody t := by
  rw [htmlBody.eq_def]; simp only []; rw [if_neg (by rintro rfl; revert h; decide), if_pos h]

theorem htmlBody_sep {c2 : UInt8} (h : c2 = 0xA8 ∨ c2 = 0xA9) (t : Bytes) :
    htmlBody (0xE2 :: 0x80 :: c2 :: t) = bs! "\\u202" ++ [hexDigit (c2 &&& 0xF)] ++ htmlBody t := by
  rw [htmlBody.eq_def]; simp only []
  rw [if_neg (by decide), if_neg (by decide), sepAt_of h]
  rfl

theorem htmlBody_other {c : UInt8} {t : Bytes} (h0 : c ≠ 0x5c) (h1 : ¬ (c = ch! '<' ∨ c = ch! '>' ∨ c = ch! '&'))
    (h2 : ¬ [0xE2, 0x80, 0xA8] <+: c :: t) (h3 : ¬ [0xE2, 0x80, 0xA9] <+: c :: t) :
    htmlBody (c :: t) = c :: htmlBody t := by
  rw [htmlBody.eq_def]; simp only []; rw [if_neg h0, if_neg h1, sepAt_none h2 h3]

theorem compactLoop_pend : ∀ (src : Bytes) (i e : Bool) (k : Nat) (p q : Bytes),
    compactLoop i e k (p ++ q) src = p ++ compactLoop i e k q src := by
  intro src
  induction src with
  | nil => intros; simp [compactLoop]
  | cons c t ih =>
    intro i e k p q
    have hp : (if k = 0 then p ++ q ++ [c] else p ++ q) = p ++ (if k = 0 then q ++ [c] else q) := by
      split <;> simp
    simp only [compactLoop, hp]
    generalize (if k = 0 then q ++ [c] else q) = q'
    repeat' split
    all_goals first | rw [ih] | simp

theorem compactLoop_str_step {c : UInt8} {t : Bytes} (h0 : c ≠ 0x5c) (hq : c ≠ 0x22)
    (h1 : ¬ (c = ch! '<' ∨ c = ch! '>' ∨ c = ch! '&')) (hs : sepAt (c :: t) = none) (k : Nat) (p : Bytes) :
    compactLoop true false k p (c :: t) = compactLoop true false (k - 1) (if k = 0 then p ++ [c] else p) t := by
  rw [compactLoop]
  simp only [Bool.not_true, Bool.false_eq_true, if_false]
  rw [if_neg h0, if_neg hq, if_neg h1, hs]

theorem compactLoop_str_esc (e : UInt8) (t p : Bytes) :
    compactLoop true false 0 p (0x5c :: e :: t) = compactLoop true false 0 (p ++ [0x5c, e]) t := by
  rw [compactLoop]
  simp only [Bool.not_true, Bool.false_eq_true, if_false, if_true, Nat.zero_sub]
  rw [compactLoop]
  simp only [Bool.not_true, Bool.false_eq_true, if_false, if_true, Nat.zero_sub, List.append_assoc,
    List.cons_append, List.nil_append]

theorem sepAt_ne {c : UInt8} {t : Bytes} (h : c ≠ 0xE2) : sepAt (c :: t) = none := by
  cases hh : sepAt (c :: t) with
  | none => rfl
  | some c2 =>
    obtain ⟨_, t', he⟩ := sepAt_some hh
    injection he with he _; exact absurd he h

/-- `compactLoop` inside a string -/
theorem compactLoop_body {s : Bytes} (h : JChars s) (pend rest : Bytes) :
    compactLoop true false 0 pend (s ++ 0x22 :: rest) =
      pend ++ htmlBody s ++ compactLoop false false 0 [0x22] rest := by
  induction hn : s.length using Nat.strongRecOn generalizing s pend with
  | ind n ih =>
    cases h with
    | nil =>
      rw [htmlBody_nil]
      simp only [List.nil_append]
      rw [compactLoop]
      simp only [Bool.not_true, Bool.false_eq_true, if_false, if_true, Nat.zero_sub]
      rw [if_neg (by decide), compactLoop_pend]; simp
    | esc e b h1 h2 =>
      rw [htmlBody_esc, List.cons_append, List.cons_append, compactLoop_str_esc,
        ih b.length (by simp at hn; omega) h2 _ rfl]
      simp
    | uni h1 h2 h3 h4 b e1 e2 e3 e4 hb =>
      have hx : ∀ {d : UInt8} {t : Bytes}, HexDigit d → JChars t → JChars (d :: t) := by
        intro d t hd ht
        have hd' : 0x20 ≤ d ∧ d ≠ 0x22 ∧ d ≠ 0x5c := by
          unfold HexDigit at hd
          simp only [UInt8.le_iff_toNat_le, UInt8.reduceToNat, ne_eq, u8_eq_iff] at *
          omega
        exact .plain d t hd'.1 hd'.2.1 hd'.2.2 ht
      have hj : JChars (h1 :: h2 :: h3 :: h4 :: b) := hx e1 (hx e2 (hx e3 (hx e4 hb)))
      have := ih (h1 :: h2 :: h3 :: h4 :: b).length (by simp at hn ⊢; omega) hj (pend ++ [92, 117]) rfl
      rw [htmlBody_esc, List.cons_append, List.cons_append, compactLoop_str_esc, this]
      simp
    | plain c b h1 h2 h3 h4 =>
      have ihb := fun p => ih b.length (by simp at hn; omega) h4 p rfl
      by_cases hh : c = ch! '<' ∨ c = ch! '>' ∨ c = ch! '&'
      · rw [List.cons_append, compactLoop]
        simp only [Bool.not_true, Bool.false_eq_true, if_false]
        rw [if_neg h3, if_neg h2, if_pos hh, htmlBody_html hh, ihb]
        simp [u00]
      · by_cases hsep : ∃ c2 t, c :: b = 0xE2 :: 0x80 :: c2 :: t ∧ (c2 = 0xA8 ∨ c2 = 0xA9)
        · obtain ⟨c2, t, he, hc2⟩ := hsep
          injection he with he1 he2
          subst he1; subst he2
          rw [htmlBody_sep hc2]
          have hjt : JChars t := by
            refine JChars.drop_high (p := [0x80, c2]) ?_ h4
            rcases hc2 with rfl | rfl <;> decide
          have iht := fun p => ih t.length (by simp at hn; omega) hjt p rfl
          rw [List.cons_append, List.cons_append, List.cons_append, compactLoop]
          simp only [Bool.not_true, Bool.false_eq_true, if_false]
          rw [if_neg h3, if_neg h2, if_neg hh, sepAt_of hc2]
          simp only
          rw [compactLoop_str_step (by decide) (by decide) (by decide) (sepAt_ne (by decide))]
          have n1 : c2 ≠ 0x5c ∧ c2 ≠ 0x22 ∧ ¬ (c2 = ch! '<' ∨ c2 = ch! '>' ∨ c2 = ch! '&') ∧ c2 ≠ 0xE2 := by
            rcases hc2 with rfl | rfl <;> decide
          rw [compactLoop_str_step n1.1 n1.2.1 n1.2.2.1 (sepAt_ne n1.2.2.2)]
          simp only [show ¬ (2 = 0) by decide, if_false, show ¬ (2 - 1 = 0) by decide]
          rw [show 2 - 1 - 1 = 0 from rfl, iht]
          simp
        · have e0 : sepAt (c :: (b ++ 0x22 :: rest)) = none := by
            cases h : sepAt (c :: (b ++ 0x22 :: rest)) with
            | none => rfl
            | some c2 =>
              obtain ⟨hc2, t', he⟩ := sepAt_some h
              injection he with g0 he
              exfalso
              match b, he with
              | [], he => injection he with he _; exact absurd he (by decide)
              | [x], he =>
                injection he with _ he; injection he with he _
                subst he; revert hc2; decide
              | x :: y :: z, he =>
                injection he with g1 he; injection he with g2 he
                subst g1; subst g2; subst g0
                exact hsep ⟨y, z, rfl, hc2⟩
          have e1 : htmlBody (c :: b) = c :: htmlBody b := by
            refine htmlBody_other h3 hh ?_ ?_
            · rintro ⟨t, ht⟩; exact hsep ⟨0xA8, t, ht.symm, .inl rfl⟩
            · rintro ⟨t, ht⟩; exact hsep ⟨0xA9, t, ht.symm, .inr rfl⟩
          rw [e1, List.cons_append, compactLoop_str_step h3 h2 hh e0]
          simp only [if_true, Nat.zero_sub]
          rw [ihb]; simp

theorem compactLoop_string {s : Bytes} (h : JChars s) :
    compactLoop false false 0 [] (0x22 :: (s ++ [0x22])) = 0x22 :: (htmlBody s ++ [0x22]) := by
  rw [compactLoop]
  simp only [Bool.not_false, if_true, List.nil_append, Nat.zero_sub]
  rw [compactLoop_body h]
  simp [compactLoop]

/-! meaning is kept -/

theorem htmlBody_utf8 {r : Nat} (hr : Scalar r) (h1 : r ≠ 0x5c) (h2 : r ≠ 0x3c ∧ r ≠ 0x3e ∧ r ≠ 0x26)
    (h3 : r ≠ 0x2028) (h4 : r ≠ 0x2029) (s : Bytes) : htmlBody (utf8 r ++ s) = utf8 r ++ htmlBody s := by
  have key : ∀ (p : Bytes), (∀ c ∈ p, 0x80 ≤ c ∧ c ≤ 0xBF) → htmlBody (p ++ s) = p ++ htmlBody s := by
    intro p hp
    induction p with
    | nil => rfl
    | cons c t ih =>
      obtain ⟨hc, hc'⟩ := hp c (by simp)
      rw [List.cons_append, htmlBody_other, ih (fun x hx => hp x (by simp [hx]))]
      · rfl
      · rintro rfl; exact absurd hc (by decide)
      · rintro (rfl | rfl | rfl) <;> exact absurd hc (by decide)
      · rintro ⟨t, ht⟩; injection ht with ht _; subst ht; exact absurd hc' (by decide)
      · rintro ⟨t, ht⟩; injection ht with ht _; subst ht; exact absurd hc' (by decide)
  obtain ⟨c, p, hcp, hp⟩ : ∃ c p, utf8 r = c :: p ∧ ∀ x ∈ p, 0x80 ≤ x ∧ x ≤ 0xBF := by
    have kk : ∀ n, 0x80 ≤ n → n ≤ 0xBF → (0x80 : UInt8) ≤ UInt8.ofNat n ∧ UInt8.ofNat n ≤ 0xBF := by
      intro n h1 h2
      simp only [UInt8.le_iff_toNat_le, ofNat_toNat n (by omega), UInt8.reduceToNat]; omega
    unfold utf8
    repeat' split
    · exact ⟨_, _, rfl, by simp⟩
    · refine ⟨_, _, rfl, ?_⟩
      simp only [List.mem_cons, List.not_mem_nil, or_false]
      rintro x rfl; exact kk _ (by omega) (by omega)
    · refine ⟨_, _, rfl, ?_⟩
      simp only [List.mem_cons, List.not_mem_nil, or_false]
      rintro x (rfl | rfl) <;> exact kk _ (by omega) (by omega)
    · refine ⟨_, _, rfl, ?_⟩
      simp only [List.mem_cons, List.not_mem_nil, or_false]
      rintro x (rfl | rfl | rfl) <;> exact kk _ (by omega) (by omega)
  have hsep : ∀ x, Scalar x → r ≠ x → ¬ utf8 x <+: utf8 r ++ s := by
    rintro x hx hne ⟨t, ht⟩
    have := decodeRune_utf8 hx t
    rw [ht, decodeRune_utf8 hr] at this
    injection this with this _
    exact hne this
  have hc : c.toNat < 0x80 → r = c.toNat := by
    intro hlt
    rcases utf8_bytes hr with ⟨hl, hu⟩ | ⟨hge, hu⟩
    · rw [hu] at hcp; injection hcp with hcp _
      rw [← hcp, ofNat_toNat _ (by omega)]
    · have := hu c (by rw [hcp]; simp)
      rw [UInt8.le_iff_toNat_le] at this
      exact absurd hlt (by simpa using this)
  have hs1 := hsep 0x2028 (by unfold Scalar; omega) h3
  have hs2 := hsep 0x2029 (by unfold Scalar; omega) h4
  rw [hcp] at hs1 hs2 ⊢
  rw [List.cons_append, htmlBody_other, key p hp]
  · rfl
  · rintro rfl; exact h1 (hc (by decide))
  · rintro (rfl | rfl | rfl)
    · exact h2.1 (hc (by decide))
    · exact h2.2.1 (hc (by decide))
    · exact h2.2.2 (hc (by decide))
  · exact hs1
  · exact hs2

theorem htmlBody_high_prefix {u s : Bytes} (hu : ∀ c ∈ u, 0x80 ≤ c) (h : u <+: htmlBody s) : u <+: s := by
  induction u generalizing s with
  | nil => simp
  | cons d u ih =>
    have hd := hu d (by simp)
    cases s with
    | nil => rw [htmlBody_nil] at h; exact h
    | cons c t =>
      by_cases h1 : c = 0x5c
      · subst h1
        have : ∃ y, htmlBody (0x5c :: t) = 0x5c :: y := by
          cases t with
          | nil => exact ⟨[], by rw [htmlBody]; rfl⟩
          | cons e t => exact ⟨_, htmlBody_esc e t⟩
        obtain ⟨y, hy⟩ := this
        rw [hy, List.cons_prefix_cons] at h
        rw [h.1] at hd; exact absurd hd (by decide)
      by_cases h2 : c = ch! '<' ∨ c = ch! '>' ∨ c = ch! '&'
      · rw [htmlBody_html h2] at h
        unfold u00 at h
        simp only [List.cons_append] at h
        rw [List.cons_prefix_cons] at h
        rw [h.1] at hd; exact absurd hd (by decide)
      by_cases h3 : ∃ c2 t', c :: t = 0xE2 :: 0x80 :: c2 :: t' ∧ (c2 = 0xA8 ∨ c2 = 0xA9)
      · obtain ⟨c2, t', he, hc2⟩ := h3
        rw [he, htmlBody_sep hc2] at h
        simp only [List.cons_append, List.cons_prefix_cons] at h
        rw [h.1] at hd; exact absurd hd (by decide)
      · rw [htmlBody_other h1 h2 (by rintro ⟨t, ht⟩; exact h3 ⟨0xA8, t, ht.symm, .inl rfl⟩)
          (by rintro ⟨t, ht⟩; exact h3 ⟨0xA9, t, ht.symm, .inr rfl⟩), List.cons_prefix_cons] at h
        rw [List.cons_prefix_cons]
        exact ⟨h.1, ih (fun x hx => hu x (by simp [hx])) h.2⟩

theorem htmlBody_noRune {c : UInt8} {s : Bytes} (hc : 0x80 ≤ c) (h : NoRune (c :: s)) : NoRune (c :: htmlBody s) := by
  intro r hr hp
  rcases utf8_bytes hr with ⟨hl, hu⟩ | ⟨hge, hu⟩
  · rw [hu, List.cons_prefix_cons] at hp
    have := hp.1
    rw [← this, UInt8.le_iff_toNat_le, ofNat_toNat _ (by omega)] at hc
    exact absurd hl (by simpa using hc)
  · cases hx : utf8 r with
    | nil => have := utf8_length_pos r; rw [hx] at this; simp at this
    | cons d p =>
      rw [hx, List.cons_prefix_cons] at hp
      refine h r hr ?_
      rw [hx, List.cons_prefix_cons]
      exact ⟨hp.1, htmlBody_high_prefix (fun x hxx => hu x (by rw [hx]; simp [hxx])) hp.2⟩

theorem htmlBody_startsLow {s : Bytes} (hj : JChars s) (h : StartsLow (htmlBody s)) : StartsLow s := by
  obtain ⟨h1, h2, h3, h4, t, he, e1, e2, e3, e4, hl⟩ := h
  cases hj with
  | nil => rw [htmlBody_nil] at he; cases he
  | esc e b g1 g2 =>
    rw [htmlBody_esc] at he
    injection he with _ he; injection he with he _
    subst he; exact absurd g1 (by unfold SimpleEsc; decide)
  | uni k1 k2 k3 k4 b f1 f2 f3 f4 hb =>
    have hk : ∀ {d : UInt8} {t : Bytes}, HexDigit d → htmlBody (d :: t) = d :: htmlBody t := by
      intro d t hd
      have hd' : d ≠ 0x5c ∧ d ≠ 0x3c ∧ d ≠ 0x3e ∧ d ≠ 0x26 ∧ d ≠ 0xE2 := by
        unfold HexDigit at hd
        simp only [UInt8.le_iff_toNat_le, UInt8.reduceToNat, ne_eq, u8_eq_iff] at *
        omega
      refine htmlBody_other hd'.1 ?_ ?_ ?_
      · rintro (hh | hh | hh)
        · exact hd'.2.1 hh
        · exact hd'.2.2.1 hh
        · exact hd'.2.2.2.1 hh
      · rintro ⟨_, ht⟩; injection ht with ht _; exact hd'.2.2.2.2 ht.symm
      · rintro ⟨_, ht⟩; injection ht with ht _; exact hd'.2.2.2.2 ht.symm
    rw [htmlBody_esc, hk f1, hk f2, hk f3, hk f4] at he
    injection he with _ he; injection he with _ he; injection he with g1 he
    injection he with g2 he; injection he with g3 he; injection he with g4 he
    subst g1; subst g2; subst g3; subst g4
    exact ⟨_, _, _, _, _, rfl, e1, e2, e3, e4, hl⟩
  | plain c b g1 g2 g3 g4 =>
    exfalso
    by_cases hh : c = ch! '<' ∨ c = ch! '>' ∨ c = ch! '&'
    · rw [htmlBody_html hh] at he
      unfold u00 at he
      simp only [List.cons_append, List.nil_append] at he
      injection he with _ he; injection he with _ he; injection he with k1 he
      injection he with k2 he; injection he with k3 he; injection he with k4 he
      subst k1; subst k2; subst k3; subst k4
      have hc : c < 0x80 := by rcases hh with rfl | rfl | rfl <;> decide
      have := (u00_spec' hc).2.2
      rw [this] at hl
      unfold LowSur at hl
      rw [UInt8.lt_iff_toNat_lt] at hc
      simp only [UInt8.reduceToNat] at hc
      omega
    · by_cases hsep : ∃ c2 t, c :: b = 0xE2 :: 0x80 :: c2 :: t ∧ (c2 = 0xA8 ∨ c2 = 0xA9)
      · obtain ⟨c2, t', hcb, hc2⟩ := hsep
        rw [hcb, htmlBody_sep hc2] at he
        simp only [List.cons_append, List.nil_append] at he
        injection he with _ he; injection he with _ he; injection he with k1 he
        injection he with k2 he; injection he with k3 he; injection he with k4 he
        subst k1; subst k2; subst k3; subst k4
        revert hl
        unfold LowSur
        rcases hc2 with rfl | rfl <;> decide
      · rw [htmlBody_other g3 hh (by rintro ⟨t, ht⟩; exact hsep ⟨0xA8, t, ht.symm, .inl rfl⟩)
          (by rintro ⟨t, ht⟩; exact hsep ⟨0xA9, t, ht.symm, .inr rfl⟩)] at he
        injection he with he _
        exact g3 he

theorem htmlBody_means {s : Bytes} {rs : List Nat} (h : StrMeans s rs) : StrMeans (htmlBody s) rs := by
  have hexk : ∀ {d : UInt8} {t : Bytes}, HexDigit d → htmlBody (d :: t) = d :: htmlBody t := by
    intro d t hd
    have hd' : d ≠ 0x5c ∧ d ≠ 0x3c ∧ d ≠ 0x3e ∧ d ≠ 0x26 ∧ d ≠ 0xE2 := by
      unfold HexDigit at hd
      simp only [UInt8.le_iff_toNat_le, UInt8.reduceToNat, ne_eq, u8_eq_iff] at *
      omega
    refine htmlBody_other hd'.1 ?_ ?_ ?_
    · rintro (hh | hh | hh)
      · exact hd'.2.1 hh
      · exact hd'.2.2.1 hh
      · exact hd'.2.2.2.1 hh
    · rintro ⟨_, ht⟩; injection ht with ht _; exact hd'.2.2.2.2 ht.symm
    · rintro ⟨_, ht⟩; injection ht with ht _; exact hd'.2.2.2.2 ht.symm
  induction h with
  | nil => rw [htmlBody_nil]; exact .nil
  | rune r s rs hr h1 h2 h3 _ ih =>
    by_cases hh : r = 0x3c ∨ r = 0x3e ∨ r = 0x26
    · obtain ⟨c, hc, hcr⟩ : ∃ c : UInt8, (c = ch! '<' ∨ c = ch! '>' ∨ c = ch! '&') ∧ c.toNat = r := by
        rcases hh with rfl | rfl | rfl
        · exact ⟨_, .inl rfl, rfl⟩
        · exact ⟨_, .inr (.inl rfl), rfl⟩
        · exact ⟨_, .inr (.inr rfl), rfl⟩
      have hlt : c < 0x80 := by rcases hc with rfl | rfl | rfl <;> decide
      have hlt' := hlt
      rw [UInt8.lt_iff_toNat_lt] at hlt'
      simp only [UInt8.reduceToNat] at hlt'
      subst hcr
      rw [utf8_ascii hlt', List.cons_append, List.nil_append, htmlBody_html hc]
      obtain ⟨b1, b2, b3⟩ := u00_spec' hlt
      rw [← b3]
      exact .uni 0x30 0x30 _ _ _ _ (by unfold HexDigit; decide) (by unfold HexDigit; decide) b1 b2
        (by rw [b3]; exact hr) ih
    · by_cases h28 : r = 0x2028
      · subst h28
        have : utf8 0x2028 ++ s = 0xE2 :: 0x80 :: 0xA8 :: s := rfl
        rw [this, htmlBody_sep (.inl rfl)]
        exact StrMeans.uni 0x32 0x30 0x32 0x38 _ _ (by unfold HexDigit; decide)
            (by unfold HexDigit; decide) (by unfold HexDigit; decide) (by unfold HexDigit; decide)
            (by unfold Scalar; decide) ih
      · by_cases h29 : r = 0x2029
        · subst h29
          have : utf8 0x2029 ++ s = 0xE2 :: 0x80 :: 0xA9 :: s := rfl
          rw [this, htmlBody_sep (.inr rfl)]
          exact StrMeans.uni 0x32 0x30 0x32 0x39 _ _ (by unfold HexDigit; decide)
            (by unfold HexDigit; decide) (by unfold HexDigit; decide) (by unfold HexDigit; decide)
            (by unfold Scalar; decide) ih
        · rw [htmlBody_utf8 hr h3 ⟨fun h => hh (.inl h), fun h => hh (.inr (.inl h)), fun h => hh (.inr (.inr h))⟩ h28 h29]
          exact .rune r _ _ hr h1 h2 h3 ih
  | bad c s rs hc hb _ ih =>
    rw [htmlBody_other]
    · exact .bad c _ _ hc (htmlBody_noRune hc hb) ih
    · rintro rfl; exact absurd hc (by decide)
    · rintro (rfl | rfl | rfl) <;> exact absurd hc (by decide)
    · exact hb 0x2028 (by unfold Scalar; decide)
    · exact hb 0x2029 (by unfold Scalar; decide)
  | esc e r s rs he _ ih => rw [htmlBody_esc]; exact .esc e r _ _ he ih
  | uni h1 h2 h3 h4 s rs a1 a2 a3 a4 hs _ ih =>
    rw [htmlBody_esc, hexk a1, hexk a2, hexk a3, hexk a4]
    exact .uni _ _ _ _ _ _ a1 a2 a3 a4 hs ih
  | pair h1 h2 h3 h4 l1 l2 l3 l4 s rs a1 a2 a3 a4 b1 b2 b3 b4 hh hl _ ih =>
    rw [htmlBody_esc, hexk a1, hexk a2, hexk a3, hexk a4, htmlBody_esc, hexk b1, hexk b2, hexk b3, hexk b4]
    exact .pair _ _ _ _ _ _ _ _ _ _ a1 a2 a3 a4 b1 b2 b3 b4 hh hl ih
  | lone h1 h2 h3 h4 s rs a1 a2 a3 a4 hl hm ih =>
    rw [htmlBody_esc, hexk a1, hexk a2, hexk a3, hexk a4]
    refine .lone _ _ _ _ _ _ a1 a2 a3 a4 ?_ ih
    rcases hl with hl | ⟨hl, hs⟩
    · exact .inl hl
    · exact .inr ⟨hl, fun hh => hs (htmlBody_startsLow hm.jchars hh)⟩

/-- no HTML-significant byte and no line or paragraph separator -/
theorem htmlBody_safe (s : Bytes) (hj : JChars s) : (∀ c ∈ htmlBody s, c ≠ ch! '<' ∧ c ≠ ch! '>' ∧ c ≠ ch! '&') ∧
    ¬ [0xE2, 0x80, 0xA8] <:+: htmlBody s ∧ ¬ [0xE2, 0x80, 0xA9] <:+: htmlBody s := by
  have glue : ∀ (l e : Bytes) (a : UInt8), (0xE2 : UInt8) ∉ l → ¬ [0xE2, 0x80, a] <:+: e → ¬ [0xE2, 0x80, a] <:+: l ++ e := by
    intro l e a hl he
    induction l with
    | nil => exact he
    | cons c t ih =>
      rw [List.cons_append, List.infix_cons_iff]
      rintro (h | h)
      · rw [List.cons_prefix_cons] at h
        exact hl (by simp [h.1])
      · exact ih (fun hh => hl (by simp [hh])) h
  have step : ∀ (l e : Bytes), (∀ c ∈ l, c ≠ 0xE2 ∧ c ≠ ch! '<' ∧ c ≠ ch! '>' ∧ c ≠ ch! '&') →
      ((∀ c ∈ e, c ≠ ch! '<' ∧ c ≠ ch! '>' ∧ c ≠ ch! '&') ∧ ¬ [0xE2, 0x80, 0xA8] <:+: e ∧ ¬ [0xE2, 0x80, 0xA9] <:+: e) →
      ((∀ c ∈ l ++ e, c ≠ ch! '<' ∧ c ≠ ch! '>' ∧ c ≠ ch! '&') ∧ ¬ [0xE2, 0x80, 0xA8] <:+: l ++ e ∧
        ¬ [0xE2, 0x80, 0xA9] <:+: l ++ e) := by
    rintro l e hl ⟨h1, h2, h3⟩
    have hn : (0xE2 : UInt8) ∉ l := fun hh => (hl _ hh).1 rfl
    refine ⟨?_, glue l e _ hn h2, glue l e _ hn h3⟩
    intro c hc
    rcases List.mem_append.1 hc with hc | hc
    · exact (hl c hc).2
    · exact h1 c hc
  have hexsafe : ∀ {d : UInt8}, HexDigit d → d ≠ 0xE2 ∧ d ≠ ch! '<' ∧ d ≠ ch! '>' ∧ d ≠ ch! '&' := by
    intro d hd
    unfold HexDigit at hd
    simp only [UInt8.le_iff_toNat_le, UInt8.reduceToNat, ne_eq, u8_eq_iff] at *
    omega
  induction hn : s.length using Nat.strongRecOn generalizing s with
  | ind n ih =>
    cases hj with
    | nil => rw [htmlBody_nil]; simp
    | esc e b h1 h2 =>
      rw [htmlBody_esc]
      refine step [0x5c, e] _ ?_ (ih b.length (by simp at hn; omega) b h2 rfl)
      rcases h1 with rfl | rfl | rfl | rfl | rfl | rfl | rfl | rfl <;> decide
    | uni h1 h2 h3 h4 b e1 e2 e3 e4 hb =>
      have hk : ∀ {d : UInt8} {t : Bytes}, HexDigit d → htmlBody (d :: t) = d :: htmlBody t := by
        intro d t hd
        have hd' : d ≠ 0x5c ∧ d ≠ 0x3c ∧ d ≠ 0x3e ∧ d ≠ 0x26 ∧ d ≠ 0xE2 := by
          unfold HexDigit at hd
          simp only [UInt8.le_iff_toNat_le, UInt8.reduceToNat, ne_eq, u8_eq_iff] at *
          omega
        refine htmlBody_other hd'.1 ?_ ?_ ?_
        · rintro (hh | hh | hh)
          · exact hd'.2.1 hh
          · exact hd'.2.2.1 hh
          · exact hd'.2.2.2.1 hh
        · rintro ⟨_, ht⟩; injection ht with ht _; exact hd'.2.2.2.2 ht.symm
        · rintro ⟨_, ht⟩; injection ht with ht _; exact hd'.2.2.2.2 ht.symm
      rw [htmlBody_esc, hk e1, hk e2, hk e3, hk e4]
      refine step [0x5c, 0x75, h1, h2, h3, h4] _ ?_ (ih b.length (by simp at hn; omega) b hb rfl)
      intro c hc
      simp only [List.mem_cons, List.not_mem_nil, or_false] at hc
      rcases hc with rfl | rfl | rfl | rfl | rfl | rfl
      · decide
      · decide
      · exact hexsafe e1
      · exact hexsafe e2
      · exact hexsafe e3
      · exact hexsafe e4
    | plain c b h1 h2 h3 h4 =>
      have ihb := ih b.length (by simp at hn; omega) b h4 rfl
      by_cases hh : c = ch! '<' ∨ c = ch! '>' ∨ c = ch! '&'
      · rw [htmlBody_html hh]
        refine step _ _ ?_ ihb
        rcases hh with rfl | rfl | rfl <;> decide
      · by_cases hsep : ∃ c2 t, c :: b = 0xE2 :: 0x80 :: c2 :: t ∧ (c2 = 0xA8 ∨ c2 = 0xA9)
        · obtain ⟨c2, t, he, hc2⟩ := hsep
          injection he with he1 he2
          subst he1; subst he2
          rw [htmlBody_sep hc2]
          have hjt : JChars t := by
            refine JChars.drop_high (p := [0x80, c2]) ?_ h4
            rcases hc2 with rfl | rfl <;> decide
          refine step _ _ ?_ (ih t.length (by simp at hn; omega) t hjt rfl)
          rcases hc2 with rfl | rfl <;> decide
        · have n8 : ∀ c2 t, c2 = 0xA8 ∨ c2 = 0xA9 → [0xE2, 0x80, c2] <+: c :: t → [0x80, c2] <+: b → False := by
            rintro c2 t hc2 hp ⟨t', ht'⟩
            rw [List.cons_prefix_cons] at hp
            exact hsep ⟨c2, t', by rw [← hp.1, ← ht']; rfl, hc2⟩
          rw [htmlBody_other h3 hh (by rintro ⟨t, ht⟩; exact hsep ⟨0xA8, t, ht.symm, .inl rfl⟩)
            (by rintro ⟨t, ht⟩; exact hsep ⟨0xA9, t, ht.symm, .inr rfl⟩)]
          obtain ⟨i1, i2, i3⟩ := ihb
          refine ⟨?_, ?_, ?_⟩
          · intro x hx
            rcases List.mem_cons.1 hx with rfl | hx
            · exact ⟨fun h => hh (.inl h), fun h => hh (.inr (.inl h)), fun h => hh (.inr (.inr h))⟩
            · exact i1 x hx
          · rw [List.infix_cons_iff]
            rintro (hp | hp)
            · refine n8 0xA8 _ (.inl rfl) hp (htmlBody_high_prefix (by decide) ?_)
              rw [List.cons_prefix_cons] at hp; exact hp.2
            · exact i2 hp
          · rw [List.infix_cons_iff]
            rintro (hp | hp)
            · refine n8 0xA9 _ (.inr rfl) hp (htmlBody_high_prefix (by decide) ?_)
              rw [List.cons_prefix_cons] at hp; exact hp.2
            · exact i3 hp

end JC

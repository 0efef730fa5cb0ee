import Verif.Model.Float
import Verif.Spec.Float
import Verif.Lemmas.Says
/-!
The texts of floats (property C94).
-/
namespace JC
open Spec

theorem digitB_iff (c : UInt8) : digitB c = true ↔ Digit c := by simp [digitB, Digit]

theorem place_eq (x : Dec10) (h : x.pt ≤ x.ds.length) :
    (List.range (x.ds.length - x.pt).toNat).map x.place = zeros (-x.pt).toNat ++ x.ds.drop x.pt.toNat := by
  apply List.ext_getElem
  · simp only [List.length_map, List.length_range, List.length_append, zeros, List.length_replicate, List.length_drop]; omega
  · intro i h1 h2
    simp only [List.length_map, List.length_range] at h1
    rw [List.getElem_map, List.getElem_range, List.getElem_append]
    unfold Dec10.place
    split
    · rename_i h3
      split
      · rename_i h4
        exfalso
        simp only [zeros, List.length_replicate] at h4
        omega
      · rename_i h4
        simp only [zeros, List.length_replicate] at h4 ⊢
        rw [List.getElem_drop, List.getD_eq_getElem?_getD]
        have e : (x.pt + i).toNat = x.pt.toNat + (i - (-x.pt).toNat) := by omega
        rw [e, List.getElem?_eq_getElem (by omega)]
        rfl
    · rename_i h3
      split
      · simp [zeros]
      · rename_i h4
        simp only [zeros, List.length_replicate] at h4
        omega

theorem jint_cons {d : UInt8} {r : Bytes} (h : ∀ c ∈ d :: r, Digit c) (h0 : d ≠ 0x30) : JInt (d :: r) := by
  have hd := h d (by simp)
  refine .pos d r ?_ hd.2 (fun c hc => h c (by simp [hc]))
  have h1 := hd.1
  have h2 : d.toNat ≠ 48 := fun h => h0 (UInt8.toNat_inj.1 (by rw [h]; rfl))
  simp only [UInt8.le_iff_toNat_le, UInt8.reduceToNat] at *
  omega

theorem ofNat_digit {n : Nat} (h : n < 10) : Digit (UInt8.ofNat (0x30 + n)) ∧ (UInt8.ofNat (0x30 + n)).toNat = 48 + n := by
  have e : (UInt8.ofNat (0x30 + n)).toNat = 48 + n := by
    rw [UInt8.toNat_ofNat']; omega
  refine ⟨?_, e⟩
  simp only [Digit, UInt8.le_iff_toNat_le, e, UInt8.reduceToNat]
  omega

theorem sign_eq (x : Dec10) : x.sign = minus x.neg := rfl

/-- Format `'f'` is what ECMAScript asks for. -/
theorem fmtF_es6 {x : Dec10} (h : x.Ok) (he : x.expo = false) : Es6 x.neg x.ds x.pt x.fmtF := by
  by_cases h0 : x.ds = []
  · have hp := h.zero h0
    have : x.fmtF = minus x.neg ++ [0x30] := by
      unfold Dec10.fmtF
      simp [h0, hp, sign_eq]
    rw [this, h0]
    exact .zero _
  · simp only [Dec10.expo, ne_eq, h0, not_false_eq_true, true_and, decide_eq_false_iff_not] at he
    have hk : 0 < x.ds.length := List.length_pos_iff.2 h0
    by_cases h1 : (x.ds.length : Int) ≤ x.pt
    · have e : x.fmtF = minus x.neg ++ x.ds ++ zeros (x.pt.toNat - x.ds.length) := by
        unfold Dec10.fmtF
        simp only []
        rw [if_pos (by omega), if_neg (by omega), List.take_of_length_le (by omega), sign_eq, List.append_nil, ← List.append_assoc]
        rfl
      have e2 : x.pt = ((x.pt.toNat : Nat) : Int) := by omega
      rw [e]
      conv => arg 3; rw [e2]
      exact .whole _ _ h0 (by omega) (by omega)
    · by_cases h2 : 0 < x.pt
      · have e : x.fmtF = minus x.neg ++ x.ds.take x.pt.toNat ++ 0x2e :: x.ds.drop x.pt.toNat := by
          unfold Dec10.fmtF
          simp only []
          rw [if_pos (by omega), if_pos (by omega), place_eq x (by omega), show x.pt.toNat - x.ds.length = 0 by omega,
            show (-x.pt).toNat = 0 by omega, sign_eq]
          simp [zeros]
        have hl : (x.ds.take x.pt.toNat).length = x.pt.toNat := by rw [List.length_take]; omega
        have := Es6.point (neg := x.neg) (x.ds.take x.pt.toNat) (x.ds.drop x.pt.toNat)
          (by intro h; rw [h] at hl; simp at hl; omega)
          (by intro h; have := congrArg List.length h; rw [List.length_drop] at this; simp at this; omega)
          (by omega)
        rw [List.take_append_drop, hl, show ((x.pt.toNat : Nat) : Int) = x.pt by omega] at this
        rw [e]; exact this
      · have e : x.fmtF = minus x.neg ++ [0x30, 0x2e] ++ zeros (-x.pt).toNat ++ x.ds := by
          unfold Dec10.fmtF
          simp only []
          rw [if_neg (by omega), if_pos (by omega), place_eq x (by omega), show x.pt.toNat = 0 by omega, sign_eq]
          simp
        have := Es6.small (neg := x.neg) x.ds (-x.pt).toNat h0 (by omega)
        rw [show -(((-x.pt).toNat : Nat) : Int) = x.pt by omega] at this
        rw [e]; exact this

theorem fmtNat_ge10 {n : Nat} (h : 10 ≤ n) : ∃ q y z, fmtNat n = q ++ [y, z] ∧ (q = [] → y ≠ 0x30) := by
  unfold fmtNat
  rw [if_neg (by omega)]
  obtain ⟨_, hj⟩ := fmtNat_val (n / 10)
  have hi := fmtNat_jint (n / 10)
  have hv := (fmtNat_val (n / 10)).1
  rcases List.eq_nil_or_concat (fmtNat (n / 10)) with hq | ⟨q, u, hq⟩
  · rw [hq] at hi; cases hi
  · refine ⟨q, u, _, by rw [hq]; simp; rfl, ?_⟩
    rintro rfl rfl
    rw [hq] at hv
    simp [natVal] at hv
    omega

/-- The exponent is left as it is if it has two digits without the zero. -/
theorem cleanExp_big (p : Bytes) (e : Int) (h : 10 ≤ e.natAbs) : cleanExp (p ++ 0x65 :: fmtExp e) = p ++ 0x65 :: expSign e :: fmtNat e.natAbs := by
  have he : fmtExp e = expSign e :: fmtNat e.natAbs := by
    unfold fmtExp expSign; rw [if_neg (by omega : ¬ e.natAbs < 10)]
  rw [he]
  apply cleanExp_other
  rintro ⟨q, w, hw⟩
  obtain ⟨d', y, z, hd, hy⟩ := fmtNat_ge10 h
  have hdig := (fmtNat_val e.natAbs).2
  rw [hd] at hw hdig
  have e2 : (p ++ 0x65 :: expSign e :: d') ++ [y, z] = (q ++ [0x65, 0x2d]) ++ [0x30, w] := by simpa using hw
  obtain ⟨e3, e4⟩ := List.append_inj' e2 rfl
  simp only [List.cons.injEq, and_true] at e4
  obtain ⟨rfl, rfl⟩ := e4
  rcases List.eq_nil_or_concat d' with h0 | ⟨d2, u, rfl⟩
  · exact hy h0 rfl
  · have e5 : (p ++ 0x65 :: expSign e :: d2) ++ [u] = (q ++ [0x65]) ++ [0x2d] := by simpa using e3
    obtain ⟨_, e6⟩ := List.append_inj' e5 rfl
    simp only [List.cons.injEq, and_true] at e6
    have := hdig u (by simp)
    rw [e6] at this
    revert this; unfold Digit; decide

/-- An exponent with one digit loses its zero if it is negative. -/
theorem cleanExp_small (p : Bytes) (e : Int) (h : e.natAbs < 10) (hn : e < 0) :
    cleanExp (p ++ 0x65 :: fmtExp e) = p ++ 0x65 :: expSign e :: [UInt8.ofNat (0x30 + e.natAbs)] := by
  have he : fmtExp e = [0x2d, 0x30, UInt8.ofNat (0x30 + e.natAbs)] := by
    unfold fmtExp; rw [if_pos h, if_pos hn]
  have hs : expSign e = 0x2d := by unfold expSign; rw [if_pos hn]
  rw [he, hs]
  exact cleanExp_length _ (UInt8.ofNat (0x30 + e.natAbs)) p rfl

/-- The exponent that remains. -/
theorem cleanExp_exp (p : Bytes) (e : Int) (h : e ≤ -7 ∨ 21 ≤ e) :
    ∃ ex, cleanExp (p ++ 0x65 :: fmtExp e) = p ++ 0x65 :: expSign e :: ex ∧ JInt ex ∧ natVal ex = e.natAbs := by
  by_cases h1 : e.natAbs < 10
  · obtain ⟨h2, h3⟩ := ofNat_digit h1
    refine ⟨_, cleanExp_small p e h1 (by omega), ?_, ?_⟩
    · refine jint_cons (by simpa using h2) ?_
      intro h4
      rw [h4] at h3
      simp at h3
      omega
    · simp only [natVal, List.foldl_cons, List.foldl_nil, h3]; omega
  · exact ⟨_, cleanExp_big p e (by omega), fmtNat_jint _, (fmtNat_val _).1⟩

/-- Format `'e'`, with the zero removed, is what ECMAScript asks for. -/
theorem fmtE_es6 {x : Dec10} (he : x.expo = true) : Es6 x.neg x.ds x.pt (cleanExp x.fmtE) := by
  simp only [Dec10.expo, decide_eq_true_eq] at he
  obtain ⟨h0, hp⟩ := he
  obtain ⟨d, r, hd⟩ := List.exists_cons_of_ne_nil h0
  unfold Dec10.fmtE
  rw [show (if x.ds.length = 0 then (0 : Int) else x.pt - 1) = x.pt - 1 from if_neg (by rw [hd]; simp)]
  obtain ⟨ex, h1, h2, h3⟩ := cleanExp_exp (x.sign ++ [x.ds.headD 0x30] ++ (if x.ds.length > 1 then 0x2e :: x.ds.drop 1 else [])) (x.pt - 1) (by omega)
  rw [h1, hd]
  cases r with
  | nil =>
    have := Es6.exp1 (neg := x.neg) d x.pt ex (by omega) h2 h3
    simpa [sign_eq] using this
  | cons u r =>
    have := Es6.exp (neg := x.neg) d (u :: r) x.pt ex (by simp) (by omega) h2 h3
    simpa [sign_eq] using this

theorem fmtExp_digits (e : Int) : ∃ es ds, fmtExp e = es ++ ds ∧ (es = [0x2b] ∨ es = [0x2d]) ∧ Digits1 ds ∧ 2 ≤ ds.length := by
  unfold fmtExp
  refine ⟨[if e < 0 then 0x2d else 0x2b], if e.natAbs < 10 then [0x30, UInt8.ofNat (0x30 + e.natAbs)] else fmtNat e.natAbs, rfl, ?_, ?_, ?_⟩
  · split
    · exact .inr rfl
    · exact .inl rfl
  · split
    · refine ⟨by simp, ?_⟩
      intro c hc
      simp only [List.mem_cons, List.not_mem_nil, or_false] at hc
      rcases hc with rfl | rfl
      · unfold Digit; decide
      · exact (ofNat_digit ‹_›).1
    · refine ⟨?_, (fmtNat_val _).2⟩
      intro h
      have := fmtNat_jint e.natAbs
      rw [h] at this; cases this
  · split
    · simp
    · obtain ⟨q, y, z, h, _⟩ := fmtNat_ge10 (n := e.natAbs) (by omega)
      rw [h]; simp

theorem zeros_digit {n : Nat} : ∀ c ∈ zeros n, Digit c := by
  intro c hc
  rw [List.eq_of_mem_replicate hc]
  unfold Digit; decide

/-- What `strconv` is taken to return in `Model/Encode.lean` it does return. -/
theorem text_fmt {x : Dec10} (h : x.Ok) : FloatFmt x.expo x.text := by
  have hs : x.sign = [] ∨ x.sign = [0x2d] := by
    unfold Dec10.sign; split
    · exact .inr rfl
    · exact .inl rfl
  unfold Dec10.text
  cases he : x.expo with
  | true =>
    simp only [if_true]
    simp only [Dec10.expo, decide_eq_true_eq] at he
    obtain ⟨d, r, hd⟩ := List.exists_cons_of_ne_nil he.1
    obtain ⟨es, ds, h1, h2, h3, h4⟩ := fmtExp_digits (if x.ds.length = 0 then 0 else x.pt - 1)
    unfold Dec10.fmtE
    rw [h1, hd]
    have hdig := h.digits
    rw [hd] at hdig
    refine .e x.sign d _ es ds hs (hdig d (by simp)) ?_ h2 h3 h4
    cases r with
    | nil => simp; exact .none
    | cons u r =>
      simp
      exact .some _ ⟨by simp, fun c hc => hdig c (List.mem_cons_of_mem _ hc)⟩
  | false =>
    simp only [Bool.false_eq_true, if_false]
    have := fmtF_es6 h he
    have hdig := h.digits
    have hf := h.first
    have hr : x.ds ≠ [] → ¬ (x.pt < -5 ∨ 22 ≤ x.pt) := by
      intro h0
      simpa [Dec10.expo, h0] using he
    revert this hdig hf hr
    generalize x.fmtF = t
    generalize x.ds = ds
    generalize x.pt = pt
    intro this hdig hf hr
    have hj : ∀ {l : Bytes}, l ≠ [] → (∀ c ∈ l, Digit c) → l.head? ≠ some 0x30 → JInt l := by
      intro l h1 h2 h3
      obtain ⟨d, r, rfl⟩ := List.exists_cons_of_ne_nil h1
      exact jint_cons h2 (by intro h; rw [h] at h3; exact h3 rfl)
    have hm : minus x.neg = [] ∨ minus x.neg = [0x2d] := hs
    cases this with
    | zero =>
      have := FloatFmt.f (minus x.neg) [0x30] [] hm .zero .none
      simpa using this
    | whole ds n h1 h2 h3 =>
      obtain ⟨d, r, rfl⟩ := List.exists_cons_of_ne_nil h1
      have hi : JInt ((d :: r) ++ zeros (n - (d :: r).length)) := by
        refine hj (by simp) ?_ (by simpa using hf)
        intro c hc
        rcases List.mem_append.1 hc with hc | hc
        · exact hdig c hc
        · exact zeros_digit c hc
      have := FloatFmt.f (minus x.neg) _ [] hm hi .none
      simpa using this
    | point l r h1 h2 h3 =>
      obtain ⟨d, l, rfl⟩ := List.exists_cons_of_ne_nil h1
      have hi : JInt (d :: l) := hj (by simp) (fun c hc => hdig c (List.mem_append_left _ hc)) (by simpa using hf)
      exact FloatFmt.f (minus x.neg) _ _ hm hi (.some _ ⟨h2, fun c hc => hdig c (List.mem_append_right _ hc)⟩)
    | small ds n h1 h2 =>
      have := FloatFmt.f (minus x.neg) [0x30] (0x2e :: (zeros n ++ ds)) hm .zero (.some _ ⟨by simp [h1], by
        intro c hc
        rcases List.mem_append.1 hc with hc | hc
        · exact zeros_digit c hc
        · exact hdig c hc⟩)
      simpa using this
    | exp1 d n ex h1 h2 h3 => exact absurd h1 (by have := hr (by simp); omega)
    | exp d r n ex h0 h1 h2 h3 => exact absurd h1 (by have := hr (by simp); omega)

end JC

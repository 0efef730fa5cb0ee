import Verif.Lemmas.Float
/-!
What the texts of floats are worth (property C94).
-/
namespace JC
open Spec

theorem natFold_val (ds : Bytes) : ∀ a, natFold a ds = a * 10 ^ ds.length + natVal ds := by
  induction ds with
  | nil => intro a; simp [natFold, natVal]
  | cons c ds ih =>
    intro a
    rw [natFold_cons, ih, natVal_eq (c :: ds), natFold_cons, ih, List.length_cons, Nat.pow_succ, Nat.add_mul, Nat.add_mul,
      show 10 * a * 10 ^ ds.length = a * (10 ^ ds.length * 10) by rw [Nat.mul_comm 10 a, Nat.mul_assoc, Nat.mul_comm 10]]
    simp only [Nat.mul_zero, Nat.zero_mul]
    omega

theorem natVal_append (a b : Bytes) : natVal (a ++ b) = natVal a * 10 ^ b.length + natVal b := by
  rw [natVal_eq (a ++ b), natFold_append, natFold_val, ← natVal_eq]

theorem natVal_zeros : ∀ n, natVal (zeros n) = 0
  | 0 => rfl
  | n + 1 => by
    have := natVal_append [0x30] (zeros n)
    rw [natVal_zeros n] at this
    simpa [zeros, List.replicate_succ, natVal] using this

theorem natVal_lt {ds : Bytes} (h : ∀ c ∈ ds, Digit c) : natVal ds < 10 ^ ds.length := by
  induction ds with
  | nil => simp [natVal]
  | cons c ds ih =>
    have h1 := ih (fun c hc => h c (by simp [hc]))
    have h2 := (h c (by simp)).2
    have h3 := natVal_append [c] ds
    have h4 : natVal [c] = c.toNat - 48 := by simp [natVal]
    have h5 : c.toNat - 48 ≤ 9 := by simp only [UInt8.le_iff_toNat_le, UInt8.reduceToNat] at h2; omega
    rw [List.singleton_append, h4] at h3
    have h6 := Nat.mul_le_mul_right (10 ^ ds.length) h5
    rw [h3, List.length_cons, Nat.pow_succ]
    omega

theorem natVal_ge {c : UInt8} {ds : Bytes} (h : ∀ x ∈ c :: ds, Digit x) (h0 : c ≠ 0x30) : 10 ^ ds.length ≤ natVal (c :: ds) := by
  have h1 := (h c (by simp)).1
  have h2 : c.toNat ≠ 48 := fun h => h0 (UInt8.toNat_inj.1 (by rw [h]; rfl))
  have h3 := natVal_append [c] ds
  have h4 : natVal [c] = c.toNat - 48 := by simp [natVal]
  have h5 : 1 ≤ c.toNat - 48 := by simp only [UInt8.le_iff_toNat_le, UInt8.reduceToNat] at h1; omega
  rw [List.singleton_append, h4] at h3
  have h6 := Nat.mul_le_mul_right (10 ^ ds.length) h5
  omega

theorem natVal_mod {ds : Bytes} (h : ∀ c ∈ ds, Digit c) (h0 : ds ≠ []) (hl : ds.getLast? ≠ some 0x30) : natVal ds % 10 ≠ 0 := by
  rcases List.eq_nil_or_concat ds with hq | ⟨q, u, rfl⟩
  · exact absurd hq h0
  · rw [List.concat_eq_append] at hl h ⊢
    rw [List.getLast?_concat] at hl
    rw [natVal_concat]
    obtain ⟨h1, h2⟩ := h u (by simp)
    have h3 : u.toNat ≠ 48 := fun h => hl (congrArg some (UInt8.toNat_inj.1 (by rw [h]; rfl)))
    simp only [UInt8.le_iff_toNat_le, UInt8.reduceToNat] at h1 h2
    omega

/-- The rest of a text does not go on with a digit. -/
def NoDigit (r : Bytes) : Prop := ∀ c t, r = c :: t → digitB c = false

theorem while_digits {l r : Bytes} (h : ∀ c ∈ l, Digit c) (hr : NoDigit r) :
    (l ++ r).takeWhile digitB = l ∧ (l ++ r).dropWhile digitB = r := by
  induction l with
  | nil =>
    cases r with
    | nil => simp
    | cons c t => simp [hr c t rfl]
  | cons c l ih =>
    have h1 := (digitB_iff c).2 (h c (by simp))
    obtain ⟨h2, h3⟩ := ih (fun c hc => h c (by simp [hc]))
    simp [h1, h2, h3]

theorem readSign_minus (neg : Bool) {l r : Bytes} (h : ∀ c ∈ l, Digit c) (h0 : l ≠ []) : readSign (minus neg ++ (l ++ r)) = (neg, l ++ r) := by
  cases neg with
  | true => rfl
  | false =>
    obtain ⟨c, t, rfl⟩ := List.exists_cons_of_ne_nil h0
    have hc : c ≠ 0x2d := by
      rintro rfl
      have := h 0x2d (by simp)
      revert this; unfold Digit; decide
    simp only [minus, Bool.false_eq_true, if_false, List.nil_append, List.cons_append]
    unfold readSign
    split
    · rename_i t' e; exact absurd (List.cons.inj e).1 hc
    · rfl

theorem readNum_eq (neg : Bool) {i r : Bytes} (h : ∀ c ∈ i, Digit c) (h0 : i ≠ []) (hr : NoDigit r) :
    readNum (minus neg ++ (i ++ r)) = (neg, natVal (i ++ (readFrac r).1), readExp (readFrac r).2 - (readFrac r).1.length) := by
  unfold readNum
  obtain ⟨h1, h2⟩ := while_digits h hr
  simp only [readSign_minus neg h h0, h1, h2]

theorem noDigit_nil : NoDigit [] := fun _ _ h => by cases h
theorem noDigit_cons {c : UInt8} {t : Bytes} (h : digitB c = false) : NoDigit (c :: t) := fun _ _ e => by cases e; exact h

theorem readExp_sign (z : Int) {ex : Bytes} (h : natVal ex = z.natAbs) : readExp (0x65 :: expSign z :: ex) = z := by
  unfold expSign
  split
  · show -(natVal ex : Int) = z; omega
  · show (natVal ex : Int) = z; omega

/-- A text in the manner of ECMAScript is worth what it is written for. -/
theorem es6_value {neg : Bool} {ds : Bytes} {n : Int} {t : Bytes} (h : Es6 neg ds n t) (hd : ∀ c ∈ ds, Digit c) (hz : ds = [] → n = 0) :
    ∃ j : Nat, readNum t = (neg, natVal ds * 10 ^ j, n - ds.length - j) := by
  cases h with
  | zero =>
    refine ⟨0, ?_⟩
    have := readNum_eq neg (i := [0x30]) (r := []) (by simp [Digit]) (by simp) noDigit_nil
    rw [hz rfl]
    simpa [readFrac, readExp, natVal] using this
  | whole ds n h1 h2 h3 =>
    refine ⟨n - ds.length, ?_⟩
    have hx : ∀ c ∈ ds ++ zeros (n - ds.length), Digit c := by
      intro c hc
      rcases List.mem_append.1 hc with hc | hc
      · exact hd c hc
      · exact zeros_digit c hc
    have := readNum_eq neg (i := ds ++ zeros (n - ds.length)) (r := []) hx (by simp [h1]) noDigit_nil
    rw [List.append_nil, ← List.append_assoc] at this
    rw [this]
    simp only [readFrac, readExp, List.append_nil, natVal_append, natVal_zeros, List.length_nil]
    simp only [zeros, List.length_replicate, Nat.add_zero, Prod.mk.injEq, true_and]
    omega
  | point l r h1 h2 h3 =>
    refine ⟨0, ?_⟩
    have := readNum_eq neg (i := l) (r := 0x2e :: r) (fun c hc => hd c (List.mem_append_left _ hc)) h1 (noDigit_cons (by decide))
    rw [← List.append_assoc] at this
    rw [this]
    obtain ⟨e1, e2⟩ := while_digits (l := r) (r := []) (fun c hc => hd c (List.mem_append_right _ hc)) noDigit_nil
    rw [List.append_nil] at e1 e2
    simp only [readFrac, e1, e2, readExp, Nat.pow_zero, Nat.mul_one, List.length_append, Prod.mk.injEq, true_and]
    omega
  | small ds n h1 h2 =>
    refine ⟨0, ?_⟩
    have hx : ∀ c ∈ zeros n ++ ds, Digit c := by
      intro c hc
      rcases List.mem_append.1 hc with hc | hc
      · exact zeros_digit c hc
      · exact hd c hc
    have := readNum_eq neg (i := [0x30]) (r := 0x2e :: (zeros n ++ ds)) (by simp [Digit]) (by simp) (noDigit_cons (by decide))
    have e : minus neg ++ [0x30, 0x2e] ++ zeros n ++ ds = minus neg ++ ([0x30] ++ 0x2e :: (zeros n ++ ds)) := by simp
    rw [e, this]
    obtain ⟨e1, e2⟩ := while_digits (l := zeros n ++ ds) (r := []) hx noDigit_nil
    rw [List.append_nil] at e1 e2
    have e3 : natVal ([0x30] ++ (zeros n ++ ds)) = natVal ds := by
      rw [natVal_append, natVal_append, natVal_zeros]; simp [natVal]
    have e4 : (zeros n).length = n := List.length_replicate
    simp only [readFrac, e1, e2, e3, readExp, Nat.pow_zero, Nat.mul_one, List.length_append, e4, Prod.mk.injEq, true_and]
    omega
  | exp1 d n ex h1 h2 h3 =>
    refine ⟨0, ?_⟩
    have := readNum_eq neg (i := [d]) (r := 0x65 :: expSign (n - 1) :: ex) (by simpa using hd) (by simp) (noDigit_cons (by decide))
    rw [← List.append_assoc] at this
    rw [this]
    have e : readFrac (0x65 :: expSign (n - 1) :: ex) = ([], 0x65 :: expSign (n - 1) :: ex) := rfl
    simp only [e, readExp_sign _ h3, List.append_nil, List.length_nil, List.length_cons, Nat.pow_zero, Nat.mul_one, Prod.mk.injEq, true_and]
    omega
  | exp d r n ex h0 h1 h2 h3 =>
    refine ⟨0, ?_⟩
    have := readNum_eq neg (i := [d]) (r := 0x2e :: (r ++ 0x65 :: expSign (n - 1) :: ex)) (by simpa using hd d (by simp)) (by simp) (noDigit_cons (by decide))
    have e : minus neg ++ [d] ++ 0x2e :: r ++ 0x65 :: expSign (n - 1) :: ex = minus neg ++ ([d] ++ 0x2e :: (r ++ 0x65 :: expSign (n - 1) :: ex)) := by simp
    rw [e, this]
    obtain ⟨e1, e2⟩ := while_digits (l := r) (r := 0x65 :: expSign (n - 1) :: ex) (fun c hc => hd c (by simp [hc])) (noDigit_cons (by decide))
    simp only [readFrac, e1, e2, readExp_sign _ h3, List.singleton_append, List.length_cons, Nat.pow_zero, Nat.mul_one, Prod.mk.injEq, true_and]
    omega

theorem sameNum_of {a j : Nat} {z z' : Int} (h : z' = z - j) : SameNum (a * 10 ^ j) z' a z := by
  unfold SameNum
  rw [show min z' z = z' by omega, show (z' - z').toNat = 0 by omega, show (z - z').toNat = j by omega]
  simp

theorem pow10_inj : ∀ (j k a b : Nat), a % 10 ≠ 0 → b % 10 ≠ 0 → a * 10 ^ j = b * 10 ^ k → j = k ∧ a = b
  | 0, 0, a, b, _, _, h => ⟨rfl, by simpa using h⟩
  | 0, k + 1, a, b, ha, _, h => by
    rw [Nat.pow_succ, ← Nat.mul_assoc] at h; omega
  | j + 1, 0, a, b, _, hb, h => by
    rw [Nat.pow_succ, ← Nat.mul_assoc] at h; omega
  | j + 1, k + 1, a, b, ha, hb, h => by
    rw [Nat.pow_succ, ← Nat.mul_assoc, Nat.pow_succ, ← Nat.mul_assoc] at h
    obtain ⟨h1, h2⟩ := pow10_inj j k a b ha hb (by omega)
    exact ⟨by omega, h2⟩

theorem dec10_jint {x : Dec10} (h : x.Ok) (h0 : x.ds ≠ []) : JInt x.ds := by
  have h1 := h.digits
  have h2 := h.first
  obtain ⟨d, r, hd⟩ := List.exists_cons_of_ne_nil h0
  rw [hd] at h1 h2 ⊢
  exact jint_cons h1 (by intro h; rw [h] at h2; exact h2 rfl)

theorem dec10_bounds {x : Dec10} (h : x.Ok) (h0 : x.ds ≠ []) : 10 ^ (x.ds.length - 1) ≤ natVal x.ds ∧ natVal x.ds < 10 ^ x.ds.length := by
  refine ⟨?_, natVal_lt h.digits⟩
  have h1 := h.digits
  have h2 := h.first
  obtain ⟨d, r, hd⟩ := List.exists_cons_of_ne_nil h0
  rw [hd] at h1 h2 ⊢
  exact natVal_ge h1 (by intro h; rw [h] at h2; exact h2 rfl)

/-- The size of a float is the position of its point. -/
theorem below_iff {x : Dec10} (h : x.Ok) (h0 : x.ds ≠ []) (k : Int) : Below (natVal x.ds) (x.pt - x.ds.length) k ↔ x.pt ≤ k := by
  obtain ⟨h1, h2⟩ := dec10_bounds h h0
  have hk : 0 < x.ds.length := List.length_pos_iff.2 h0
  have hp : ∀ n, 0 < 10 ^ n := fun n => Nat.pow_pos (by decide)
  unfold Below
  by_cases hz : x.pt - x.ds.length ≤ k
  · rw [show min (x.pt - x.ds.length) k = x.pt - x.ds.length by omega, Int.sub_self]
    simp only [Int.toNat_zero, Nat.pow_zero, Nat.mul_one]
    constructor
    · intro h3
      apply Classical.byContradiction
      intro h4
      have := Nat.pow_le_pow_right (n := 10) (by decide) (show (k - (x.pt - x.ds.length)).toNat ≤ x.ds.length - 1 by omega)
      omega
    · intro h3
      have := Nat.pow_le_pow_right (n := 10) (by decide) (show x.ds.length ≤ (k - (x.pt - x.ds.length)).toNat by omega)
      omega
  · rw [show min (x.pt - x.ds.length) k = k by omega, Int.sub_self]
    simp only [Int.toNat_zero, Nat.pow_zero]
    have h5 := hp (x.ds.length - 1)
    have h6 := Nat.mul_pos (show 0 < natVal x.ds by omega) (hp (x.pt - x.ds.length - k).toNat)
    constructor
    · intro; omega
    · intro; omega

end JC

import Verif.Model.Ascii
/-! Helper lemmas for the word-at-a-time checks of `ascii.go`. -/
namespace JC

/-- Byte `i` of a number in base 256. -/
def byteAt (D i : Nat) : Nat := D / 256 ^ i % 256

/-- `1 + 256 + ... + 256^(k-1)` -/
def ones256 : Nat → Nat
  | 0 => 0
  | k + 1 => 1 + 256 * ones256 k

theorem byteAt_zero (D : Nat) : byteAt D 0 = D % 256 := by simp [byteAt]

theorem byteAt_succ (c D i : Nat) (hc : c < 256) : byteAt (c + 256 * D) (i + 1) = byteAt D i := by
  unfold byteAt
  have : (c + 256 * D) / 256 ^ (i + 1) = D / 256 ^ i := by
    rw [Nat.pow_succ', ← Nat.div_div_eq_div_mul]
    congr 1
    omega
  rw [this]

theorem leNat_lt (bs : Bytes) : leNat bs < 256 ^ bs.length := by
  induction bs with
  | nil => simp [leNat]
  | cons b bs ih =>
    have := b.toNat_lt
    simp only [leNat, List.length_cons, Nat.pow_succ]
    omega

theorem add_mul_mod (c X M : Nat) (hc : c < 256) (hM : 0 < M) :
    (c + 256 * X) % (256 * M) = c + 256 * (X % M) := by
  have h1 : X = M * (X / M) + X % M := (Nat.div_add_mod X M).symm
  have h2 := Nat.mod_lt X hM
  have h3 : c + 256 * X = (c + 256 * (X % M)) + 256 * M * (X / M) := by
    conv => lhs; rw [h1]
    rw [Nat.mul_add, Nat.mul_assoc]; omega
  rw [h3, Nat.add_mul_mod_self_left, Nat.mod_eq_of_lt]
  omega

/-- the subtraction of `hasLess`, with the wrap-around written out -/
def lessDiff (bs : Bytes) (n : Nat) : Nat :=
  (leNat bs + (256 ^ bs.length - ones256 bs.length * n)) % 256 ^ bs.length

theorem ones256_mul_lt (k n : Nat) (hn : n ≤ 128) : ones256 k * n < 256 ^ k := by
  have : ones256 k * 255 + 1 = 256 ^ k := by
    induction k with
    | zero => simp [ones256]
    | succ k ih =>
      rw [Nat.pow_succ']
      simp only [ones256]
      have : (1 + 256 * ones256 k) * 255 = 255 + 256 * (ones256 k * 255) := by
        rw [Nat.add_mul, Nat.mul_assoc]
      rw [this, ← ih]; omega
  have h2 : ones256 k * n ≤ ones256 k * 255 := Nat.mul_le_mul_left _ (by omega)
  omega

theorem lessDiff_ge (b : UInt8) (bs : Bytes) (n : Nat) (hn : n ≤ 128) (hb : n ≤ b.toNat) :
    lessDiff (b :: bs) n = (b.toNat - n) + 256 * lessDiff bs n := by
  unfold lessDiff
  have h0 := ones256_mul_lt bs.length n hn
  have hbl := b.toNat_lt
  have e : leNat (b :: bs) + (256 ^ (b :: bs).length - ones256 (b :: bs).length * n)
      = (b.toNat - n) + 256 * (leNat bs + (256 ^ bs.length - ones256 bs.length * n)) := by
    simp only [leNat, List.length_cons, ones256, Nat.pow_succ', Nat.add_mul, Nat.mul_assoc]
    omega
  rw [e, List.length_cons, Nat.pow_succ', add_mul_mod _ _ _ (by omega) (Nat.pow_pos (by omega))]

theorem lessDiff_lt (b : UInt8) (bs : Bytes) (n : Nat) (hn : n ≤ 128) (hb : b.toNat < n) :
    lessDiff (b :: bs) n % 256 = b.toNat + 256 - n := by
  unfold lessDiff
  have h0 := ones256_mul_lt bs.length n hn
  rw [List.length_cons, Nat.pow_succ', Nat.mod_mul_right_mod]
  simp only [leNat, ones256, Nat.add_mul, Nat.mul_assoc]
  omega

theorem less_iff (bs : Bytes) (n : Nat) (hn : n ≤ 128) :
    (∃ i, i < bs.length ∧ 128 ≤ byteAt (lessDiff bs n) i ∧ byteAt (leNat bs) i < 128) ↔
    ∃ b ∈ bs, b.toNat < n := by
  induction bs with
  | nil => simp
  | cons b bs ih =>
    have hbl := b.toNat_lt
    by_cases hb : b.toNat < n
    · constructor
      · intro _; exact ⟨b, by simp, hb⟩
      · intro _
        refine ⟨0, by simp, ?_, ?_⟩
        · rw [byteAt_zero, lessDiff_lt b bs n hn hb]; omega
        · rw [byteAt_zero]; simp only [leNat]; omega
    · have hb' : n ≤ b.toNat := by omega
      rw [lessDiff_ge b bs n hn hb']
      constructor
      · rintro ⟨i, hi, h1, h2⟩
        cases i with
        | zero =>
          rw [byteAt_zero] at h1 h2
          simp only [leNat] at h2
          omega
        | succ i =>
          rw [byteAt_succ _ _ _ (by omega)] at h1
          simp only [leNat] at h2
          rw [byteAt_succ _ _ _ (by omega)] at h2
          obtain ⟨c, hc, hlt⟩ := ih.1 ⟨i, by simpa using hi, h1, h2⟩
          exact ⟨c, by simp [hc], hlt⟩
      · rintro ⟨c, hc, hlt⟩
        have hcb : c ∈ bs := by
          rcases List.mem_cons.1 hc with rfl | h
          · omega
          · exact h
        obtain ⟨i, hi, h1, h2⟩ := ih.2 ⟨c, hcb, hlt⟩
        refine ⟨i + 1, by simpa using hi, ?_, ?_⟩
        · rw [byteAt_succ _ _ _ (by omega)]; exact h1
        · simp only [leNat]; rw [byteAt_succ _ _ _ (by omega)]; exact h2

/-- the addition of `hasMore`, with the wrap-around written out -/
def moreSum (bs : Bytes) (c : Nat) : Nat :=
  (leNat bs + ones256 bs.length * c) % 256 ^ bs.length

theorem moreSum_cons (b : UInt8) (bs : Bytes) (c : Nat) (hb : b.toNat + c < 256) :
    moreSum (b :: bs) c = (b.toNat + c) + 256 * moreSum bs c := by
  unfold moreSum
  have e : leNat (b :: bs) + ones256 (b :: bs).length * c
      = (b.toNat + c) + 256 * (leNat bs + ones256 bs.length * c) := by
    simp only [leNat, List.length_cons, ones256, Nat.add_mul, Nat.mul_assoc]
    omega
  rw [e, List.length_cons, Nat.pow_succ', add_mul_mod _ _ _ hb (Nat.pow_pos (by omega))]

theorem more_iff (bs : Bytes) (n : Nat) (hn : n ≤ 127) :
    (∃ i, i < bs.length ∧ (128 ≤ byteAt (moreSum bs (127 - n)) i ∨ 128 ≤ byteAt (leNat bs) i)) ↔
    ∃ b ∈ bs, n < b.toNat := by
  induction bs with
  | nil => simp
  | cons b bs ih =>
    have hbl := b.toNat_lt
    by_cases hb : n < b.toNat
    · constructor
      · intro _; exact ⟨b, by simp, hb⟩
      · intro _
        refine ⟨0, by simp, ?_⟩
        rw [byteAt_zero, byteAt_zero]
        by_cases h128 : 128 ≤ b.toNat
        · right; simp only [leNat]; omega
        · left
          rw [moreSum_cons _ _ _ (by omega)]; omega
    · rw [moreSum_cons _ _ _ (by omega)]
      constructor
      · rintro ⟨i, hi, h⟩
        cases i with
        | zero =>
          rw [byteAt_zero, byteAt_zero] at h
          simp only [leNat] at h
          omega
        | succ i =>
          simp only [leNat] at h
          rw [byteAt_succ _ _ _ (by omega), byteAt_succ _ _ _ (by omega)] at h
          obtain ⟨c, hc, hlt⟩ := ih.1 ⟨i, by simpa using hi, h⟩
          exact ⟨c, by simp [hc], hlt⟩
      · rintro ⟨c, hc, hlt⟩
        have hcb : c ∈ bs := by
          rcases List.mem_cons.1 hc with rfl | h
          · omega
          · exact h
        obtain ⟨i, hi, h⟩ := ih.2 ⟨c, hcb, hlt⟩
        refine ⟨i + 1, by simpa using hi, ?_⟩
        simp only [leNat]
        rw [byteAt_succ _ _ _ (by omega), byteAt_succ _ _ _ (by omega)]; exact h

theorem testBit_byteAt (D i : Nat) : D.testBit (8 * i + 7) = decide (128 ≤ byteAt D i) := by
  have h : D.testBit (8 * i + 7) = decide (D / 2 ^ (8 * i + 7) % 2 = 1) := by
    rw [Nat.testBit_eq_decide_div_mod_eq]
  rw [h]
  have e : D / 2 ^ (8 * i + 7) = D / 256 ^ i / 128 := by
    rw [Nat.pow_add, Nat.pow_mul, ← Nat.div_div_eq_div_mul]
  rw [e]
  unfold byteAt
  generalize D / 256 ^ i = y
  have : (y / 128 % 2 = 1) ↔ 128 ≤ y % 256 := by omega
  simp only [this]

theorem R64_bit (j : Nat) (hj : j < 64) : (R64.toBitVec.getLsbD j) = decide (j % 8 = 7) := by
  have : ∀ j : Fin 64, (R64.toBitVec.getLsbD j.val) = decide (j.val % 8 = 7) := by decide +kernel
  exact this ⟨j, hj⟩

theorem R32_bit (j : Nat) (hj : j < 32) : (R32.toBitVec.getLsbD j) = decide (j % 8 = 7) := by
  have : ∀ j : Fin 32, (R32.toBitVec.getLsbD j.val) = decide (j.val % 8 = 7) := by decide +kernel
  exact this ⟨j, hj⟩

theorem and_R64_ne_zero (x : UInt64) :
    ((x &&& R64) != 0) = true ↔ ∃ i, i < 8 ∧ 128 ≤ byteAt x.toNat i := by
  rw [bne_iff_ne, ne_eq, ← UInt64.toBitVec_inj]
  constructor
  · intro h
    have h2 : ∃ j, j < 64 ∧ (x &&& R64).toBitVec.getLsbD j = true := by
      apply Classical.byContradiction
      intro hn
      apply h
      apply BitVec.eq_of_getLsbD_eq
      intro j hj
      have : ¬ (x &&& R64).toBitVec.getLsbD j = true := fun hh => hn ⟨j, hj, hh⟩
      simp only [Bool.not_eq_true] at this
      rw [this]
      simp
    obtain ⟨j, hj, hb⟩ := h2
    rw [UInt64.toBitVec_and, BitVec.getLsbD_and, R64_bit j hj, Bool.and_eq_true, decide_eq_true_eq] at hb
    have hj7 : j = 8 * (j / 8) + 7 := by omega
    refine ⟨j / 8, by omega, ?_⟩
    have hb1 := hb.1
    rw [hj7] at hb1
    have hb2 : x.toNat.testBit (8 * (j / 8) + 7) = true := hb1
    rw [testBit_byteAt] at hb2
    simpa using hb2
  · rintro ⟨i, hi, h⟩ hz
    have hb : (x &&& R64).toBitVec.getLsbD (8 * i + 7) = true := by
      rw [UInt64.toBitVec_and, BitVec.getLsbD_and, R64_bit _ (by omega), Bool.and_eq_true]
      refine ⟨?_, by simp⟩
      show x.toNat.testBit (8 * i + 7) = true
      rw [testBit_byteAt]; simpa using h
    rw [hz] at hb
    simp at hb

theorem and_R32_ne_zero (x : UInt32) :
    ((x &&& R32) != 0) = true ↔ ∃ i, i < 4 ∧ 128 ≤ byteAt x.toNat i := by
  rw [bne_iff_ne, ne_eq, ← UInt32.toBitVec_inj]
  constructor
  · intro h
    have h2 : ∃ j, j < 32 ∧ (x &&& R32).toBitVec.getLsbD j = true := by
      apply Classical.byContradiction
      intro hn
      apply h
      apply BitVec.eq_of_getLsbD_eq
      intro j hj
      have : ¬ (x &&& R32).toBitVec.getLsbD j = true := fun hh => hn ⟨j, hj, hh⟩
      simp only [Bool.not_eq_true] at this
      rw [this]
      simp
    obtain ⟨j, hj, hb⟩ := h2
    rw [UInt32.toBitVec_and, BitVec.getLsbD_and, R32_bit j hj, Bool.and_eq_true, decide_eq_true_eq] at hb
    have hj7 : j = 8 * (j / 8) + 7 := by omega
    refine ⟨j / 8, by omega, ?_⟩
    have hb1 := hb.1
    rw [hj7] at hb1
    have hb2 : x.toNat.testBit (8 * (j / 8) + 7) = true := hb1
    rw [testBit_byteAt] at hb2
    simpa using hb2
  · rintro ⟨i, hi, h⟩ hz
    have hb : (x &&& R32).toBitVec.getLsbD (8 * i + 7) = true := by
      rw [UInt32.toBitVec_and, BitVec.getLsbD_and, R32_bit _ (by omega), Bool.and_eq_true]
      refine ⟨?_, by simp⟩
      show x.toNat.testBit (8 * i + 7) = true
      rw [testBit_byteAt]; simpa using h
    rw [hz] at hb
    simp at hb

theorem testBit_and_not64 (y x : UInt64) (i : Nat) (hi : i < 8) :
    128 ≤ byteAt (y &&& ~~~x).toNat i ↔ 128 ≤ byteAt y.toNat i ∧ byteAt x.toNat i < 128 := by
  have h1 := testBit_byteAt (y &&& ~~~x).toNat i
  have h2 := testBit_byteAt y.toNat i
  have h3 := testBit_byteAt x.toNat i
  have e : (y &&& ~~~x).toNat.testBit (8*i+7) = (y.toNat.testBit (8*i+7) && !x.toNat.testBit (8*i+7)) := by
    show (y &&& ~~~x).toBitVec.getLsbD (8*i+7) = _
    rw [UInt64.toBitVec_and, BitVec.getLsbD_and, UInt64.toBitVec_not, BitVec.getLsbD_not]
    have : 8*i+7 < 64 := by omega
    simp only [this, decide_true, Bool.true_and]
    rfl
  rw [h1, h2, h3] at e
  have := congrArg (· = true) e
  simp only [Bool.and_eq_true, decide_eq_true_eq, Bool.not_eq_true', decide_eq_false_iff_not, eq_iff_iff, Nat.not_le] at this
  exact this

theorem testBit_and_not32 (y x : UInt32) (i : Nat) (hi : i < 4) :
    128 ≤ byteAt (y &&& ~~~x).toNat i ↔ 128 ≤ byteAt y.toNat i ∧ byteAt x.toNat i < 128 := by
  have h1 := testBit_byteAt (y &&& ~~~x).toNat i
  have h2 := testBit_byteAt y.toNat i
  have h3 := testBit_byteAt x.toNat i
  have e : (y &&& ~~~x).toNat.testBit (8*i+7) = (y.toNat.testBit (8*i+7) && !x.toNat.testBit (8*i+7)) := by
    show (y &&& ~~~x).toBitVec.getLsbD (8*i+7) = _
    rw [UInt32.toBitVec_and, BitVec.getLsbD_and, UInt32.toBitVec_not, BitVec.getLsbD_not]
    have : 8*i+7 < 32 := by omega
    simp only [this, decide_true, Bool.true_and]
    rfl
  rw [h1, h2, h3] at e
  have := congrArg (· = true) e
  simp only [Bool.and_eq_true, decide_eq_true_eq, Bool.not_eq_true', decide_eq_false_iff_not, eq_iff_iff, Nat.not_le] at this
  exact this

theorem testBit_or64 (y x : UInt64) (i : Nat) :
    128 ≤ byteAt (y ||| x).toNat i ↔ 128 ≤ byteAt y.toNat i ∨ 128 ≤ byteAt x.toNat i := by
  have h1 := testBit_byteAt (y ||| x).toNat i
  have h2 := testBit_byteAt y.toNat i
  have h3 := testBit_byteAt x.toNat i
  rw [UInt64.toNat_or, Nat.testBit_or, h2, h3] at h1
  have := congrArg (· = true) h1
  simp only [Bool.or_eq_true, decide_eq_true_eq, eq_iff_iff] at this
  rw [UInt64.toNat_or]
  exact this.symm

theorem testBit_or32 (y x : UInt32) (i : Nat) :
    128 ≤ byteAt (y ||| x).toNat i ↔ 128 ≤ byteAt y.toNat i ∨ 128 ≤ byteAt x.toNat i := by
  have h1 := testBit_byteAt (y ||| x).toNat i
  have h2 := testBit_byteAt y.toNat i
  have h3 := testBit_byteAt x.toNat i
  rw [UInt32.toNat_or, Nat.testBit_or, h2, h3] at h1
  have := congrArg (· = true) h1
  simp only [Bool.or_eq_true, decide_eq_true_eq, eq_iff_iff] at this
  rw [UInt32.toNat_or]
  exact this.symm

theorem L64_toNat : L64.toNat = ones256 8 := by decide +kernel
theorem L32_toNat : L32.toNat = ones256 4 := by decide +kernel

theorem hasLess64_iff (bs : Bytes) (h8 : bs.length = 8) (n : UInt64) (hn : n.toNat ≤ 128) :
    hasLess64 (UInt64.ofNat (leNat bs)) n = true ↔ ∃ b ∈ bs, b.toNat < n.toNat := by
  unfold hasLess64
  have hx : (UInt64.ofNat (leNat bs)).toNat = leNat bs := by
    have := leNat_lt bs
    rw [h8] at this
    simp [UInt64.toNat_ofNat']; omega
  have hd : ((UInt64.ofNat (leNat bs)) - L64 * n).toNat = lessDiff bs n.toNat := by
    have h0 := ones256_mul_lt 8 n.toNat hn
    rw [UInt64.toNat_sub, UInt64.toNat_mul, hx, L64_toNat, Nat.mod_eq_of_lt (a := ones256 8 * n.toNat) h0, lessDiff, h8]
    congr 1
    omega
  rw [and_R64_ne_zero, ← less_iff bs n.toNat hn, h8]
  constructor
  · rintro ⟨i, hi, h⟩
    rw [testBit_and_not64 _ _ _ hi, hd, hx] at h
    exact ⟨i, hi, h⟩
  · rintro ⟨i, hi, h⟩
    refine ⟨i, hi, ?_⟩
    rw [testBit_and_not64 _ _ _ hi, hd, hx]
    exact h

theorem hasLess32_iff (bs : Bytes) (h8 : bs.length = 4) (n : UInt32) (hn : n.toNat ≤ 128) :
    hasLess32 (UInt32.ofNat (leNat bs)) n = true ↔ ∃ b ∈ bs, b.toNat < n.toNat := by
  unfold hasLess32
  have hx : (UInt32.ofNat (leNat bs)).toNat = leNat bs := by
    have := leNat_lt bs
    rw [h8] at this
    simp [UInt32.toNat_ofNat']; omega
  have hd : ((UInt32.ofNat (leNat bs)) - L32 * n).toNat = lessDiff bs n.toNat := by
    have h0 := ones256_mul_lt 4 n.toNat hn
    rw [UInt32.toNat_sub, UInt32.toNat_mul, hx, L32_toNat, Nat.mod_eq_of_lt (a := ones256 4 * n.toNat) h0, lessDiff, h8]
    congr 1
    omega
  rw [and_R32_ne_zero, ← less_iff bs n.toNat hn, h8]
  constructor
  · rintro ⟨i, hi, h⟩
    rw [testBit_and_not32 _ _ _ hi, hd, hx] at h
    exact ⟨i, hi, h⟩
  · rintro ⟨i, hi, h⟩
    refine ⟨i, hi, ?_⟩
    rw [testBit_and_not32 _ _ _ hi, hd, hx]
    exact h

theorem hasMore64_iff (bs : Bytes) (h8 : bs.length = 8) (n : UInt64) (hn : n.toNat ≤ 127) :
    hasMore64 (UInt64.ofNat (leNat bs)) n = true ↔ ∃ b ∈ bs, n.toNat < b.toNat := by
  unfold hasMore64
  have hx : (UInt64.ofNat (leNat bs)).toNat = leNat bs := by
    have := leNat_lt bs
    rw [h8] at this
    simp [UInt64.toNat_ofNat']; omega
  have hc : ((127 : UInt64) - n).toNat = 127 - n.toNat := by
    rw [UInt64.toNat_sub_of_le _ _ (by rw [UInt64.le_iff_toNat_le]; exact hn)]; rfl
  have hd : ((UInt64.ofNat (leNat bs)) + L64 * (127 - n)).toNat = moreSum bs (127 - n.toNat) := by
    have h0 := ones256_mul_lt 8 (127 - n.toNat) (by omega)
    rw [UInt64.toNat_add, UInt64.toNat_mul, hx, hc, L64_toNat, Nat.mod_eq_of_lt (a := ones256 8 * _) h0, moreSum, h8]
  rw [and_R64_ne_zero, ← more_iff bs n.toNat hn, h8]
  constructor
  · rintro ⟨i, hi, h⟩
    rw [testBit_or64, hd, hx] at h
    exact ⟨i, hi, h⟩
  · rintro ⟨i, hi, h⟩
    refine ⟨i, hi, ?_⟩
    rw [testBit_or64, hd, hx]
    exact h

theorem hasMore32_iff (bs : Bytes) (h8 : bs.length = 4) (n : UInt32) (hn : n.toNat ≤ 127) :
    hasMore32 (UInt32.ofNat (leNat bs)) n = true ↔ ∃ b ∈ bs, n.toNat < b.toNat := by
  unfold hasMore32
  have hx : (UInt32.ofNat (leNat bs)).toNat = leNat bs := by
    have := leNat_lt bs
    rw [h8] at this
    simp [UInt32.toNat_ofNat']; omega
  have hc : ((127 : UInt32) - n).toNat = 127 - n.toNat := by
    rw [UInt32.toNat_sub_of_le _ _ (by rw [UInt32.le_iff_toNat_le]; exact hn)]; rfl
  have hd : ((UInt32.ofNat (leNat bs)) + L32 * (127 - n)).toNat = moreSum bs (127 - n.toNat) := by
    have h0 := ones256_mul_lt 4 (127 - n.toNat) (by omega)
    rw [UInt32.toNat_add, UInt32.toNat_mul, hx, hc, L32_toNat, Nat.mod_eq_of_lt (a := ones256 4 * _) h0, moreSum, h8]
  rw [and_R32_ne_zero, ← more_iff bs n.toNat hn, h8]
  constructor
  · rintro ⟨i, hi, h⟩
    rw [testBit_or32, hd, hx] at h
    exact ⟨i, hi, h⟩
  · rintro ⟨i, hi, h⟩
    refine ⟨i, hi, ?_⟩
    rw [testBit_or32, hd, hx]
    exact h

theorem ofNat32_toNat (n : Nat) (h : n < 2 ^ 32) : (UInt32.ofNat n).toNat = n := by
  simp [UInt32.toNat_ofNat']; omega

theorem or_low (a b k : Nat) (h : b < 2 ^ k) : a * 2 ^ k ||| b = a * 2 ^ k + b := by
  rw [← Nat.shiftLeft_eq, ← Nat.shiftLeft_add_eq_or_of_lt h]

theorem word3 (b0 b1 b2 p : UInt8) :
    (UInt32.ofNat (p.toNat * 2 ^ 24) ||| UInt32.ofNat (leNat [b0])) ||| (UInt32.ofNat (leNat [b1, b2]) <<< 8)
      = UInt32.ofNat (leNat [b0, b1, b2, p]) := by
  have h0 := b0.toNat_lt
  have h1 := b1.toNat_lt
  have h2 := b2.toNat_lt
  have hp := p.toNat_lt
  apply UInt32.toNat_inj.1
  rw [UInt32.toNat_or, UInt32.toNat_or, UInt32.toNat_shiftLeft]
  rw [ofNat32_toNat _ (by omega), ofNat32_toNat _ (by simp only [leNat]; omega),
    ofNat32_toNat _ (by simp only [leNat]; omega), ofNat32_toNat _ (by simp only [leNat]; omega)]
  have e8 : (8 : UInt32).toNat % 32 = 8 := by decide
  rw [e8, Nat.shiftLeft_eq, Nat.mod_eq_of_lt (by simp only [leNat]; omega)]
  simp only [leNat]
  rw [Nat.or_assoc, Nat.or_comm (b0.toNat + 256 * 0), or_low _ (b0.toNat + 256 * 0) 8 (by omega), or_low _ _ _ (by omega)]
  omega

theorem word2 (b0 b1 p : UInt8) (q : UInt8) :
    UInt32.ofNat (p.toNat * 2 ^ 24 + q.toNat * 2 ^ 16) ||| UInt32.ofNat (leNat [b0, b1])
      = UInt32.ofNat (leNat [b0, b1, q, p]) := by
  have h0 := b0.toNat_lt
  have h1 := b1.toNat_lt
  have h2 := q.toNat_lt
  have hp := p.toNat_lt
  apply UInt32.toNat_inj.1
  rw [UInt32.toNat_or]
  rw [ofNat32_toNat _ (by omega), ofNat32_toNat _ (by simp only [leNat]; omega),
    ofNat32_toNat _ (by simp only [leNat]; omega)]
  have e : p.toNat * 2 ^ 24 + q.toNat * 2 ^ 16 = (p.toNat * 2 ^ 8 + q.toNat) * 2 ^ 16 := by omega
  simp only [leNat]
  rw [e, or_low _ _ _ (by omega)]
  generalize b0.toNat = x0 at *
  generalize p.toNat = x1 at *
  generalize q.toNat = x2 at *
  clear e
  omega

theorem word1 (b0 p q r : UInt8) :
    UInt32.ofNat (p.toNat * 2 ^ 24 + q.toNat * 2 ^ 16 + r.toNat * 2 ^ 8) ||| UInt32.ofNat (leNat [b0])
      = UInt32.ofNat (leNat [b0, r, q, p]) := by
  have h0 := b0.toNat_lt
  have h1 := r.toNat_lt
  have h2 := q.toNat_lt
  have hp := p.toNat_lt
  apply UInt32.toNat_inj.1
  rw [UInt32.toNat_or]
  rw [ofNat32_toNat _ (by omega), ofNat32_toNat _ (by simp only [leNat]; omega),
    ofNat32_toNat _ (by simp only [leNat]; omega)]
  have e : p.toNat * 2 ^ 24 + q.toNat * 2 ^ 16 + r.toNat * 2 ^ 8
    = (p.toNat * 2 ^ 16 + q.toNat * 2 ^ 8 + r.toNat) * 2 ^ 8 := by omega
  simp only [leNat]
  rw [e, or_low _ _ _ (by omega)]
  generalize b0.toNat = x0 at *
  generalize p.toNat = x1 at *
  generalize q.toNat = x2 at *
  clear e
  omega

/-- printable ASCII, byte by byte -/
def isPrint (c : UInt8) : Bool := 0x20 ≤ c && c ≤ 0x7e

theorem isPrint_false_iff (c : UInt8) : ¬ isPrint c = true ↔ c.toNat < 32 ∨ 126 < c.toNat := by
  simp only [isPrint, Bool.and_eq_true, decide_eq_true_eq, UInt8.le_iff_toNat_le]
  have e1 : (0x20 : UInt8).toNat = 32 := rfl
  have e2 : (0x7e : UInt8).toNat = 126 := rfl
  rw [e1, e2]
  omega

theorem check64 (bs : Bytes) (h : bs.length = 8) :
    (hasLess64 (UInt64.ofNat (leNat bs)) 0x20 || hasMore64 (UInt64.ofNat (leNat bs)) 0x7e) = !bs.all isPrint := by
  rw [Bool.eq_iff_iff, Bool.or_eq_true, hasLess64_iff bs h _ (by decide), hasMore64_iff bs h _ (by decide)]
  simp only [Bool.not_eq_true', List.all_eq_false, isPrint_false_iff]
  constructor
  · rintro (⟨b, hb, h⟩ | ⟨b, hb, h⟩)
    · exact ⟨b, hb, .inl h⟩
    · exact ⟨b, hb, .inr h⟩
  · rintro ⟨b, hb, h | h⟩
    · exact .inl ⟨b, hb, h⟩
    · exact .inr ⟨b, hb, h⟩

theorem check32 (bs : Bytes) (h : bs.length = 4) :
    (hasLess32 (UInt32.ofNat (leNat bs)) 0x20 || hasMore32 (UInt32.ofNat (leNat bs)) 0x7e) = !bs.all isPrint := by
  rw [Bool.eq_iff_iff, Bool.or_eq_true, hasLess32_iff bs h _ (by decide), hasMore32_iff bs h _ (by decide)]
  simp only [Bool.not_eq_true', List.all_eq_false, isPrint_false_iff]
  constructor
  · rintro (⟨b, hb, h⟩ | ⟨b, hb, h⟩)
    · exact ⟨b, hb, .inl h⟩
    · exact ⟨b, hb, .inr h⟩
  · rintro ⟨b, hb, h | h⟩
    · exact .inl ⟨b, hb, h⟩
    · exact .inr ⟨b, hb, h⟩

theorem check32' (bs : Bytes) (h : bs.length = 4) :
    (!hasLess32 (UInt32.ofNat (leNat bs)) 0x20 && !hasMore32 (UInt32.ofNat (leNat bs)) 0x7e) = bs.all isPrint := by
  rw [← Bool.not_or, check32 bs h, Bool.not_not]

theorem asciiValidPrintTail4_eq (b : Bytes) (h : b.length < 4) : asciiValidPrintTail4 b = b.all isPrint := by
  match b, h with
  | [], _ => rfl
  | [b0], _ =>
    have e := word1 b0 0x20 0x20 0x20
    have e2 := check32' [b0, 0x20, 0x20, 0x20] rfl
    rw [← e] at e2
    have e3 : [b0, 0x20, 0x20, 0x20].all isPrint = [b0].all isPrint := by
      simp [isPrint]
    rw [e3] at e2
    rw [← e2]
    rfl
  | [b0, b1], _ =>
    have e := word2 b0 b1 0x20 0x20
    have e2 := check32' [b0, b1, 0x20, 0x20] rfl
    rw [← e] at e2
    have e3 : [b0, b1, 0x20, 0x20].all isPrint = [b0, b1].all isPrint := by
      simp [isPrint]
    rw [e3] at e2
    rw [← e2]
    rfl
  | [b0, b1, b2], _ =>
    have e := word3 b0 b1 b2 0x20
    have e2 := check32' [b0, b1, b2, 0x20] rfl
    rw [← e] at e2
    have e3 : [b0, b1, b2, 0x20].all isPrint = [b0, b1, b2].all isPrint := by
      simp [isPrint]
    rw [e3] at e2
    rw [← e2]
    rfl
  | _ :: _ :: _ :: _ :: _, h => simp at h; omega

theorem asciiValidPrintTail_eq (b : Bytes) (h : b.length < 8) : asciiValidPrintTail b = b.all isPrint := by
  unfold asciiValidPrintTail
  split
  · rename_i h4
    have h4' : (b.take 4).length = 4 := by simp; omega
    unfold load32
    rw [check32 _ h4', asciiValidPrintTail4_eq _ (by simp; omega)]
    conv => rhs; rw [← List.take_append_drop 4 b, List.all_append]
    cases (b.take 4).all isPrint <;> simp
  · exact asciiValidPrintTail4_eq b (by omega)

theorem asciiValidPrint_eq (b : Bytes) : asciiValidPrint b = b.all isPrint := by
  fun_induction asciiValidPrint b with
  | case1 b0 b1 b2 b3 b4 b5 b6 b7 rest x hx =>
    have hx' : (hasLess64 (UInt64.ofNat (leNat [b0, b1, b2, b3, b4, b5, b6, b7])) 0x20 ||
      hasMore64 (UInt64.ofNat (leNat [b0, b1, b2, b3, b4, b5, b6, b7])) 0x7e) = true := hx
    rw [check64 _ rfl] at hx'
    show false = ([b0, b1, b2, b3, b4, b5, b6, b7] ++ rest).all isPrint
    rw [List.all_append]
    simp only [Bool.not_eq_true'] at hx'
    rw [hx']; rfl
  | case2 b0 b1 b2 b3 b4 b5 b6 b7 rest x hx ih =>
    have hx' : ¬ (hasLess64 (UInt64.ofNat (leNat [b0, b1, b2, b3, b4, b5, b6, b7])) 0x20 ||
      hasMore64 (UInt64.ofNat (leNat [b0, b1, b2, b3, b4, b5, b6, b7])) 0x7e) = true := hx
    rw [check64 _ rfl] at hx'
    show asciiValidPrint rest = ([b0, b1, b2, b3, b4, b5, b6, b7] ++ rest).all isPrint
    rw [List.all_append]
    simp only [Bool.not_eq_true', Bool.not_eq_false] at hx'
    rw [hx', ih]; rfl
  | case3 b hb =>
    apply asciiValidPrintTail_eq
    match b, hb with
    | [], _ => simp
    | [_], _ => simp
    | [_, _], _ => simp
    | [_, _, _], _ => simp
    | [_, _, _, _], _ => simp
    | [_, _, _, _, _], _ => simp
    | [_, _, _, _, _, _], _ => simp
    | [_, _, _, _, _, _, _], _ => simp
    | b0 :: b1 :: b2 :: b3 :: b4 :: b5 :: b6 :: b7 :: rest, hb => exact absurd rfl (hb b0 b1 b2 b3 b4 b5 b6 b7 rest)

theorem exists_byteAt (bs : Bytes) :
    (∃ i, i < bs.length ∧ 128 ≤ byteAt (leNat bs) i) ↔ ∃ b ∈ bs, 128 ≤ b.toNat := by
  have h := more_iff bs 127 (by omega)
  have e : moreSum bs (127 - 127) = leNat bs := by
    simp [moreSum, Nat.mod_eq_of_lt (leNat_lt bs)]
  rw [e] at h
  simp only [or_self] at h
  exact h

/-- ASCII, byte by byte -/
def isAscii (c : UInt8) : Bool := c < 0x80

theorem isAscii_false_iff (c : UInt8) : ¬ isAscii c = true ↔ 128 ≤ c.toNat := by
  simp only [isAscii, decide_eq_true_eq, UInt8.lt_iff_toNat_lt]
  have e1 : (0x80 : UInt8).toNat = 128 := rfl
  rw [e1]
  omega

theorem mask64 (bs : Bytes) (h : bs.length = 8) :
    ((UInt64.ofNat (leNat bs) &&& 0x8080808080808080) != 0) = !bs.all isAscii := by
  have eR : (0x8080808080808080 : UInt64) = R64 := by decide +kernel
  have hx : (UInt64.ofNat (leNat bs)).toNat = leNat bs := by
    have := leNat_lt bs
    rw [h] at this
    simp [UInt64.toNat_ofNat']; omega
  rw [eR, Bool.eq_iff_iff, and_R64_ne_zero, hx, ← h, exists_byteAt]
  simp only [Bool.not_eq_true', List.all_eq_false, isAscii_false_iff]

theorem mask32 (bs : Bytes) (h : bs.length = 4) :
    ((UInt32.ofNat (leNat bs) &&& 0x80808080) != 0) = !bs.all isAscii := by
  have eR : (0x80808080 : UInt32) = R32 := by decide +kernel
  have hx : (UInt32.ofNat (leNat bs)).toNat = leNat bs := by
    have := leNat_lt bs
    rw [h] at this
    exact ofNat32_toNat _ (by omega)
  rw [eR, Bool.eq_iff_iff, and_R32_ne_zero, hx, ← h, exists_byteAt]
  simp only [Bool.not_eq_true', List.all_eq_false, isAscii_false_iff]

theorem mask32' (bs : Bytes) (h : bs.length = 4) :
    ((UInt32.ofNat (leNat bs) &&& 0x80808080) == 0) = bs.all isAscii := by
  have := mask32 bs h
  rw [bne] at this
  exact Bool.not_inj this

theorem asciiValidTail4_eq (b : Bytes) (h : b.length < 4) : asciiValidTail4 b = b.all isAscii := by
  match b, h with
  | [], _ => rfl
  | [b0], _ =>
    have e2 := mask32' [b0, 0, 0, 0] rfl
    have e3 : [b0, 0, 0, 0].all isAscii = [b0].all isAscii := by
      simp [isAscii]
    rw [e3] at e2
    rw [← e2]
    rfl
  | [b0, b1], _ =>
    have e2 := mask32' [b0, b1, 0, 0] rfl
    have e3 : [b0, b1, 0, 0].all isAscii = [b0, b1].all isAscii := by
      simp [isAscii]
    rw [e3] at e2
    rw [← e2]
    rfl
  | [b0, b1, b2], _ =>
    have e := word3 b0 b1 b2 0
    have e2 := mask32' [b0, b1, b2, 0] rfl
    rw [← e] at e2
    have e3 : [b0, b1, b2, 0].all isAscii = [b0, b1, b2].all isAscii := by
      simp [isAscii]
    rw [e3] at e2
    rw [← e2]
    have e4 : UInt32.ofNat ((0 : UInt8).toNat * 2 ^ 24) ||| UInt32.ofNat (leNat [b0]) = UInt32.ofNat (leNat [b0]) := by
      simp
    rw [e4]
    rfl
  | _ :: _ :: _ :: _ :: _, h => simp at h; omega

theorem asciiValidTail_eq (b : Bytes) (h : b.length < 8) : asciiValidTail b = b.all isAscii := by
  unfold asciiValidTail
  split
  · rename_i h4
    have h4' : (b.take 4).length = 4 := by simp; omega
    unfold load32
    rw [mask32 _ h4', asciiValidTail4_eq _ (by simp; omega)]
    conv => rhs; rw [← List.take_append_drop 4 b, List.all_append]
    cases (b.take 4).all isAscii <;> simp
  · exact asciiValidTail4_eq b (by omega)

theorem asciiValid_eq (b : Bytes) : asciiValid b = b.all isAscii := by
  fun_induction asciiValid b with
  | case1 b0 b1 b2 b3 b4 b5 b6 b7 rest hx =>
    have hx' : ((UInt64.ofNat (leNat [b0, b1, b2, b3, b4, b5, b6, b7]) &&& 0x8080808080808080) != 0) = true := hx
    rw [mask64 _ rfl] at hx'
    show false = ([b0, b1, b2, b3, b4, b5, b6, b7] ++ rest).all isAscii
    rw [List.all_append]
    simp only [Bool.not_eq_true'] at hx'
    rw [hx']; rfl
  | case2 b0 b1 b2 b3 b4 b5 b6 b7 rest hx ih =>
    have hx' : ¬ ((UInt64.ofNat (leNat [b0, b1, b2, b3, b4, b5, b6, b7]) &&& 0x8080808080808080) != 0) = true := hx
    rw [mask64 _ rfl] at hx'
    show asciiValid rest = ([b0, b1, b2, b3, b4, b5, b6, b7] ++ rest).all isAscii
    rw [List.all_append]
    simp only [Bool.not_eq_true', Bool.not_eq_false] at hx'
    rw [hx', ih]; rfl
  | case3 b hb =>
    apply asciiValidTail_eq
    match b, hb with
    | [], _ => simp
    | [_], _ => simp
    | [_, _], _ => simp
    | [_, _, _], _ => simp
    | [_, _, _, _], _ => simp
    | [_, _, _, _, _], _ => simp
    | [_, _, _, _, _, _], _ => simp
    | [_, _, _, _, _, _, _], _ => simp
    | b0 :: b1 :: b2 :: b3 :: b4 :: b5 :: b6 :: b7 :: rest, hb => exact absurd rfl (hb b0 b1 b2 b3 b4 b5 b6 b7 rest)

end JC

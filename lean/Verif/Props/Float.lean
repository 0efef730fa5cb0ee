import Verif.Lemmas.FloatVal
import Verif.Model.Encoder
/-!
C94: how floats are written.
-/
namespace JC.Props
open JC Spec

/-- The value passed to the encoder for a finite float: `encodeFloat` gets the format that it chooses itself
(`/repo/encode.go:109-116`) and what `AppendFloat` makes of the float in it (`/repo/encode.go:118`). -/
def goFloat (x : Dec10) (h : x.Ok) : GV := .float (.fin x.expo x.text (text_fmt h))

theorem goFloat_out {x : Dec10} (h : x.Ok) : Es6 x.neg x.ds x.pt (if x.expo then cleanExp x.text else x.text) := by
  cases he : x.expo with
  | true => simpa [Dec10.text, he] using fmtE_es6 he
  | false => simpa [Dec10.text, he] using fmtF_es6 h he

/-- **C94** A finite float is written as ECMAScript writes it (with the sign if it is a negative zero), with any
options; colors are put around it. -/
theorem C94_es6 (c : Cfg) {x : Dec10} (h : x.Ok) (b : Bytes) (d : Int) :
    ∃ t, Es6 x.neg x.ds x.pt t ∧
      enc c (goFloat x h) b d = .done (b ++ match c.clrs with | none => t | some cl => cl.number ++ t ++ ansiReset) d none := by
  refine ⟨_, goFloat_out h, ?_⟩
  simp only [goFloat, enc, colored]
  cases c.clrs with
  | none => simp only [encodeFloat_eq]
  | some cl => simp only [encodeFloat_eq, List.append_assoc]

theorem goFloat_marshal {x : Dec10} (h : x.Ok) : ∃ t, Es6 x.neg x.ds x.pt t ∧ marshal (goFloat x h) = some (.ok t) := by
  obtain ⟨t, h1, h2⟩ := C94_es6 {} h [] 0
  refine ⟨t, h1, ?_⟩
  unfold marshal
  rw [h2]
  rfl

/-- **C94** What is written is worth the float: it has its sign, and the same value. -/
theorem C94_value {x : Dec10} (h : x.Ok) :
    ∃ t m z, marshal (goFloat x h) = some (.ok t) ∧ readNum t = (x.neg, m, z) ∧ SameNum m z (natVal x.ds) (x.pt - x.ds.length) := by
  obtain ⟨t, h1, h2⟩ := goFloat_marshal h
  obtain ⟨j, hj⟩ := es6_value h1 h.digits h.zero
  exact ⟨t, _, _, h2, hj, sameNum_of rfl⟩

/-- **C94** Different floats are written differently. -/
theorem C94_injective {x y : Dec10} (hx : x.Ok) (hy : y.Ok) (h : marshal (goFloat x hx) = marshal (goFloat y hy)) : x = y := by
  obtain ⟨t, h1, h2⟩ := goFloat_marshal hx
  obtain ⟨t', h3, h4⟩ := goFloat_marshal hy
  rw [h2, h4] at h
  cases h
  obtain ⟨j, hj⟩ := es6_value h1 hx.digits hx.zero
  obtain ⟨k, hk⟩ := es6_value h3 hy.digits hy.zero
  rw [hj] at hk
  simp only [Prod.mk.injEq] at hk
  obtain ⟨hn, hm, hz⟩ := hk
  have pos : ∀ {u : Dec10} (_ : u.Ok) (i : Nat), u.ds ≠ [] → 0 < natVal u.ds * 10 ^ i := fun hu i h0 =>
    Nat.mul_pos (Nat.lt_of_lt_of_le (Nat.pow_pos (by decide)) (dec10_bounds hu h0).1) (Nat.pow_pos (by decide))
  have nil : ∀ i : Nat, natVal [] * 10 ^ i = 0 := fun i => by simp [natVal]
  by_cases hx0 : x.ds = []
  · by_cases hy0 : y.ds = []
    · have e1 := hx.zero hx0
      have e2 := hy.zero hy0
      obtain ⟨xn, xd, xp⟩ := x
      obtain ⟨yn, yd, yp⟩ := y
      simp_all
    · have := pos hy k hy0
      rw [hx0, nil] at hm
      omega
  · by_cases hy0 : y.ds = []
    · have := pos hx j hx0
      rw [hy0, nil] at hm
      omega
    · obtain ⟨rfl, e⟩ := pow10_inj j k _ _ (natVal_mod hx.digits hx0 hx.last) (natVal_mod hy.digits hy0 hy.last) hm
      have ed : x.ds = y.ds := by
        rw [← jint_val _ x.ds rfl (dec10_jint hx hx0), ← jint_val _ y.ds rfl (dec10_jint hy hy0), e]
      rw [ed] at hz
      have ep : x.pt = y.pt := by omega
      obtain ⟨xn, xd, xp⟩ := x
      obtain ⟨yn, yd, yp⟩ := y
      simp_all

/-- **C94** There is an exponent in the text exactly if the float is not zero and below `10^-6` or not below `10^21`. -/
theorem C94_cutoff {x : Dec10} (h : x.Ok) :
    x.expo = true ↔ x.ds ≠ [] ∧ (Below (natVal x.ds) (x.pt - x.ds.length) (-6) ∨ ¬ Below (natVal x.ds) (x.pt - x.ds.length) 21) := by
  unfold Dec10.expo
  rw [decide_eq_true_eq]
  by_cases h0 : x.ds = []
  · simp [h0]
  · rw [below_iff h h0, below_iff h h0]
    constructor
    · rintro ⟨h1, h2⟩; exact ⟨h1, by omega⟩
    · rintro ⟨h1, h2⟩; exact ⟨h1, by omega⟩

theorem exp_len {ex : Bytes} {n : Nat} (h : JInt ex) (hv : natVal ex = n) (hn : n < 1000) : ex.length ≤ 3 := by
  rcases h with _ | ⟨d, r, h1, h2, h3⟩
  · decide
  · have hd : ∀ c ∈ d :: r, Digit c := by
      intro c hc
      rcases List.mem_cons.1 hc with rfl | hc
      · refine ⟨?_, h2⟩
        simp only [UInt8.le_iff_toNat_le, UInt8.reduceToNat] at h1 ⊢; omega
      · exact h3 c hc
    have hg := natVal_ge hd (by rintro rfl; revert h1; decide)
    rw [hv] at hg
    have hlt : 10 ^ r.length < 10 ^ 3 := by omega
    have := (Nat.pow_lt_pow_iff_right (by decide : 1 < 10)).1 hlt
    simp only [List.length_cons]; omega

/-- **C94** A `float64`, with at most 17 digits, takes at most 25 bytes (and a `float32`, with at most 9, at most 22). -/
theorem C94_length {x : Dec10} (h : x.Ok) (h1 : -323 ≤ x.pt) (h2 : x.pt ≤ 309) :
    ∃ t, marshal (goFloat x h) = some (.ok t) ∧ t.length ≤ max 22 (x.ds.length + 8) := by
  obtain ⟨t, he, hm⟩ := goFloat_marshal h
  refine ⟨t, hm, ?_⟩
  have hs : (minus x.neg).length ≤ 1 := by unfold minus; split <;> simp
  revert h1 h2
  generalize x.ds = ds, x.pt = n at he
  intro h1 h2
  cases he with
  | zero => simp only [List.length_append, List.length_cons, List.length_nil]; omega
  | whole ds n a b c => simp only [List.length_append, zeros, List.length_replicate]; omega
  | point l r a b c => simp only [List.length_append, List.length_cons]; omega
  | small ds n a b => simp only [List.length_append, zeros, List.length_replicate, List.length_cons, List.length_nil]; omega
  | exp1 d n ex a b c =>
    have := exp_len b c (by omega)
    simp only [List.length_append, List.length_cons, List.length_nil]; omega
  | exp d r n ex a b c e =>
    have := exp_len c e (by omega)
    simp only [List.length_append, List.length_cons, List.length_nil]; omega

/-- **C94** With `omitempty` exactly the zeros of both signs are left out. -/
theorem C94_empty {x : Dec10} (h : x.Ok) : isEmpty (goFloat x h) = true ↔ x.ds = [] := by
  show (x.text == bs! "0" || x.text == bs! "-0") = true ↔ _
  constructor
  · intro ht
    have hx : x.text = minus false ++ [0x30] ∨ x.text = minus true ++ [0x30] := by simpa [minus] using ht
    have hout := goFloat_out h
    have hc : (if x.expo then cleanExp x.text else x.text) = x.text := by
      cases he : x.expo with
      | false => rfl
      | true => rcases hx with hx | hx <;> rw [hx] <;> rfl
    rw [hc] at hout
    obtain ⟨j, hj⟩ := es6_value hout h.digits h.zero
    by_cases h0 : x.ds = []
    · exact h0
    · have hp := Nat.mul_pos (Nat.lt_of_lt_of_le (Nat.pow_pos (by decide)) (dec10_bounds h h0).1) (Nat.pow_pos (n := j) (by decide : 0 < 10))
      have hv : (readNum x.text).2.1 = 0 := by rcases hx with hx | hx <;> rw [hx] <;> rfl
      rw [hj] at hv
      simp only at hv
      omega
  · intro h0
    have hp := h.zero h0
    have he : x.expo = false := by simp [Dec10.expo, h0]
    have : x.text = minus x.neg ++ [0x30] := by
      simp [Dec10.text, he, Dec10.fmtF, h0, hp, Dec10.sign, minus]
    rw [this]
    cases x.neg <;> rfl

/-- Decimals as `strconv` returns them, for the cases below. -/
def dec (neg : Bool) (ds : Bytes) (pt : Int) : Dec10 := ⟨neg, ds, pt⟩

/-- The text of a decimal. -/
def written (x : Dec10) : Bytes := if x.expo then cleanExp x.text else x.text

example : written (dec false (bs! "12345") 3) = bs! "123.45" := by decide +kernel
example : written (dec false (bs! "1") 21) = bs! "100000000000000000000" := by decide +kernel
example : written (dec false (bs! "1") 22) = bs! "1e+21" := by decide +kernel
example : written (dec false (bs! "1") (-5)) = bs! "0.000001" := by decide +kernel
example : written (dec true (bs! "15") (-6)) = bs! "-1.5e-7" := by decide +kernel
example : written (dec false (bs! "5") (-323)) = bs! "5e-324" := by decide +kernel
example : written (dec true [] 0) = bs! "-0" := by decide +kernel
/-- The longest: 17 digits behind `-0.00000`. -/
example : (written (dec true (bs! "12345678901234567") (-5))).length = 25 := by decide +kernel
example : readNum (bs! "-1.5e-7") = (true, 15, -8) := by decide +kernel
example : (dec true (bs! "15") (-6)).Ok := ⟨by decide, by decide, by decide, by decide⟩
example : SameNum 1500 (-10) 15 (-8) := by unfold SameNum; decide
example : ¬ Below 1 21 21 ∧ Below 999 18 21 := by unfold Below; decide

end JC.Props

import Verif.Model.Ints
import Verif.Spec.Ints
import Verif.Lemmas.ParseFuel
import Verif.Lemmas.Utf8
/-! Integer parsing computes the value of integer literals. -/
namespace JC
open Spec

instance (c : UInt8) : Decidable (Digit c) := by unfold Digit; infer_instance
instance (n : Nat) (z : Int) : Decidable (FitsSigned n z) := by unfold FitsSigned; infer_instance
instance (n : Nat) (z : Int) : Decidable (FitsUnsigned n z) := by unfold FitsUnsigned; infer_instance

/-- Positional value starting from an accumulator. -/
def natFold (a : Nat) (ds : Bytes) : Nat := ds.foldl (fun a c => 10 * a + (c.toNat - 48)) a

theorem natFold_cons (a : Nat) (c : UInt8) (ds : Bytes) :
    natFold a (c :: ds) = natFold (10 * a + (c.toNat - 48)) ds := by
  simp only [natFold, List.foldl_cons]

theorem natFold_ge (a : Nat) (ds : Bytes) : a ≤ natFold a ds := by
  induction ds generalizing a with
  | nil => exact Nat.le_refl _
  | cons c ds ih => rw [natFold_cons]; have := ih (10 * a + (c.toNat - 48)); omega

theorem natFold_append (a : Nat) (x y : Bytes) : natFold a (x ++ y) = natFold (natFold a x) y := by
  simp [natFold, List.foldl_append]

theorem natVal_eq (ds : Bytes) : natVal ds = natFold 0 ds := rfl

theorem digitVal_eq {d : UInt8} (h : Digit d) : digitVal d = ((d.toNat - 48 : Nat) : Int) ∧ d.toNat - 48 ≤ 9 := by
  obtain ⟨h1, h2⟩ := h
  simp only [UInt8.le_iff_toNat_le, UInt8.reduceToNat] at h1 h2
  constructor
  · unfold digitVal
    rw [UInt8.toNat_sub_of_le _ _ (by simp only [UInt8.le_iff_toNat_le, UInt8.reduceToNat]; exact h1)]
    rfl
  · omega

theorem not_digit_test {d : UInt8} : (d < 0x30 ∨ d > 0x39) ↔ ¬ Digit d := by
  simp only [Digit, UInt8.le_iff_toNat_le, UInt8.lt_iff_toNat_lt, GT.gt, UInt8.reduceToNat]
  omega

/-- A byte string that does not start with a digit. -/
def NoDig (r : Bytes) : Prop := ∀ c t, r = c :: t → ¬ Digit c

theorem posLoop_digits (mx : Nat) (wrap : Int → Int) (hw : ∀ x : Int, 0 ≤ x → x ≤ mx → wrap x = x)
    (h9 : 9 ≤ mx)
    (ds rest : Bytes) (hd : ∀ c ∈ ds, Digit c) (hr : NoDig rest) (value count : Nat) (hv : value ≤ mx)
    (hc : ds ≠ [] ∨ count ≠ 0) :
    posLoop mx wrap value count (ds ++ rest) =
      if natFold value ds ≤ mx then .stop (natFold value ds) (count + ds.length) else .overflow := by
  induction ds generalizing value count with
  | nil =>
    have hc' : count ≠ 0 := by simpa using hc
    have : natFold value [] = value := rfl
    rw [this, if_pos hv]
    cases rest with
    | nil => simp [posLoop]
    | cons c t =>
      have := hr c t rfl
      rw [List.nil_append, posLoop, if_pos (not_digit_test.2 this), if_neg hc']
      rfl
  | cons d ds ih =>
    have hdd := hd d (by simp)
    obtain ⟨e1, e2⟩ := digitVal_eq hdd
    rw [List.cons_append, posLoop, if_neg (fun h => not_digit_test.1 h hdd)]
    simp only []
    rw [e1, Int.tdiv_eq_ediv_of_nonneg (by omega)]
    rw [natFold_cons]
    have hge := natFold_ge (10 * value + (d.toNat - 48)) ds
    generalize hx : d.toNat - 48 = x at *
    by_cases h1 : (value : Int) > (mx : Int) / 10
    · rw [if_pos h1, if_neg (by omega)]
    · rw [if_neg h1]
      rw [hw (value * 10) (by omega) (by omega), hw (mx - x) (by omega) (by omega)]
      by_cases h2 : (value : Int) * 10 > mx - x
      · rw [if_pos h2, if_neg (by omega)]
      · rw [if_neg h2, hw (value * 10 + x) (by omega) (by omega)]
        have : ((value : Int) * 10 + x) = ((10 * value + x : Nat) : Int) := by push_cast; omega
        rw [this, ih (fun c hc => hd c (by simp [hc])) (10 * value + x) (count + 1) (by omega) (by simp)]
        simp only [List.length_cons]
        have : count + 1 + ds.length = count + (ds.length + 1) := by omega
        rw [this]

theorem wrapS64_id {x : Int} (h1 : -9223372036854775808 ≤ x) (h2 : x ≤ 9223372036854775807) : wrapS 64 x = x := by
  unfold wrapS; simp only [Nat.reduceSub, Int.reducePow]; omega

theorem negLoop_digits
    (ds rest : Bytes) (hd : ∀ c ∈ ds, Digit c) (hr : NoDig rest) (value count : Nat)
    (hv : value ≤ 9223372036854775808) (hc : ds ≠ [] ∨ count ≠ 0) :
    negLoop (-(value : Int)) count (ds ++ rest) =
      if natFold value ds ≤ 9223372036854775808 then .stop (-(natFold value ds : Int)) (count + ds.length)
      else .overflow := by
  induction ds generalizing value count with
  | nil =>
    have hc' : count ≠ 0 := by simpa using hc
    have : natFold value [] = value := rfl
    rw [this, if_pos hv]
    cases rest with
    | nil => simp [negLoop]
    | cons c t =>
      have := hr c t rfl
      rw [List.nil_append, negLoop, if_pos (not_digit_test.2 this), if_neg hc']
      rfl
  | cons d ds ih =>
    have hdd := hd d (by simp)
    obtain ⟨e1, e2⟩ := digitVal_eq hdd
    rw [List.cons_append, negLoop, if_neg (fun h => not_digit_test.1 h hdd)]
    simp only []
    have hlim : Int.tdiv (-9223372036854775808) 10 = -922337203685477580 := by decide
    rw [e1, hlim]
    rw [natFold_cons]
    have hge := natFold_ge (10 * value + (d.toNat - 48)) ds
    generalize hx : d.toNat - 48 = x at *
    by_cases h1 : -(value : Int) < -922337203685477580
    · rw [if_pos h1, if_neg (by omega)]
    · rw [if_neg h1]
      rw [wrapS64_id (x := -(value : Int) * 10) (by omega) (by omega), wrapS64_id (x := -9223372036854775808 + (x : Int)) (by omega) (by omega)]
      by_cases h2 : -(value : Int) * 10 < -9223372036854775808 + x
      · rw [if_pos h2, if_neg (by omega)]
      · rw [if_neg h2, wrapS64_id (by omega) (by omega)]
        have : (-(value : Int) * 10 - x) = -((10 * value + x : Nat) : Int) := by push_cast; omega
        rw [this, ih (fun c hc => hd c (by simp [hc])) (10 * value + x) (count + 1) (by omega) (by simp)]
        simp only [List.length_cons]
        have : count + 1 + ds.length = count + (ds.length + 1) := by omega
        rw [this]

theorem posLoop_noDigit (mx : Int) (wrap : Int → Int) {b : Bytes} (hb : b ≠ []) (h : NoDig b) :
    posLoop mx wrap 0 0 b = .noDigit := by
  cases b with
  | nil => contradiction
  | cons c t =>
    have := h c t rfl
    rw [posLoop, if_pos (not_digit_test.2 this), if_pos rfl]

theorem negLoop_noDigit {b : Bytes} (hb : b ≠ []) (h : NoDig b) :
    negLoop 0 0 b = .noDigit := by
  cases b with
  | nil => contradiction
  | cons c t =>
    have := h c t rfl
    rw [negLoop, if_pos (not_digit_test.2 this), if_pos rfl]

theorem exists_digits (s : Bytes) : ∃ ds r, s = ds ++ r ∧ (∀ c ∈ ds, Digit c) ∧ NoDig r := by
  obtain ⟨ds, e, h, hn⟩ := exists_skipDigits s
  refine ⟨ds, skipDigits s, e, h, ?_⟩
  intro c t hc hd
  have := hn c
  rw [hc] at this
  simp only [List.head?_cons, forall_const] at this
  rw [(isDigit_iff c).2 hd] at this
  simp at this

theorem _root_.JC.Spec.JInt.digits {i : Bytes} (h : JInt i) : i ≠ [] ∧ ∀ c ∈ i, Digit c := by
  cases h with
  | zero => refine ⟨by simp, ?_⟩; intro c hc; simp at hc; subst hc; decide
  | pos d ds h1 h2 hd =>
    refine ⟨by simp, ?_⟩
    intro c hc
    rcases List.mem_cons.1 hc with rfl | hc
    · refine ⟨?_, h2⟩
      simp only [UInt8.le_iff_toNat_le, UInt8.reduceToNat] at *; omega
    · exact hd c hc

/-- The leading-zero test of the integer parsers. -/
def leadZero (s : Bytes) : Prop := ∃ t, s = 0x30 :: t ∧ ¬ NoDig t

theorem jint_of_digits {ds r : Bytes} (hne : ds ≠ []) (hd : ∀ c ∈ ds, Digit c) (hz : ¬ leadZero (ds ++ r)) :
    JInt ds := by
  cases ds with
  | nil => contradiction
  | cons d t =>
    by_cases h0 : d = 0x30
    · subst h0
      cases t with
      | nil => exact .zero
      | cons e t =>
        exfalso; apply hz
        refine ⟨e :: t ++ r, rfl, fun h => h e (t ++ r) rfl (hd e (by simp))⟩
    · have := digit_ne_zero ((isDigit_iff d).2 (hd d (by simp))) h0
      exact .pos d t this.1 this.2 fun c hc => hd c (by simp [hc])

theorem jint_not_leadZero {i r : Bytes} (h : JInt i) (hr : NoDig r) : ¬ leadZero (i ++ r) := by
  rintro ⟨t, e, hn⟩
  cases h with
  | zero => simp only [List.cons_append, List.nil_append, List.cons.injEq, true_and] at e; subst e; exact hn hr
  | pos d ds h1 h2 hd =>
    simp only [List.cons_append, List.cons.injEq] at e
    obtain ⟨rfl, _⟩ := e
    revert h1; decide

theorem headTest (t : Bytes) : t.head?.any (fun d2 => 0x30 ≤ d2 && d2 ≤ 0x39) = true ↔ ¬ NoDig t := by
  cases t with
  | nil => simp [NoDig]
  | cons c t =>
    simp only [List.head?_cons, Option.any_some, Bool.and_eq_true, decide_eq_true_eq, NoDig]
    constructor
    · intro h h2; exact h2 c t rfl h
    · intro h
      refine Decidable.byContradiction fun hn => h ?_
      intro c' t' e
      injection e with e1 e2
      subst e1
      exact hn

theorem leadTest (c : UInt8) (t : Bytes) :
    (c = 0x30 ∧ t.head?.any (fun d2 => 0x30 ≤ d2 && d2 ≤ 0x39) = true) ↔ leadZero (c :: t) := by
  rw [headTest]
  constructor
  · rintro ⟨rfl, h⟩; exact ⟨t, rfl, h⟩
  · rintro ⟨t', e, h⟩; injection e with e1 e2; subst e1; subst e2; exact ⟨rfl, h⟩

/-- Float tail test. -/
theorem intTail_ok {p r : Bytes} {v : Int} (h : ∀ c t, r = c :: t → c ≠ 0x2e ∧ c ≠ 0x65 ∧ c ≠ 0x45) :
    intTail (p ++ r) v p.length = .ok v r := by
  unfold intTail
  simp only [List.drop_left']
  cases r with
  | nil => rfl
  | cons c t =>
    obtain ⟨h1, h2, h3⟩ := h c t rfl
    simp [h1, h2, h3]

theorem intTail_float {p t : Bytes} {c : UInt8} {v : Int} (h : c = 0x2e ∨ c = 0x65 ∨ c = 0x45) :
    ∃ r, intTail (p ++ c :: t) v p.length = .fail r .unmarshalType := by
  unfold intTail
  simp only [List.drop_left']
  rw [if_pos h]
  split
  · exact ⟨_, rfl⟩
  · exact ⟨_, rfl⟩

theorem inputError_fail (b : Bytes) : (inputError b).2 = .syntax ∨ (inputError b).2 = .unmarshalType := by
  unfold inputError
  split
  · exact .inl rfl
  · split
    · rename_i h; exact .inl (parseValue_err h)
    · exact .inr rfl

theorem natVal_pos_of {i : Bytes} : (0 : Int) ≤ natVal i := by omega

/-- Full characterisation of a digit scan: either no digit, or a maximal run. -/
theorem parseUint_eq (b : Bytes) :
    (∃ i r, b = i ++ r ∧ JInt i ∧ NoDig r ∧
      parseUint b = if natVal i ≤ 18446744073709551615 then intTail b (natVal i) i.length else .fail b .unmarshalType) ∨
    ((∀ i r, b = i ++ r → JInt i → NoDig r → False) ∧ ∃ r e, parseUint b = .fail r e) := by
  cases b with
  | nil =>
    refine .inr ⟨?_, _, _, rfl⟩
    intro i r e hi _
    have := hi.digits.1
    simp at e; exact this e.1
  | cons c t =>
    by_cases hz : leadZero (c :: t)
    · refine .inr ⟨?_, ?_⟩
      · intro i r e hi hr; rw [e] at hz; exact jint_not_leadZero hi hr hz
      · refine ⟨c :: t, .syntax, ?_⟩
        unfold parseUint
        simp only []
        rw [if_pos ((leadTest c t).2 hz)]
    · have hp : parseUint (c :: t) = intFinish (c :: t) 0 (posLoop 18446744073709551615 (wrapU 64) 0 0 (c :: t)) := by
        unfold parseUint
        simp only []
        rw [if_neg (fun h => hz ((leadTest c t).1 h))]
      obtain ⟨ds, r, e, hd, hr⟩ := exists_digits (c :: t)
      by_cases hne : ds = []
      · subst hne
        simp only [List.nil_append] at e
        refine .inr ⟨?_, ?_⟩
        · intro i r' e' hi _
          have hdi := hi.digits
          cases i with
          | nil => exact hdi.1 rfl
          | cons a i =>
            rw [e] at e'
            exact hr a (i ++ r') (by rw [e']; rfl) (hdi.2 a (by simp))
        · rw [hp, posLoop_noDigit _ _ (by simp) (by rw [e]; exact hr)]
          exact ⟨_, _, rfl⟩
      · left
        have hj : JInt ds := jint_of_digits hne hd (by rw [← e]; exact hz)
        refine ⟨ds, r, e, hj, hr, ?_⟩
        rw [hp]
        have := posLoop_digits 18446744073709551615 (wrapU 64) (by intro x h1 h2; unfold wrapU; simp only [Int.reducePow]; omega) (by omega) ds r hd hr 0 0 (by omega) (.inl hne)
        rw [← e] at this
        rw [natVal_eq]
        have h0 : ((0 : Nat) : Int) = 0 := rfl
        have h1 : ((18446744073709551615 : Nat) : Int) = 18446744073709551615 := rfl
        simp only [h0, h1, Nat.zero_add] at this
        rw [this]
        split <;> rfl

theorem parseInt_pos_eq (c : UInt8) (t : Bytes) (hm : c ≠ 0x2d) :
    (∃ i r, c :: t = i ++ r ∧ JInt i ∧ NoDig r ∧
      parseInt (c :: t) = if natVal i ≤ 9223372036854775807 then intTail (c :: t) (natVal i) i.length
        else .fail (c :: t) .unmarshalType) ∨
    ((∀ i r, c :: t = i ++ r → JInt i → NoDig r → False) ∧ ∃ r e, parseInt (c :: t) = .fail r e) := by
  by_cases hz : leadZero (c :: t)
  · refine .inr ⟨?_, ?_⟩
    · intro i r e hi hr; rw [e] at hz; exact jint_not_leadZero hi hr hz
    · refine ⟨c :: t, .syntax, ?_⟩
      unfold parseInt
      simp only []
      rw [if_neg hm, if_pos ((leadTest c t).2 hz)]
  · have hp : parseInt (c :: t) = intFinish (c :: t) 0 (posLoop 9223372036854775807 (wrapS 64) 0 0 (c :: t)) := by
      unfold parseInt
      simp only []
      rw [if_neg hm, if_neg (fun h => hz ((leadTest c t).1 h))]
    obtain ⟨ds, r, e, hd, hr⟩ := exists_digits (c :: t)
    by_cases hne : ds = []
    · subst hne
      simp only [List.nil_append] at e
      refine .inr ⟨?_, ?_⟩
      · intro i r' e' hi _
        have hdi := hi.digits
        cases i with
        | nil => exact hdi.1 rfl
        | cons a i =>
          rw [e] at e'
          exact hr a (i ++ r') (by rw [e']; rfl) (hdi.2 a (by simp))
      · rw [hp, posLoop_noDigit _ _ (by simp) (by rw [e]; exact hr)]
        exact ⟨_, _, rfl⟩
    · left
      have hj : JInt ds := jint_of_digits hne hd (by rw [← e]; exact hz)
      refine ⟨ds, r, e, hj, hr, ?_⟩
      rw [hp]
      have := posLoop_digits 9223372036854775807 (wrapS 64) (by intro x h1 h2; exact wrapS64_id (by omega) (by omega)) (by omega) ds r hd hr 0 0 (by omega) (.inl hne)
      rw [← e] at this
      rw [natVal_eq]
      have h0 : ((0 : Nat) : Int) = 0 := rfl
      have h1 : ((9223372036854775807 : Nat) : Int) = 9223372036854775807 := rfl
      simp only [h0, h1, Nat.zero_add] at this
      rw [this]
      split <;> rfl

theorem parseInt_neg_eq (t : Bytes) :
    (∃ i r, t = i ++ r ∧ JInt i ∧ NoDig r ∧
      parseInt (0x2d :: t) = if natVal i ≤ 9223372036854775808 then intTail (0x2d :: t) (-(natVal i)) (i.length + 1)
        else .fail (0x2d :: t) .unmarshalType) ∨
    ((∀ i r, t = i ++ r → JInt i → NoDig r → False) ∧ ∃ r e, parseInt (0x2d :: t) = .fail r e) := by
  cases t with
  | nil =>
    refine .inr ⟨?_, _, _, rfl⟩
    intro i r e hi _
    have := hi.digits.1
    simp at e; exact this e.1
  | cons c t =>
    by_cases hz : leadZero (c :: t)
    · refine .inr ⟨?_, ?_⟩
      · intro i r e hi hr; rw [e] at hz; exact jint_not_leadZero hi hr hz
      · refine ⟨0x2d :: c :: t, .syntax, ?_⟩
        unfold parseInt
        simp only [if_true]
        rw [if_pos ((leadTest c t).2 hz)]
    · have hp : parseInt (0x2d :: c :: t) = intFinish (0x2d :: c :: t) 1 (negLoop 0 0 (c :: t)) := by
        unfold parseInt
        simp only [if_true]
        rw [if_neg (fun h => hz ((leadTest c t).1 h))]
      obtain ⟨ds, r, e, hd, hr⟩ := exists_digits (c :: t)
      by_cases hne : ds = []
      · subst hne
        simp only [List.nil_append] at e
        refine .inr ⟨?_, ?_⟩
        · intro i r' e' hi _
          have hdi := hi.digits
          cases i with
          | nil => exact hdi.1 rfl
          | cons a i =>
            rw [e] at e'
            exact hr a (i ++ r') (by rw [e']; rfl) (hdi.2 a (by simp))
        · rw [hp, negLoop_noDigit (by simp) (by rw [e]; exact hr)]
          exact ⟨_, _, rfl⟩
      · left
        have hj : JInt ds := jint_of_digits hne hd (by rw [← e]; exact hz)
        refine ⟨ds, r, e, hj, hr, ?_⟩
        rw [hp]
        have := negLoop_digits ds r hd hr 0 0 (by omega) (.inl hne)
        rw [← e] at this
        rw [natVal_eq]
        have h0 : -((0 : Nat) : Int) = 0 := rfl
        simp only [h0, Nat.zero_add] at this
        rw [this]
        split <;> rfl

theorem digit_run_unique {x y r s : Bytes} (hx : ∀ c ∈ x, Digit c) (hy : ∀ c ∈ y, Digit c)
    (hr : NoDig r) (hs : NoDig s) (e : x ++ r = y ++ s) : x = y ∧ r = s := by
  induction x generalizing y with
  | nil =>
    cases y with
    | nil => exact ⟨rfl, e⟩
    | cons a y => exfalso; exact hr a (y ++ s) e (hy a (by simp))
  | cons a x ih =>
    cases y with
    | nil => exfalso; exact hs a (x ++ r) e.symm (hx a (by simp))
    | cons b y =>
      simp only [List.cons_append, List.cons.injEq] at e
      obtain ⟨rfl, e⟩ := e
      obtain ⟨rfl, rfl⟩ := ih (fun c hc => hx c (by simp [hc])) (fun c hc => hy c (by simp [hc])) e
      exact ⟨rfl, rfl⟩

theorem intStop_noDig {r : Bytes} (h : IntStop r) : NoDig r := fun c t e => (h c t e).1

/-- Outcome of `parseInt` on a non-fractional literal. -/
theorem parseInt_lit {b r : Bytes} {z : Int} (h : IntLit b z) (hr : IntStop r) :
    parseInt (b ++ r) = if FitsSigned 64 z then .ok z r else .fail (b ++ r) .unmarshalType := by
  cases h with
  | nonneg i hi =>
    obtain ⟨hne, hd⟩ := hi.digits
    cases b with
    | nil => exact absurd rfl hne
    | cons c t =>
      have hc : c ≠ 0x2d := (digit_facts (hd c (by simp))).2.1
      rw [List.cons_append]
      rcases parseInt_pos_eq c (t ++ r) hc with ⟨i', r', e, hi', hr', hp⟩ | ⟨hno, _⟩
      · obtain ⟨rfl, rfl⟩ := digit_run_unique hd hi'.digits.2 (intStop_noDig hr) hr' e
        rw [hp, ← List.cons_append, intTail_ok (fun c t e => (hr c t e).2)]
        have : FitsSigned 64 (natVal (c :: t)) ↔ natVal (c :: t) ≤ 9223372036854775807 := by
          unfold FitsSigned; simp only [Nat.reduceSub, Int.reducePow]; omega
        simp only [this]
      · exact (hno _ _ rfl hi (intStop_noDig hr)).elim
  | neg i hi =>
    rw [List.cons_append]
    rcases parseInt_neg_eq (i ++ r) with ⟨i', r', e, hi', hr', hp⟩ | ⟨hno, _⟩
    · obtain ⟨rfl, rfl⟩ := digit_run_unique hi.digits.2 hi'.digits.2 (intStop_noDig hr) hr' e
      rw [hp]
      have h2 := intTail_ok (p := 0x2d :: i) (v := -(natVal i : Int)) (fun c t e => (hr c t e).2)
      simp only [List.length_cons, List.cons_append] at h2
      rw [h2]
      have : FitsSigned 64 (-(natVal i : Int)) ↔ natVal i ≤ 9223372036854775808 := by
        unfold FitsSigned; simp only [Nat.reduceSub, Int.reducePow]; omega
      simp only [this]
    · exact (hno _ _ rfl hi (intStop_noDig hr)).elim

theorem intTail_sound {p r b : Bytes} {v v' : Int} {r' : Bytes} (hb : b = p ++ r) (hr : NoDig r)
    (h : intTail b v p.length = .ok v' r') : v' = v ∧ r' = r ∧ IntStop r := by
  subst hb
  cases r with
  | nil =>
    rw [intTail_ok (by simp)] at h
    injection h with h1 h2
    exact ⟨h1.symm, h2.symm, by simp [IntStop]⟩
  | cons c t =>
    by_cases hf : c = 0x2e ∨ c = 0x65 ∨ c = 0x45
    · obtain ⟨q, hq⟩ := intTail_float (p := p) (t := t) (v := v) hf
      rw [hq] at h; contradiction
    · simp only [not_or] at hf
      rw [intTail_ok (by intro c' t' e; injection e with e1 e2; subst e1; exact hf)] at h
      injection h with h1 h2
      refine ⟨h1.symm, h2.symm, ?_⟩
      intro c' t' e
      injection e with e1 e2
      subst e1
      exact ⟨hr c t rfl, hf⟩

theorem parseInt_ok {b r : Bytes} {z : Int} (h : parseInt b = .ok z r) :
    ∃ l, b = l ++ r ∧ IntLit l z ∧ FitsSigned 64 z ∧ IntStop r := by
  cases b with
  | nil => simp [parseInt] at h
  | cons c t =>
    by_cases hc : c = 0x2d
    · subst hc
      rcases parseInt_neg_eq t with ⟨i, r', e, hi, hr', hp⟩ | ⟨_, q, er, hp⟩
      · rw [hp] at h
        split at h
        · rename_i hle
          obtain ⟨rfl, rfl, hs⟩ := intTail_sound (p := 0x2d :: i) (r := r') (by rw [e]; rfl) hr' h
          refine ⟨0x2d :: i, by rw [e]; rfl, .neg i hi, ?_, hs⟩
          unfold FitsSigned; simp only [Nat.reduceSub, Int.reducePow]; omega
        · contradiction
      · rw [hp] at h; contradiction
    · rcases parseInt_pos_eq c t hc with ⟨i, r', e, hi, hr', hp⟩ | ⟨_, q, er, hp⟩
      · rw [hp] at h
        split at h
        · rename_i hle
          obtain ⟨rfl, rfl, hs⟩ := intTail_sound (p := i) (r := r') e hr' h
          refine ⟨i, e, .nonneg i hi, ?_, hs⟩
          unfold FitsSigned; simp only [Nat.reduceSub, Int.reducePow]; omega
        · contradiction
      · rw [hp] at h; contradiction

theorem parseUint_lit {b r : Bytes} {z : Int} (h : IntLit b z) (hr : IntStop r) (hz : 0 < z ∨ JInt b) :
    parseUint (b ++ r) = if FitsUnsigned 64 z then .ok z r else .fail (b ++ r) .unmarshalType := by
  cases h with
  | nonneg i hi =>
    obtain ⟨hne, hd⟩ := hi.digits
    rcases parseUint_eq (b ++ r) with ⟨i', r', e, hi', hr', hp⟩ | ⟨hno, _⟩
    · obtain ⟨rfl, rfl⟩ := digit_run_unique hd hi'.digits.2 (intStop_noDig hr) hr' e
      rw [hp, intTail_ok (fun c t e => (hr c t e).2)]
      have : FitsUnsigned 64 (natVal b) ↔ natVal b ≤ 18446744073709551615 := by
        unfold FitsUnsigned; simp only [Int.reducePow]; omega
      simp only [this]
    · exact (hno _ _ rfl hi (intStop_noDig hr)).elim
  | neg i hi =>
    rcases hz with hz | hz
    · omega
    · have := hz.digits.2 0x2d (by simp)
      exact absurd this (by decide)

theorem parseUint_ok {b r : Bytes} {z : Int} (h : parseUint b = .ok z r) :
    ∃ l, b = l ++ r ∧ JInt l ∧ IntLit l z ∧ FitsUnsigned 64 z ∧ IntStop r := by
  rcases parseUint_eq b with ⟨i, r', e, hi, hr', hp⟩ | ⟨_, q, er, hp⟩
  · rw [hp] at h
    split at h
    · rename_i hle
      obtain ⟨rfl, rfl, hs⟩ := intTail_sound (p := i) (r := r') e hr' h
      refine ⟨i, e, hi, .nonneg i hi, ?_, hs⟩
      unfold FitsUnsigned; simp only [Int.reducePow]; omega
    · contradiction
  · rw [hp] at h; contradiction

theorem digit_ofNat {k : Nat} (h : k < 10) : Digit (UInt8.ofNat (0x30 + k)) ∧ (UInt8.ofNat (0x30 + k)).toNat - 48 = k := by
  have : (UInt8.ofNat (0x30 + k)).toNat = 48 + k := ofNat_toNat _ (by omega)
  constructor
  · simp only [Digit, UInt8.le_iff_toNat_le, this, UInt8.reduceToNat]; omega
  · omega

theorem fmtNat_val (n : Nat) : natVal (fmtNat n) = n ∧ (∀ c ∈ fmtNat n, Digit c) := by
  fun_induction fmtNat n with
  | case1 n h =>
    have := digit_ofNat h
    refine ⟨?_, by simpa using this.1⟩
    simp only [natVal, List.foldl_cons, List.foldl_nil]; rw [this.2]; omega
  | case2 n h ih =>
    have hd := digit_ofNat (k := n % 10) (by omega)
    refine ⟨?_, ?_⟩
    · rw [natVal_eq, natFold_append, ← natVal_eq, ih.1]
      simp only [natFold, List.foldl_cons, List.foldl_nil]
      rw [hd.2]; omega
    · intro c hc
      rcases List.mem_append.1 hc with hc | hc
      · exact ih.2 c hc
      · rw [List.mem_singleton] at hc; subst hc; exact hd.1

theorem fmtNat_jint (n : Nat) : JInt (fmtNat n) := by
  fun_induction fmtNat n with
  | case1 n h =>
    by_cases h0 : n = 0
    · subst h0; exact .zero
    · have : (UInt8.ofNat (0x30 + n)).toNat = 48 + n := ofNat_toNat _ (by omega)
      refine .pos _ [] ?_ ?_ (by simp) <;>
        simp only [UInt8.le_iff_toNat_le, this, UInt8.reduceToNat] <;> omega
  | case2 n h ih =>
    have hv := (fmtNat_val (n / 10)).1
    have hd := (digit_ofNat (k := n % 10) (by omega)).1
    cases ih' : fmtNat (n / 10) with
    | nil => rw [ih'] at ih; exact absurd rfl ih.digits.1
    | cons d ds =>
      rw [ih'] at ih hv
      cases ih with
      | zero => simp [natVal] at hv; omega
      | pos _ _ h1 h2 hds =>
        refine .pos d _ h1 h2 ?_
        intro c hc
        rcases List.mem_append.1 hc with hc | hc
        · exact hds c hc
        · rw [List.mem_singleton] at hc; subst hc; exact hd

theorem fmtInt_lit (z : Int) : IntLit (fmtInt z) z := by
  unfold fmtInt
  have hv := (fmtNat_val z.natAbs).1
  split
  · have := IntLit.neg _ (fmtNat_jint z.natAbs)
    rw [hv] at this
    have e : -(z.natAbs : Int) = z := by omega
    rwa [e] at this
  · have := IntLit.nonneg _ (fmtNat_jint z.natAbs)
    rw [hv] at this
    have e : (z.natAbs : Int) = z := by omega
    rwa [e] at this

theorem fmtInt_jnumber (z : Int) : JNumber (fmtInt z) := by
  unfold fmtInt
  split
  · simpa using JNumber.mk [0x2d] _ [] [] (.inr rfl) (fmtNat_jint z.natAbs) .none .none
  · simpa using JNumber.mk [] _ [] [] (.inl rfl) (fmtNat_jint z.natAbs) .none .none

end JC

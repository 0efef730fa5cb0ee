import Verif.Model.TypeErr
import Verif.Spec.TypeErr
import Verif.Lemmas.PathScalar
/-! The decoders of plain values with their errors (C98): erasure, and what they do to values. -/
namespace JC
open Spec Props

/-! ### erasure -/

def IT.erase : IT → IR
  | .ok v r => .ok v r
  | .fail r e => .fail r e.erase

theorem inputErrorT_erase (b : Bytes) (ty : Scalar) : ((inputErrorT b ty).1, (inputErrorT b ty).2.erase) = inputError b := by
  unfold inputErrorT inputError
  split
  · rfl
  · cases parseValue b <;> rfl

theorem inputErrorT_fst (b : Bytes) (ty : Scalar) : (inputErrorT b ty).1 = (inputError b).1 := by
  rw [← inputErrorT_erase b ty]
theorem inputErrorT_snd (b : Bytes) (ty : Scalar) : (inputErrorT b ty).2.erase = (inputError b).2 := by
  rw [← inputErrorT_erase b ty]

theorem inputErrT_erase (ty : Scalar) (b : Bytes) (p : DV) : (inputErrT ty b p).erase = inputErr b p := by
  simp only [inputErrT, inputErr, TRes.erase, inputErrorT_fst, inputErrorT_snd]

theorem intTailT_erase (b : Bytes) (ty : Scalar) (z : Int) (n : Nat) : (intTailT b ty z n).erase = intTail b z n := by
  unfold intTailT intTail
  cases b.drop n with
  | nil => rfl
  | cons c r =>
    simp only []
    split
    · cases parseNumber b <;> rfl
    · rfl

theorem intFinishT_erase (b : Bytes) (ty : Scalar) (n : Nat) (d : DigLoop) : (intFinishT b ty n d).erase = intFinish b n d := by
  cases d with
  | overflow => rfl
  | noDigit => simp only [intFinishT, intFinish, IT.erase, inputErrorT_fst, inputErrorT_snd]
  | stop v c => exact intTailT_erase b ty v (c + n)

theorem parseIntT_erase (b : Bytes) (ty : Scalar) : (parseIntT b ty).erase = parseInt b := by
  unfold parseIntT parseInt
  cases b with
  | nil => rfl
  | cons c t =>
    simp only []
    split
    · cases t with
      | nil => rfl
      | cons d t =>
        simp only []
        split
        · rfl
        · exact intFinishT_erase _ _ _ _
    · split
      · rfl
      · exact intFinishT_erase _ _ _ _

theorem parseUintT_erase (b : Bytes) (ty : Scalar) : (parseUintT b ty).erase = parseUint b := by
  unfold parseUintT parseUint
  cases b with
  | nil => rfl
  | cons c t =>
    simp only []
    split
    · rfl
    · exact intFinishT_erase _ _ _ _

theorem decodeKindT_erase (k : IntKind) (b : Bytes) (p : DV) : (decodeKindT k b p).erase = decodeInt k b p := by
  have hi := fun ty => parseIntT_erase b ty
  have hu := fun ty => parseUintT_erase b ty
  unfold decodeInt
  cases hn : hasNullPrefix b with
  | true => cases k <;> simp [decodeKindT, decodeIntT, decodeUintT, hn, TRes.erase]
  | false =>
    cases k
    case int | int64 | int8 | int16 | int32 =>
      all_goals
        simp only [decodeKindT, decodeIntT, decodeIntKind, decodeInt64, decodeIntSized, hn, Bool.false_eq_true, if_false]
        rw [← hi]
        cases parseIntT b _ with
        | fail r e => rfl
        | ok v r =>
          simp only [IT.erase]
          first
            | rfl
            | (split <;> rfl)
    all_goals
      simp only [decodeKindT, decodeUintT, decodeIntKind, decodeUint64, decodeUintSized, hn, Bool.false_eq_true, if_false]
      rw [← hu]
      cases parseUintT b _ with
      | fail r e => rfl
      | ok v r =>
        simp only [IT.erase]
        first
          | rfl
          | (split <;> rfl)

theorem decT_erase (l : Lib) (s : Scalar) (b : Bytes) (p : DV) (c : DCfg) (hc : c.lib = l) (dyn : Ty → Dec) :
    (decT l s b p).erase = dec c dyn s.ty b p := by
  subst hc
  cases s with
  | bool =>
    simp only [decT, Scalar.ty, dec, decodeBoolT, decodeBool]
    repeat' split
    all_goals first | rfl | exact inputErrT_erase _ _ _
  | int k => exact decodeKindT_erase k b p
  | float32 | float64 =>
    simp only [decT, Scalar.ty, dec, decodeFloatT, decodeFloat]
    split
    · rfl
    · cases parseNumber b with
      | fail => exact inputErrT_erase _ _ _
      | ok v r =>
        simp only []
        cases c.lib.parseFloat _ v with
        | none => exact inputErrT_erase _ _ _
        | some f => rfl
  | number =>
    simp only [decT, Scalar.ty, dec, decodeNumberT, decodeNumber]
    split
    · rfl
    · cases parseNumber b with
      | fail => exact inputErrT_erase _ _ _
      | ok v r => rfl
  | string =>
    simp only [decT, Scalar.ty, dec, decodeStringT, decodeString]
    split
    · rfl
    · cases parseStringUnquote b [] with
      | panic => rfl
      | fail r e =>
        simp only []
        split
        · exact inputErrT_erase _ _ _
        · rfl
      | ok => rfl
  | duration =>
    simp only [decT, Scalar.ty, dec, decodeDurationT, decodeDuration]
    split
    · rfl
    · cases b with
      | nil => exact inputErrT_erase _ _ _
      | cons ch t =>
        simp only []
        split
        · rw [← parseIntT_erase _ .duration]
          cases parseIntT (ch :: t) .duration with
          | fail => exact inputErrT_erase _ _ _
          | ok => rfl
        · split
          · exact inputErrT_erase _ _ _
          · cases indexByte t (ch! '"') with
            | none => exact inputErrT_erase _ _ _
            | some i =>
              simp only []
              cases c.lib.parseDuration (t.take i) with
              | none => exact inputErrT_erase _ _ _
              | some => rfl
  | time =>
    simp only [decT, Scalar.ty, dec, decodeTimeT, decodeTime]
    split
    · rfl
    · cases b with
      | nil => exact inputErrT_erase _ _ _
      | cons ch t =>
        simp only []
        split
        · exact inputErrT_erase _ _ _
        · cases indexByte t (ch! '"') with
          | none => exact inputErrT_erase _ _ _
          | some i =>
            simp only []
            cases c.lib.parseTime (t.take i) with
            | none => exact inputErrT_erase _ _ _
            | some => rfl

/-! ### values -/

theorem inputErrorT_value {j : Json} {v r : Bytes} (hj : Derives (.value j) v) (hf : Follow j r) (ty : Scalar) :
    inputErrorT (v ++ r) ty = (skipSpaces r, .quote ty (v ++ r)) := by
  obtain ⟨c, t, rfl, _⟩ := derives_head hj
  unfold inputErrorT
  rw [parseValue_complete hj hf]
  simp

theorem inputErrT_value {j : Json} {v r : Bytes} (hj : Derives (.value j) v) (hf : Follow j r) (ty : Scalar) (p : DV) :
    inputErrT ty (v ++ r) p = .err p (skipSpaces r) (.quote ty (v ++ r)) := by
  unfold inputErrT
  rw [inputErrorT_value hj hf]

/-- the rest of a number after its integer part does not begin with a digit -/
theorem whole_noDig {f e r : Bytes} (hf : JFrac f) (he : JExp e) (hr : NumStop r) : NoDig (f ++ e ++ r) := by
  intro c t ec hd
  cases hf with
  | some ds _ => injection ec with e1 _; subst e1; exact absurd hd (by decide)
  | none =>
    cases he with
    | some c' sg ds hc _ _ =>
      injection ec with e1 _; subst e1
      rcases hc with rfl | rfl <;> exact absurd hd (by decide)
    | none => exact (numStop_intStop hr c t ec).1 hd

theorem jnumber_whole {v : Bytes} (h : JNumber v) : ∃ l z, Whole v l z := by
  obtain ⟨sgn, i, f, e, hs, hi, hf, he⟩ := h
  rcases hs with rfl | rfl
  · exact ⟨i, _, f, e, by simp, .nonneg i hi, hf, he⟩
  · exact ⟨0x2d :: i, _, f, e, by simp, .neg i hi, hf, he⟩

theorem whole_jnumber {v l : Bytes} {z : Int} (h : Whole v l z) : JNumber v := by
  obtain ⟨f, e, rfl, hl, hf, he⟩ := h
  cases hl with
  | nonneg _ hi => simpa using JNumber.mk [] _ f e (.inl rfl) hi hf he
  | neg i hi => simpa using JNumber.mk [0x2d] i f e (.inr rfl) hi hf he

/-- after the digits: the whole number is quoted if it is not an integer -/
theorem intTailT_whole {v l r : Bytes} {z : Int} (h : Whole v l z) (hr : NumStop r) (ty : Scalar) (n : Int) :
    intTailT (v ++ r) ty n l.length = if v = l then .ok n r else .fail r (.quote ty v) := by
  have hv := whole_jnumber h
  obtain ⟨f, e, rfl, hl, hf, he⟩ := h
  have hd : (l ++ f ++ e ++ r).drop l.length = f ++ e ++ r := by simp
  unfold intTailT
  rw [parseNumber_complete hv hr, hd]
  cases hf with
  | some ds _ => simp
  | none =>
    cases he with
    | some c sg ds hc _ _ =>
      simp only [List.nil_append, List.cons_append]
      rw [if_pos (by rcases hc with rfl | rfl <;> decide), if_neg (by simp)]
    | none =>
      simp only [List.append_nil, List.nil_append, if_true]
      cases r with
      | nil => rfl
      | cons c t =>
        have := (numStop_intStop hr c t rfl).2
        simp only []
        rw [if_neg (by rintro (h | h | h) <;> simp_all)]

theorem parseIntT_pos {i q : Bytes} (hi : JInt i) (hq : NoDig q) (ty : Scalar) :
    parseIntT (i ++ q) ty = if natVal i ≤ 9223372036854775807 then intTailT (i ++ q) ty (natVal i) i.length
      else .fail (i ++ q) (.over ty (i ++ q)) := by
  obtain ⟨hne, hd⟩ := hi.digits
  have hz := jint_not_leadZero hi hq
  have := posLoop_digits 9223372036854775807 (wrapS 64) (by intro x h1 h2; exact wrapS64_id (by omega) (by omega)) (by omega) i q hd hq 0 0 (by omega) (.inl hne)
  have h0 : ((0 : Nat) : Int) = 0 := rfl
  have h1 : ((9223372036854775807 : Nat) : Int) = 9223372036854775807 := rfl
  simp only [h0, h1, Nat.zero_add] at this
  cases i with
  | nil => exact absurd rfl hne
  | cons c t =>
    have hc : c ≠ 0x2d := (digit_facts (hd c (by simp))).2.1
    unfold parseIntT
    rw [List.cons_append] at this hz ⊢
    simp only []
    rw [if_neg hc, if_neg (fun h => hz ((leadTest c (t ++ q)).1 h)), natVal_eq, this]
    split <;> rfl

theorem parseIntT_neg {i q : Bytes} (hi : JInt i) (hq : NoDig q) (ty : Scalar) :
    parseIntT (0x2d :: (i ++ q)) ty = if natVal i ≤ 9223372036854775808 then intTailT (0x2d :: (i ++ q)) ty (-(natVal i)) (i.length + 1)
      else .fail (0x2d :: (i ++ q)) (.over ty (0x2d :: (i ++ q))) := by
  obtain ⟨hne, hd⟩ := hi.digits
  have hz := jint_not_leadZero hi hq
  have := negLoop_digits i q hd hq 0 0 (by omega) (.inl hne)
  have h0 : -((0 : Nat) : Int) = 0 := rfl
  simp only [h0, Nat.zero_add] at this
  cases i with
  | nil => exact absurd rfl hne
  | cons c t =>
    unfold parseIntT
    rw [List.cons_append] at this hz ⊢
    simp only [if_true]
    rw [if_neg (fun h => hz ((leadTest c (t ++ q)).1 h)), natVal_eq, this]
    split <;> rfl

theorem parseUintT_pos {i q : Bytes} (hi : JInt i) (hq : NoDig q) (ty : Scalar) :
    parseUintT (i ++ q) ty = if natVal i ≤ 18446744073709551615 then intTailT (i ++ q) ty (natVal i) i.length
      else .fail (i ++ q) (.over ty (i ++ q)) := by
  obtain ⟨hne, hd⟩ := hi.digits
  have hz := jint_not_leadZero hi hq
  have := posLoop_digits 18446744073709551615 (wrapU 64) (by intro x h1 h2; unfold wrapU; simp only [Int.reducePow]; omega) (by omega) i q hd hq 0 0 (by omega) (.inl hne)
  have h0 : ((0 : Nat) : Int) = 0 := rfl
  have h1 : ((18446744073709551615 : Nat) : Int) = 18446744073709551615 := rfl
  simp only [h0, h1, Nat.zero_add] at this
  cases i with
  | nil => exact absurd rfl hne
  | cons c t =>
    unfold parseUintT
    rw [List.cons_append] at this hz ⊢
    simp only []
    rw [if_neg (fun h => hz ((leadTest c (t ++ q)).1 h)), natVal_eq, this]
    split <;> rfl

/-- `parseInt` on a number -/
theorem parseIntT_num {v l r : Bytes} {z : Int} (h : Whole v l z) (hr : NumStop r) (ty : Scalar) :
    parseIntT (v ++ r) ty = if FitsSigned 64 z then (if v = l then .ok z r else .fail r (.quote ty v))
      else .fail (v ++ r) (.over ty (v ++ r)) := by
  have ht := fun n => intTailT_whole h hr ty n
  obtain ⟨f, e, rfl, hl, hf, he⟩ := h
  have hq := whole_noDig hf he hr
  cases hl with
  | nonneg _ hi =>
    have e1 : l ++ f ++ e ++ r = l ++ (f ++ e ++ r) := by simp
    rw [← ht, e1, parseIntT_pos hi hq]
    have : FitsSigned 64 (natVal l) ↔ natVal l ≤ 9223372036854775807 := by
      unfold FitsSigned; simp only [Nat.reduceSub, Int.reducePow]; omega
    simp only [this]
  | neg i hi =>
    have e1 : 0x2d :: i ++ f ++ e ++ r = 0x2d :: (i ++ (f ++ e ++ r)) := by simp
    rw [← ht, e1, parseIntT_neg hi hq]
    have : FitsSigned 64 (-(natVal i : Int)) ↔ natVal i ≤ 9223372036854775808 := by
      unfold FitsSigned; simp only [Nat.reduceSub, Int.reducePow]; omega
    simp only [this, List.length_cons]

/-- `parseUint` on a number without sign -/
theorem parseUintT_num {v l r : Bytes} {z : Int} (h : Whole v l z) (hl : JInt l) (hr : NumStop r) (ty : Scalar) :
    parseUintT (v ++ r) ty = if FitsUnsigned 64 z then (if v = l then .ok z r else .fail r (.quote ty v))
      else .fail (v ++ r) (.over ty (v ++ r)) := by
  have ht := fun n => intTailT_whole h hr ty n
  obtain ⟨f, e, rfl, hl', hf, he⟩ := h
  have hq := whole_noDig hf he hr
  cases hl' with
  | nonneg _ hi =>
    have e1 : l ++ f ++ e ++ r = l ++ (f ++ e ++ r) := by simp
    rw [← ht, e1, parseUintT_pos hi hq]
    have : FitsUnsigned 64 (natVal l) ↔ natVal l ≤ 18446744073709551615 := by
      unfold FitsUnsigned; simp only [Int.reducePow]; omega
    simp only [this]
  | neg i hi => exact absurd (hl.digits.2 0x2d (by simp)) (by decide)

theorem parseIntT_other {c : UInt8} {t : Bytes} (hm : c ≠ 0x2d) (hc : ¬ Digit c) (ty : Scalar) :
    parseIntT (c :: t) ty = .fail (inputErrorT (c :: t) ty).1 (inputErrorT (c :: t) ty).2 := by
  unfold parseIntT
  simp only []
  rw [if_neg hm, if_neg, posLoop_other hc]
  · rfl
  · rintro ⟨rfl, _⟩
    exact hc (by decide)

theorem parseUintT_other {c : UInt8} {t : Bytes} (hc : ¬ Digit c) (ty : Scalar) :
    parseUintT (c :: t) ty = .fail (inputErrorT (c :: t) ty).1 (inputErrorT (c :: t) ty).2 := by
  unfold parseUintT
  simp only []
  rw [if_neg, posLoop_other hc]
  · rfl
  · rintro ⟨rfl, _⟩
    exact hc (by decide)

/-- `parseInt` on a value that is no number -/
theorem parseIntT_value {j : Json} {v r : Bytes} (hj : Derives (.value j) v) (hf : Follow j r) (hn : ∀ s, j ≠ .num s) (ty : Scalar) :
    parseIntT (v ++ r) ty = .fail (skipSpaces r) (.quote ty (v ++ r)) := by
  obtain ⟨c, t, e1, hc⟩ := derives_head hj
  have hnd : ¬ (c = 0x2d ∨ Digit c) := by
    intro hd
    have hdr := digit_range hd
    cases j <;> simp only [headOk] at hc <;> simp_all
  have := parseIntT_other (t := t ++ r) (fun h => hnd (.inl h)) (fun h => hnd (.inr h)) ty
  rw [← List.cons_append, ← e1] at this
  rw [this, inputErrorT_value hj hf]

/-- `parseUint` on a value that is no number without sign -/
theorem parseUintT_value {j : Json} {v r : Bytes} (hj : Derives (.value j) v) (hf : Follow j r) (hn : ∀ c t, v = c :: t → ¬ Digit c) (ty : Scalar) :
    parseUintT (v ++ r) ty = .fail (skipSpaces r) (.quote ty (v ++ r)) := by
  obtain ⟨c, t, e1, hc⟩ := derives_head hj
  have := parseUintT_other (t := t ++ r) (hn c t e1) ty
  rw [← List.cons_append, ← e1] at this
  rw [this, inputErrorT_value hj hf]

theorem taken_append (v r : Bytes) : taken (v ++ r) r = v := by
  unfold taken; simp

/-! ### the decoders -/

/-- a number for an integer of its kind -/
theorem decodeKindT_num (k : IntKind) {v l r : Bytes} {z : Int} (h : Whole v l z) (hk : KindLit k l z) (hr : NumStop r) (p : DV) :
    (¬ WideFits k z → decodeKindT k (v ++ r) p = .err p (v ++ r) (.over (.int k) (v ++ r))) ∧
    (WideFits k z → v ≠ l → decodeKindT k (v ++ r) p = .err p r (.quote (.int k) v)) ∧
    (WideFits k z → v = l → ¬ KindFits k z → decodeKindT k (v ++ r) p = .err p r (.over (.int k) v)) := by
  have hn := hasNull_num (whole_jnumber h) r
  cases k
  case int | int64 | int8 | int16 | int32 =>
    all_goals
      simp only [decodeKindT, decodeIntT, hn, Bool.false_eq_true, if_false, parseIntT_num h hr, WideFits]
      refine ⟨?_, ?_, ?_⟩
      · intro hw; rw [if_neg hw]
      · intro hw hv; rw [if_pos hw, if_neg hv]
      · intro hw hv hf
        rw [if_pos hw, if_pos hv]
        first
          | exact absurd hw hf
          | (simp only []
             rw [if_pos, taken_append]
             simp only [KindFits, FitsSigned, Nat.reduceSub, Int.reducePow] at hf
             omega)
  all_goals
    simp only [decodeKindT, decodeUintT, hn, Bool.false_eq_true, if_false, parseUintT_num h hk.1 hr, WideFits]
    refine ⟨?_, ?_, ?_⟩
    · intro hw; rw [if_neg hw]
    · intro hw hv; rw [if_pos hw, if_neg hv]
    · intro hw hv hf
      rw [if_pos hw, if_pos hv]
      first
        | exact absurd hw hf
        | (simp only []
           rw [if_pos, taken_append]
           simp only [KindFits, FitsUnsigned, Int.reducePow] at hf hw
           omega)

theorem kindFits_wide {k : IntKind} {z : Int} (h : KindFits k z) : WideFits k z := by
  cases k <;> simp only [KindFits, WideFits, FitsSigned, FitsUnsigned, Nat.reduceSub, Int.reducePow] at * <;> omega

/-- a number that begins with no integer of the kind: a sign where there is none -/
theorem kindLit_sign {k : IntKind} {l : Bytes} {z : Int} (hl : IntLit l z) (h : ¬ KindLit k l z) :
    (∀ b p, decodeKindT k b p = decodeUintT k 64 none b p ∨ ∃ n hi, decodeKindT k b p = decodeUintT k n (some hi) b p) ∧ ∃ i, l = 0x2d :: i := by
  cases hl with
  | nonneg i hi => cases k <;> simp [KindLit, hi] at h <;> exact absurd (.nonneg _ hi) h
  | neg i hi =>
    refine ⟨?_, i, rfl⟩
    cases k
    case int | int64 | int8 | int16 | int32 => all_goals exact absurd (IntLit.neg i hi) h
    case uint | uint64 | uintptr => all_goals exact fun _ _ => .inl rfl
    all_goals exact fun _ _ => .inr ⟨_, _, rfl⟩

/-- anything else but `null` for an integer -/
theorem decodeKindT_value (k : IntKind) {j : Json} {v r : Bytes} (hj : Derives (.value j) v) (hf : Follow j r) (h0 : j ≠ .null)
    (hn : ∀ l z, Whole v l z → ¬ KindLit k l z) (p : DV) :
    decodeKindT k (v ++ r) p = .err p (skipSpaces r) (.quote (.int k) (v ++ r)) := by
  have hnull : hasNullPrefix (v ++ r) = false := by
    rw [hasNull_value hj]; cases j <;> first | rfl | exact absurd rfl h0
  by_cases hnum : ∃ s, j = .num s
  · obtain ⟨s, rfl⟩ := hnum
    obtain ⟨rfl, hs⟩ := num_derives hj
    obtain ⟨l, z, hw⟩ := jnumber_whole hs
    have hl := hw
    obtain ⟨f, e, ev, hl, _, _⟩ := hl
    obtain ⟨h1, i, rfl⟩ := kindLit_sign hl (hn _ z hw)
    have hu := fun ty => parseUintT_value hj hf (by
      intro c t ec hd
      rw [ev] at ec
      injection ec with ec _
      subst ec
      exact absurd hd (by decide)) ty
    rcases h1 (v ++ r) p with h | ⟨n, hi, h⟩ <;>
      rw [h] <;> simp only [decodeUintT, hnull, Bool.false_eq_true, if_false, hu]
  · have hi := fun ty => parseIntT_value hj hf (fun s h => hnum ⟨s, h⟩) ty
    have hu := fun ty => parseUintT_value hj hf (by
      intro c t ec hd
      obtain ⟨c', t', e1, hc⟩ := derives_head hj
      rw [ec] at e1
      injection e1 with e1 _
      subst e1
      have hdr := digit_range (.inr hd)
      cases j <;> simp only [headOk] at hc <;> simp_all) ty
    cases k <;> simp only [decodeKindT, decodeIntT, decodeUintT, hnull, Bool.false_eq_true, if_false, hi, hu]

/-- what is quoted and which type is named -/
def TSays (s : Scalar) (v r : Bytes) (e : TErr) : Prop :=
  ∃ ty near, (e = .over ty near ∨ e = .quote ty near) ∧ (near = v ∨ near = v ++ r) ∧ (ty = s ∨ (s = .duration ∧ ty = .int .int32))

theorem inputErrT_says {s ty : Scalar} {j : Json} {v r : Bytes} (hj : Derives (.value j) v) (hf : Follow j r)
    (ht : ty = s ∨ (s = .duration ∧ ty = .int .int32)) {p x : DV} {r' : Bytes} {e : TErr} (h : inputErrT ty (v ++ r) p = .err x r' e) :
    TSays s v r e := by
  rw [inputErrT_value hj hf] at h
  injection h with _ _ h
  exact ⟨ty, v ++ r, .inr h.symm, .inr rfl, ht⟩

theorem decodeKindT_null (k : IntKind) {b : Bytes} (h : hasNullPrefix b = true) (p : DV) : decodeKindT k b p = .ok p (b.drop 4) := by
  cases k <;> simp [decodeKindT, decodeIntT, decodeUintT, h]

theorem kindT_says (k : IntKind) {j : Json} {v r : Bytes} (hj : Derives (.value j) v) (hf : Follow j r) {p x : DV} {r' : Bytes} {e : TErr}
    (h : decodeKindT k (v ++ r) p = .err x r' e) : TSays (.int k) v r e := by
  by_cases h0 : j = .null
  · subst h0
    rw [decodeKindT_null k (by rw [hasNull_value hj]; rfl)] at h
    exact absurd h (by simp)
  by_cases hn : ∃ l z, Whole v l z ∧ KindLit k l z
  · obtain ⟨l, z, hw, hk⟩ := hn
    have hr : NumStop r := by
      have hv := whole_jnumber hw
      cases j with
      | num => exact hf
      | null => exact absurd rfl h0
      | _ =>
        exfalso
        obtain ⟨c, t, e1, hc⟩ := jnumber_head hv
        obtain ⟨c', t', e2, hc'⟩ := derives_head hj
        rw [e1] at e2
        injection e2 with e2 _
        subst e2
        have := digit_range hc
        simp only [headOk] at hc'
        simp_all
    obtain ⟨h1, h2, h3⟩ := decodeKindT_num k hw hk hr p
    by_cases hwf : WideFits k z
    · by_cases hv : v = l
      · by_cases hkf : KindFits k z
        · exfalso
          have := decodeKindT_erase k (v ++ r) p
          rw [h] at this
          subst hv
          have ok := fun q => (C10_sized k hk (numStop_intStop hr) q).1 hkf
          unfold decodeInt at this
          rw [hasNull_num (whole_jnumber hw), ok] at this
          simp [TRes.erase] at this
        · rw [h3 hwf hv hkf] at h
          injection h with _ _ h
          exact ⟨_, _, .inl h.symm, .inl rfl, .inl rfl⟩
      · rw [h2 hwf hv] at h
        injection h with _ _ h
        exact ⟨_, _, .inr h.symm, .inl rfl, .inl rfl⟩
    · rw [h1 hwf] at h
      injection h with _ _ h
      exact ⟨_, _, .inl h.symm, .inr rfl, .inl rfl⟩
  · rw [decodeKindT_value k hj hf h0 (fun l z hw hk => hn ⟨l, z, hw, hk⟩)] at h
    injection h with _ _ h
    exact ⟨_, _, .inr h.symm, .inr rfl, .inl rfl⟩

theorem decT_says (l : Lib) (s : Scalar) {j : Json} {v r : Bytes} (hj : Derives (.value j) v) (hf : Follow j r) {p x : DV} {r' : Bytes}
    {e : TErr} (h : decT l s (v ++ r) p = .err x r' e) : TSays s v r e := by
  cases s with
  | int k => exact kindT_says k hj hf h
  | bool =>
    simp only [decT, decodeBoolT] at h
    repeat' split at h
    all_goals first
      | exact absurd h (by simp)
      | exact inputErrT_says hj hf (.inl rfl) h
  | float32 | float64 =>
    simp only [decT, decodeFloatT] at h
    repeat' split at h
    all_goals first
      | exact absurd h (by simp)
      | exact inputErrT_says hj hf (.inl rfl) h
  | number =>
    simp only [decT, decodeNumberT] at h
    repeat' split at h
    all_goals first
      | exact absurd h (by simp)
      | exact inputErrT_says hj hf (.inl rfl) h
  | string =>
    simp only [decT, decodeStringT] at h
    split at h
    · exact absurd h (by simp)
    · split at h
      · exact absurd h (by simp)
      · rename_i hu
        split at h
        · exact inputErrT_says hj hf (.inl rfl) h
        · rename_i hq
          exfalso
          obtain ⟨c, t, e1, hc⟩ := derives_head hj
          rw [e1] at hq
          have hc' : c = 0x22 := by simpa using hq
          cases hj with
          | str _ hs =>
            obtain ⟨n, e2⟩ := unquote_ok hs r
            rw [e2] at hu
            simp at hu
          | num s hs =>
            simp only [headOk] at hc
            have := digit_range hc
            simp_all
          | _ =>
            simp only [headOk] at hc
            rw [hc'] at hc
            exact absurd hc (by decide)
      · exact absurd h (by simp)
  | duration =>
    simp only [decT, decodeDurationT] at h
    repeat' split at h
    all_goals first
      | exact absurd h (by simp)
      | exact inputErrT_says hj hf (.inl rfl) h
      | exact inputErrT_says hj hf (.inr ⟨rfl, rfl⟩) h
      | (rename_i eb _ _ _; rw [← eb] at h; exact inputErrT_says hj hf (.inl rfl) h)
  | time =>
    simp only [decT, decodeTimeT] at h
    repeat' split at h
    all_goals first
      | exact absurd h (by simp)
      | exact inputErrT_says hj hf (.inl rfl) h

end JC

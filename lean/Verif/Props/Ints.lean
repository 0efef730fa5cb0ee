import Verif.Lemmas.Ints
/-!
Properties C08, C09, C10: integers decode to their mathematical value or fail.
-/
namespace JC.Props
open JC Spec

theorem hasNull_not_lit {b r : Bytes} {z : Int} (h : IntLit b z) : hasNullPrefix (b ++ r) = false := by
  have : ∃ c t, b ++ r = c :: t ∧ c ≠ 0x6e := by
    cases h with
    | nonneg i hi =>
      cases hi with
      | zero => exact ⟨_, _, rfl, by decide⟩
      | pos d ds h1 h2 hd =>
        refine ⟨d, ds ++ r, rfl, ?_⟩
        rintro rfl; revert h2; decide
    | neg i hi => exact ⟨_, _, rfl, by decide⟩
  obtain ⟨c, t, e, hc⟩ := this
  rw [e]
  unfold hasNullPrefix
  cases t with
  | nil => simp
  | cons => simp [hc]

theorem wrapS64_fits {z : Int} (h : FitsSigned 64 z) : wrapS 64 z = z := by
  unfold FitsSigned at h; simp only [Nat.reduceSub, Int.reducePow] at h
  exact wrapS64_id (by omega) (by omega)

theorem wrapU64_fits {z : Int} (h : FitsUnsigned 64 z) : wrapU 64 z = z := by
  unfold FitsUnsigned at h; simp only [Int.reducePow] at h
  unfold wrapU; simp only [Int.reducePow]; omega

/-- **C08** A literal without fraction and exponent decodes into an `int64` to
its value when that fits, and is an error that leaves the destination alone
when it does not. -/
theorem C08_int64 {b r : Bytes} {z : Int} (h : IntLit b z) (hr : IntStop r) (p : Int) :
    decodeInt64 (b ++ r) p =
      if FitsSigned 64 z then ⟨z, r, none⟩ else ⟨p, b ++ r, some .unmarshalType⟩ := by
  unfold decodeInt64
  rw [hasNull_not_lit h, parseInt_lit h hr]
  by_cases hf : FitsSigned 64 z
  · simp [hf, wrapS64_fits hf]
  · simp [hf]

/-- **C08** Same for `uint64` (the literal has no sign). -/
theorem C08_uint64 {b r : Bytes} (h : JInt b) (hr : IntStop r) (p : Int) :
    decodeUint64 (b ++ r) p =
      if FitsUnsigned 64 (natVal b) then ⟨natVal b, r, none⟩ else ⟨p, b ++ r, some .unmarshalType⟩ := by
  have hl := IntLit.nonneg b h
  unfold decodeUint64
  rw [hasNull_not_lit hl, parseUint_lit hl hr (.inr h)]
  by_cases hf : FitsUnsigned 64 (natVal b)
  · simp [hf, wrapU64_fits hf]
  · simp [hf]

/-- **C08** Nothing else is accepted: a nil error means the input started with
`null` (destination untouched) or with an integer literal, not continued by a
fraction or exponent, whose value fits and is what was stored. -/
theorem C08_int64_only {b : Bytes} {p : Int} (h : (decodeInt64 b p).err = none) :
    (b.take 4 = bs! "null" ∧ (decodeInt64 b p).dest = p) ∨
    ∃ l, b = l ++ (decodeInt64 b p).rest ∧ IntLit l (decodeInt64 b p).dest ∧
      FitsSigned 64 (decodeInt64 b p).dest ∧ IntStop (decodeInt64 b p).rest := by
  unfold decodeInt64 at *
  by_cases hn : hasNullPrefix b = true
  · left
    rw [if_pos hn]
    simp only [hasNullPrefix, Bool.and_eq_true, beq_iff_eq] at hn
    exact ⟨hn.2, rfl⟩
  · right
    rw [if_neg hn] at *
    cases hp : parseInt b with
    | fail r e => rw [hp] at h; simp at h
    | ok v r =>
      obtain ⟨l, e, hl, hf, hs⟩ := parseInt_ok hp
      simp only [wrapS64_fits hf]
      exact ⟨l, e, hl, hf, hs⟩

theorem C08_uint64_only {b : Bytes} {p : Int} (h : (decodeUint64 b p).err = none) :
    (b.take 4 = bs! "null" ∧ (decodeUint64 b p).dest = p) ∨
    ∃ l, b = l ++ (decodeUint64 b p).rest ∧ JInt l ∧ (decodeUint64 b p).dest = natVal l ∧
      FitsUnsigned 64 (natVal l) ∧ IntStop (decodeUint64 b p).rest := by
  unfold decodeUint64 at *
  by_cases hn : hasNullPrefix b = true
  · left
    rw [if_pos hn]
    simp only [hasNullPrefix, Bool.and_eq_true, beq_iff_eq] at hn
    exact ⟨hn.2, rfl⟩
  · right
    rw [if_neg hn] at *
    cases hp : parseUint b with
    | fail r e => rw [hp] at h; simp at h
    | ok v r =>
      obtain ⟨l, e, hj, hl, hf, hs⟩ := parseUint_ok hp
      simp only [wrapU64_fits hf]
      have hv : v = natVal l := by
        cases hl with
        | nonneg => rfl
        | neg i hi => exact absurd (hj.digits.2 0x2d (by simp)) (by decide)
      subst hv
      exact ⟨l, e, hj, rfl, hf, hs⟩

/-- **C08** A number with a fraction or an exponent is an error, for `int64` and
`uint64`, and leaves the destination unchanged. -/
theorem C08_fraction {sgn i f e r : Bytes} (hs : sgn = [] ∨ sgn = [0x2d]) (hi : JInt i) (hf : JFrac f)
    (he : JExp e) (hfe : f ≠ [] ∨ e ≠ []) (p : Int) :
    ((decodeInt64 (sgn ++ i ++ f ++ e ++ r) p).err ≠ none ∧ (decodeInt64 (sgn ++ i ++ f ++ e ++ r) p).dest = p) ∧
    ((decodeUint64 (sgn ++ i ++ f ++ e ++ r) p).err ≠ none ∧ (decodeUint64 (sgn ++ i ++ f ++ e ++ r) p).dest = p) := by
  -- what follows the integer part
  have htail : ∃ c t, f ++ e ++ r = c :: t ∧ (c = 0x2e ∨ c = 0x65 ∨ c = 0x45) := by
    cases hf with
    | some ds _ => exact ⟨_, _, rfl, .inl rfl⟩
    | none =>
      cases he with
      | none => simp at hfe
      | some c sg ds hc _ _ => exact ⟨_, _, rfl, .inr hc⟩
  obtain ⟨c, t, hct, hc⟩ := htail
  have hnd : NoDig (f ++ e ++ r) := by
    intro c' t' e'
    rw [hct] at e'; injection e' with e1 _; subst e1
    rcases hc with rfl | rfl | rfl <;> decide
  have key : ∀ l r', sgn ++ i ++ f ++ e ++ r = l ++ r' → (∃ z, IntLit l z) → IntStop r' → False := by
    intro l r' heq ⟨z, hl⟩ hst
    have e1 : sgn ++ (i ++ (f ++ e ++ r)) = l ++ r' := by simpa using heq
    have fin : ∀ i', JInt i' → i ++ (f ++ e ++ r) = i' ++ r' → False := by
      intro i' hi' e2
      obtain ⟨_, e3⟩ := digit_run_unique hi.digits.2 hi'.digits.2 hnd (intStop_noDig hst) e2
      have := hst c t (by rw [← e3, hct])
      rcases hc with rfl | rfl | rfl <;> simp at this
    have headDigit : ∀ x y : Bytes, JInt x → ¬ ∃ s, x ++ y = 0x2d :: s := by
      rintro x y hx ⟨s, es⟩
      have hd := hx.digits
      cases x with
      | nil => exact hd.1 rfl
      | cons a x =>
        simp only [List.cons_append, List.cons.injEq] at es
        obtain ⟨rfl, _⟩ := es
        exact absurd (hd.2 0x2d (by simp)) (by decide)
    rcases hs with rfl | rfl
    · cases hl with
      | nonneg i' hi' => exact fin _ hi' (by simpa using e1)
      | neg i' hi' => exact headDigit _ _ hi ⟨i' ++ r', by simpa using e1⟩
    · cases hl with
      | nonneg i' hi' => exact headDigit _ _ hi' ⟨_, e1.symm⟩
      | neg i' hi' => exact fin i' hi' (by simpa using e1)
  have hnull : hasNullPrefix (sgn ++ i ++ f ++ e ++ r) = false := by
    rcases hs with rfl | rfl
    · have := hasNull_not_lit (r := f ++ e ++ r) (IntLit.nonneg i hi)
      simpa using this
    · have := hasNull_not_lit (r := f ++ e ++ r) (IntLit.neg i hi)
      simpa using this
  constructor
  · unfold decodeInt64
    rw [hnull]
    cases hp : parseInt (sgn ++ i ++ f ++ e ++ r) with
    | fail => simp
    | ok v r' =>
      obtain ⟨l, e1, hl, _, hst⟩ := parseInt_ok hp
      exact (key l r' e1 ⟨_, hl⟩ hst).elim
  · unfold decodeUint64
    rw [hnull]
    cases hp : parseUint (sgn ++ i ++ f ++ e ++ r) with
    | fail => simp
    | ok v r' =>
      obtain ⟨l, e1, _, hl, _, hst⟩ := parseUint_ok hp
      exact (key l r' e1 ⟨_, hl⟩ hst).elim

/-- The boundaries of C08: both extreme values are stored, their neighbours are
errors, a fraction is an error. -/
example :
    decodeInt64 (bs! "-9223372036854775808,") 7 = ⟨-9223372036854775808, bs! ",", none⟩ ∧
    decodeInt64 (bs! "-9223372036854775809") 7 = ⟨7, bs! "-9223372036854775809", some .unmarshalType⟩ ∧
    decodeInt64 (bs! "9223372036854775807") 7 = ⟨9223372036854775807, [], none⟩ ∧
    decodeInt64 (bs! "9223372036854775808") 7 = ⟨7, bs! "9223372036854775808", some .unmarshalType⟩ ∧
    decodeUint64 (bs! "18446744073709551615") 7 = ⟨18446744073709551615, [], none⟩ ∧
    decodeUint64 (bs! "18446744073709551616") 7 = ⟨7, bs! "18446744073709551616", some .unmarshalType⟩ ∧
    decodeInt64 (bs! "1.0") 7 = ⟨7, [], some .unmarshalType⟩ ∧
    decodeInt64 (bs! "01") 7 = ⟨7, bs! "01", some .syntax⟩ := by decide +kernel

/-- **C09** Formatting and decoding an `int64` gives it back. -/
theorem C09_int64 (z : Int) (h : FitsSigned 64 z) (r : Bytes) (hr : IntStop r) (p : Int) :
    decodeInt64 (fmtInt z ++ r) p = ⟨z, r, none⟩ := by
  rw [C08_int64 (fmtInt_lit z) hr, if_pos h]

/-- **C09** Formatting and decoding a `uint64` gives it back. -/
theorem C09_uint64 (n : Nat) (h : n < 2 ^ 64) (r : Bytes) (hr : IntStop r) (p : Int) :
    decodeUint64 (fmtNat n ++ r) p = ⟨n, r, none⟩ := by
  rw [C08_uint64 (fmtNat_jint n) hr, (fmtNat_val n).1, if_pos]
  unfold FitsUnsigned
  simp only [Int.reducePow]
  omega

example : fmtInt (-9223372036854775808) = bs! "-9223372036854775808" ∧ fmtNat 18446744073709551615 = bs! "18446744073709551615" ∧
    fmtInt 0 = bs! "0" := by decide +kernel

/-- Range of an integer kind of Go on a 64-bit platform. -/
def KindFits : IntKind → Int → Prop
  | .int | .int64 => FitsSigned 64
  | .int8 => FitsSigned 8
  | .int16 => FitsSigned 16
  | .int32 => FitsSigned 32
  | .uint | .uint64 | .uintptr => FitsUnsigned 64
  | .uint8 => FitsUnsigned 8
  | .uint16 => FitsUnsigned 16
  | .uint32 => FitsUnsigned 32

/-- Literals allowed for a kind: unsigned kinds take no sign. -/
def KindLit : IntKind → Bytes → Int → Prop
  | .int | .int64 | .int8 | .int16 | .int32 => IntLit
  | _ => fun b z => JInt b ∧ z = natVal b

/-- **C10** For every integer kind, a literal in the range of the type is stored
exactly and one outside is an error that leaves the destination unchanged. -/
theorem C10_sized (k : IntKind) {b r : Bytes} {z : Int} (h : KindLit k b z) (hr : IntStop r) (p : Int) :
    (KindFits k z → decodeIntKind k (b ++ r) p = ⟨z, r, none⟩) ∧
    (¬ KindFits k z → ∃ r', decodeIntKind k (b ++ r) p = ⟨p, r', some .unmarshalType⟩) := by
  have hsig : ∀ (n : Nat) (lo hi : Int), IntLit b z → (∀ z, FitsSigned n z → FitsSigned 64 z ∧ lo ≤ z ∧ z ≤ hi ∧ wrapS n z = z) →
      (∀ z, lo ≤ z → z ≤ hi → FitsSigned n z) →
      (FitsSigned n z → decodeIntSized n lo hi (b ++ r) p = ⟨z, r, none⟩) ∧
      (¬ FitsSigned n z → ∃ r', decodeIntSized n lo hi (b ++ r) p = ⟨p, r', some .unmarshalType⟩) := by
    intro n lo hi hl h1 h2
    unfold decodeIntSized
    rw [hasNull_not_lit hl, parseInt_lit hl hr]
    constructor
    · intro hf
      obtain ⟨a, c, d, e⟩ := h1 z hf
      simp only [a]
      simp only [Bool.false_eq_true, if_false, if_true]
      rw [if_neg (by omega), e]
    · intro hf
      by_cases ha : FitsSigned 64 z
      · simp only [ha]
        simp only [Bool.false_eq_true, if_false, if_true]
        rw [if_pos]
        · exact ⟨_, rfl⟩
        · refine Decidable.byContradiction fun hn => hf (h2 z (by omega) (by omega))
      · simp [ha]
  have huns : ∀ (n : Nat) (hi : Int), JInt b ∧ z = natVal b →
      (∀ z, FitsUnsigned n z → FitsUnsigned 64 z ∧ z ≤ hi ∧ wrapU n z = z) →
      (∀ z, 0 ≤ z → z ≤ hi → FitsUnsigned n z) →
      (FitsUnsigned n z → decodeUintSized n hi (b ++ r) p = ⟨z, r, none⟩) ∧
      (¬ FitsUnsigned n z → ∃ r', decodeUintSized n hi (b ++ r) p = ⟨p, r', some .unmarshalType⟩) := by
    intro n hi ⟨hj, hz⟩ h1 h2
    subst hz
    have hl := IntLit.nonneg b hj
    unfold decodeUintSized
    rw [hasNull_not_lit hl, parseUint_lit hl hr (.inr hj)]
    constructor
    · intro hf
      obtain ⟨a, d, e⟩ := h1 _ hf
      simp only [a]
      simp only [Bool.false_eq_true, if_false, if_true]
      rw [if_neg (by omega), e]
    · intro hf
      by_cases ha : FitsUnsigned 64 (natVal b)
      · simp only [ha]
        simp only [Bool.false_eq_true, if_false, if_true]
        rw [if_pos]
        · exact ⟨_, rfl⟩
        · refine Decidable.byContradiction fun hn => hf (h2 _ (by omega) (by omega))
      · simp [ha]
  cases k <;> simp only [KindLit] at h <;> simp only [KindFits, decodeIntKind]
  case int | int64 =>
    all_goals
      rw [C08_int64 h hr]
      constructor
      · intro hf; rw [if_pos hf]
      · intro hf; rw [if_neg hf]; exact ⟨_, rfl⟩
  case uint | uint64 | uintptr =>
    all_goals
      obtain ⟨hj, rfl⟩ := h
      rw [C08_uint64 hj hr]
      constructor
      · intro hf; rw [if_pos hf]
      · intro hf; rw [if_neg hf]; exact ⟨_, rfl⟩
  case int8 | int16 | int32 =>
    all_goals
      apply hsig _ _ _ h
      · intro z; simp only [FitsSigned, wrapS, Nat.reduceSub, Int.reducePow]; omega
      · intro z; simp only [FitsSigned, Nat.reduceSub, Int.reducePow]; omega
  case uint8 | uint16 | uint32 =>
    all_goals
      apply huns _ _ h
      · intro z; simp only [FitsUnsigned, wrapU, Int.reducePow]; omega
      · intro z; simp only [FitsUnsigned, Int.reducePow]; omega

/-- **C10** Whatever the input, an error leaves the destination unchanged, and a
nil error means `null` or a literal of the type's range, not continued by a digit,
fraction or exponent, whose value was stored. -/
theorem C10_only (k : IntKind) (b : Bytes) (p : Int) :
    ((decodeIntKind k b p).err ≠ none → (decodeIntKind k b p).dest = p) ∧
    ((decodeIntKind k b p).err = none →
      (b.take 4 = bs! "null" ∧ (decodeIntKind k b p).dest = p) ∨
      ∃ l z, b = l ++ (decodeIntKind k b p).rest ∧ KindLit k l z ∧ KindFits k z ∧
        (decodeIntKind k b p).dest = z ∧ IntStop (decodeIntKind k b p).rest) := by
  have hnull : hasNullPrefix b = true → b.take 4 = bs! "null" := by
    intro hn
    simp only [hasNullPrefix, Bool.and_eq_true, beq_iff_eq] at hn
    exact hn.2
  have h64 : ((decodeInt64 b p).err ≠ none → (decodeInt64 b p).dest = p) ∧
      ((decodeInt64 b p).err = none → (b.take 4 = bs! "null" ∧ (decodeInt64 b p).dest = p) ∨
      ∃ l z, b = l ++ (decodeInt64 b p).rest ∧ IntLit l z ∧ FitsSigned 64 z ∧ (decodeInt64 b p).dest = z ∧ IntStop (decodeInt64 b p).rest) := by
    constructor
    · unfold decodeInt64
      split
      · simp
      · split <;> simp
    · intro h
      rcases C08_int64_only h with h | ⟨l, e, hl, hf, hst⟩
      · exact .inl h
      · exact .inr ⟨l, _, e, hl, hf, rfl, hst⟩
  have hu64 : ((decodeUint64 b p).err ≠ none → (decodeUint64 b p).dest = p) ∧
      ((decodeUint64 b p).err = none → (b.take 4 = bs! "null" ∧ (decodeUint64 b p).dest = p) ∨
      ∃ l, ∃ z : Int, b = l ++ (decodeUint64 b p).rest ∧ (JInt l ∧ z = natVal l) ∧ FitsUnsigned 64 z ∧ (decodeUint64 b p).dest = z ∧ IntStop (decodeUint64 b p).rest) := by
    constructor
    · unfold decodeUint64
      split
      · simp
      · split <;> simp
    · intro h
      rcases C08_uint64_only h with h | ⟨l, e, hl, hf, hv, hst⟩
      · exact .inl h
      · exact .inr ⟨l, _, e, ⟨hl, rfl⟩, hv, hf, hst⟩
  have hsig : ∀ (n : Nat) (lo hi : Int),
      (∀ z, lo ≤ z → z ≤ hi → FitsSigned n z ∧ wrapS n z = z) →
      ((decodeIntSized n lo hi b p).err ≠ none → (decodeIntSized n lo hi b p).dest = p) ∧
      ((decodeIntSized n lo hi b p).err = none → (b.take 4 = bs! "null" ∧ (decodeIntSized n lo hi b p).dest = p) ∨
      ∃ l z, b = l ++ (decodeIntSized n lo hi b p).rest ∧ IntLit l z ∧ FitsSigned n z ∧ (decodeIntSized n lo hi b p).dest = z ∧ IntStop (decodeIntSized n lo hi b p).rest) := by
    intro n lo hi h1
    unfold decodeIntSized
    by_cases hn : hasNullPrefix b = true
    · rw [if_pos hn]; exact ⟨by simp, fun _ => .inl ⟨hnull hn, rfl⟩⟩
    · rw [if_neg hn]
      cases hp : parseInt b with
      | fail => simp
      | ok v r =>
        simp only []
        split
        · simp
        · rename_i hlt
          obtain ⟨l, e, hl, _, hst⟩ := parseInt_ok hp
          obtain ⟨hf, hw⟩ := h1 v (by omega) (by omega)
          exact ⟨by simp, fun _ => .inr ⟨l, v, e, hl, hf, hw, hst⟩⟩
  have huns : ∀ (n : Nat) (hi : Int),
      (∀ z, 0 ≤ z → z ≤ hi → FitsUnsigned n z ∧ wrapU n z = z) →
      ((decodeUintSized n hi b p).err ≠ none → (decodeUintSized n hi b p).dest = p) ∧
      ((decodeUintSized n hi b p).err = none → (b.take 4 = bs! "null" ∧ (decodeUintSized n hi b p).dest = p) ∨
      ∃ l, ∃ z : Int, b = l ++ (decodeUintSized n hi b p).rest ∧ (JInt l ∧ z = natVal l) ∧ FitsUnsigned n z ∧ (decodeUintSized n hi b p).dest = z ∧ IntStop (decodeUintSized n hi b p).rest) := by
    intro n hi h1
    unfold decodeUintSized
    by_cases hn : hasNullPrefix b = true
    · rw [if_pos hn]; exact ⟨by simp, fun _ => .inl ⟨hnull hn, rfl⟩⟩
    · rw [if_neg hn]
      cases hp : parseUint b with
      | fail => simp
      | ok v r =>
        simp only []
        split
        · simp
        · rename_i hlt
          obtain ⟨l, e, hj, hl, _, hst⟩ := parseUint_ok hp
          have hv : v = natVal l := by
            cases hl with
            | nonneg => rfl
            | neg i hi => exact absurd (hj.digits.2 0x2d (by simp)) (by decide)
          obtain ⟨hf, hw⟩ := h1 v (by omega) (by omega)
          exact ⟨by simp, fun _ => .inr ⟨l, v, e, ⟨hj, hv⟩, hf, hw, hst⟩⟩
  cases k <;> simp only [KindLit, KindFits, decodeIntKind]
  case int | int64 => all_goals exact h64
  case uint | uint64 | uintptr => all_goals exact hu64
  case int8 | int16 | int32 =>
    all_goals
      apply hsig
      intro z; simp only [FitsSigned, wrapS, Nat.reduceSub, Int.reducePow]; omega
  case uint8 | uint16 | uint32 =>
    all_goals
      apply huns
      intro z; simp only [FitsUnsigned, wrapU, Int.reducePow]; omega

example :
    decodeIntKind .int8 (bs! "-128]") 5 = ⟨-128, bs! "]", none⟩ ∧
    decodeIntKind .int8 (bs! "128]") 5 = ⟨5, bs! "]", some .unmarshalType⟩ ∧
    decodeIntKind .uint16 (bs! "65536") 5 = ⟨5, [], some .unmarshalType⟩ ∧
    decodeIntKind .uint8 (bs! "-1") 5 = ⟨5, [], some .unmarshalType⟩ ∧
    decodeIntKind .uint32 (bs! "4294967295") 5 = ⟨4294967295, [], none⟩ ∧
    decodeIntKind .int32 (bs! "null") 5 = ⟨5, [], none⟩ := by decide +kernel

end JC.Props

import Verif.Lemmas.TypeErr
/-!
**C98** What an `*UnmarshalTypeError` says about a plain value that does not fit: which bytes its `Value` shows, when it
speaks of an overflow, and which `Type` it names.
-/
namespace JC.Props
open JC Spec

/-- **C98** Without the fields of the error, the decoders of `Model/TypeErr.lean` are those of `Model/Decode.lean`. -/
theorem C98_erases (c : DCfg) (dyn : Ty → Dec) (s : Scalar) (b : Bytes) (p : DV) : (decT c.lib s b p).erase = dec c dyn s.ty b p :=
  decT_erase c.lib s b p c rfl dyn

/-- An error about the bytes `near`, naming the type `ty`. -/
def About (e : TErr) (ty : Scalar) (near : Bytes) : Prop := e = .over ty near ∨ e = .quote ty near

/-- **C98**, full claim, first part: the error is about the value, and nothing but the value. -/
def C98_value_statement : Prop :=
  ∀ (l : Lib) (s : Scalar) (j : Json) (v r : Bytes) (p x : DV) (r' : Bytes) (e : TErr), Derives (.value j) v → Follow j r →
    decT l s (v ++ r) p = .err x r' e → ∃ ty, About e ty v

/-- **C98**, full claim, second part: only an integer overflows. -/
def C98_over_statement : Prop :=
  ∀ (l : Lib) (k : IntKind) (j : Json) (v r : Bytes) (p x : DV) (r' : Bytes) (ty : Scalar) (near : Bytes), Derives (.value j) v → Follow j r →
    decT l (.int k) (v ++ r) p = .err x r' (.over ty near) → ∃ z, KindLit k v z

/-- **C98**, full claim, third part: the error names the type of the destination. -/
def C98_type_statement : Prop :=
  ∀ (l : Lib) (s : Scalar) (j : Json) (v r : Bytes) (p x : DV) (r' : Bytes) (e : TErr), Derives (.value j) v → Follow j r →
    decT l s (v ++ r) p = .err x r' e → ∃ near, About e s near

/-- **C98** (partial) For every type of plain values, every value `v` of JSON and whatever follows it: if decoding fails, the
error is about `v`, or about `v` with what follows it. It names the type of the destination, or else `int32` for a
`time.Duration`. Missing: the first part and the third part of the claim are false (`C98_fails_value`, `C98_fails_type`). -/
theorem C98_about_partial (l : Lib) (s : Scalar) {j : Json} {v r : Bytes} (hj : Derives (.value j) v) (hf : Follow j r) {p x : DV}
    {r' : Bytes} {e : TErr} (h : decT l s (v ++ r) p = .err x r' e) :
    ∃ ty near, About e ty near ∧ (near = v ∨ near = v ++ r) ∧ (ty = s ∨ (s = .duration ∧ ty = .int .int32)) :=
  decT_says l s hj hf h

/-- **C98** A value with nothing behind it is what the error is about. -/
theorem C98_alone (l : Lib) (s : Scalar) {j : Json} {v : Bytes} (hj : Derives (.value j) v) {p x : DV} {r' : Bytes} {e : TErr}
    (h : decT l s v p = .err x r' e) : ∃ ty, About e ty v := by
  have hf : Follow j [] := by
    cases j with
    | num => exact NumStop.nil
    | _ => trivial
  rw [← List.append_nil v] at h
  obtain ⟨ty, near, h1, h2, _⟩ := decT_says l s hj hf h
  rw [List.append_nil] at h2
  obtain rfl : near = v := h2.elim id id
  exact ⟨ty, h1⟩

/-- the values that follow from `C98_about_partial` with at least 32 bytes -/
theorem prefix32_long {v r near : Bytes} (hv : 32 ≤ v.length) (hn : near = v ∨ near = v ++ r) : prefix32 near = v.take 32 ++ bs! "..." := by
  unfold prefix32
  rcases hn with rfl | rfl
  · rw [if_neg (by omega)]
  · rw [if_neg (by simp only [List.length_append]; omega), List.take_append_of_le_length hv]

/-- **C98** Of a value of at least 32 bytes the error shows the first 32 bytes, whatever follows it. -/
theorem C98_long (l : Lib) (s : Scalar) {j : Json} {v r : Bytes} (hj : Derives (.value j) v) (hf : Follow j r) {p x : DV} {r' : Bytes}
    {e : TErr} (h : decT l s (v ++ r) p = .err x r' e) (hv : 32 ≤ v.length) (q : Bytes → Bytes) :
    e.value q = bs! "number " ++ (v.take 32 ++ bs! "...") ++ bs! " overflows" ∨ e.value q = q (v.take 32 ++ bs! "...") := by
  obtain ⟨ty, near, h1, h2, _⟩ := decT_says l s hj hf h
  rcases h1 with rfl | rfl
  · left; simp only [TErr.value, prefix32_long hv h2]
  · right; simp only [TErr.value, prefix32_long hv h2]

/-- **C98** `Value` is short whatever the input: at most 35 bytes are shown, in an overflow at most 52 with the words around them. -/
theorem C98_short (e : TErr) (q : Bytes → Bytes) :
    ((∃ ty near, e = .over ty near) → (e.value q).length ≤ 52) ∧
    ∀ ty near, e = .quote ty near → ∃ shown : Bytes, e.value q = q shown ∧ shown.length ≤ 35 := by
  have hp : ∀ b : Bytes, (prefix32 b).length ≤ 35 := by
    intro b
    unfold prefix32
    split
    · omega
    · simp only [List.length_append, List.length_take]
      have : (bs! "..." : Bytes).length = 3 := rfl
      omega
  constructor
  · rintro ⟨ty, near, rfl⟩
    have := hp near
    simp only [TErr.value, List.length_append]
    have h1 : (bs! "number " : Bytes).length = 7 := rfl
    have h2 : (bs! " overflows" : Bytes).length = 10 := rfl
    omega
  · rintro ty near rfl
    exact ⟨_, rfl, hp near⟩

/-- **C98** Numbers for integers, exactly. Let `l` be the integer that the number `v` begins with. If `l` does not fit the widest type
of the same signedness, the error is an overflow of `v` and what follows, and nothing counts as read. If it does and
`v` is more than `l`, `v` is quoted. If it does and `v` is `l`, then `v` overflows unless it fits the type. -/
theorem C98_integer (lb : Lib) (k : IntKind) {v l r : Bytes} {z : Int} (h : Whole v l z) (hk : KindLit k l z) (hr : NumStop r) (p : DV) :
    (¬ WideFits k z → decT lb (.int k) (v ++ r) p = .err p (v ++ r) (.over (.int k) (v ++ r))) ∧
    (WideFits k z → v ≠ l → decT lb (.int k) (v ++ r) p = .err p r (.quote (.int k) v)) ∧
    (WideFits k z → v = l → ¬ KindFits k z → decT lb (.int k) (v ++ r) p = .err p r (.over (.int k) v)) :=
  decodeKindT_num k h hk hr p

/-- **C98** Everything else but `null` is quoted from its beginning, with what follows, where an integer is expected: values that are no
numbers, and numbers with a sign where the type has none. -/
theorem C98_no_integer (lb : Lib) (k : IntKind) {j : Json} {v r : Bytes} (hj : Derives (.value j) v) (hf : Follow j r) (h0 : j ≠ .null)
    (hn : ∀ l z, Whole v l z → ¬ KindLit k l z) (p : DV) :
    decT lb (.int k) (v ++ r) p = .err p (skipSpaces r) (.quote (.int k) (v ++ r)) :=
  decodeKindT_value k hj hf h0 hn p

theorem intLit_whole {v : Bytes} {z : Int} (h : IntLit v z) : Whole v v z := ⟨[], [], by simp, h, .none, .none⟩

/-- an integer literal is its own integer part -/
theorem whole_lit {v l : Bytes} {z z' : Int} (h : Whole v l z) (h' : IntLit v z') : v = l := by
  obtain ⟨f, e, ev, hl, hf, he⟩ := h
  have hnd : NoDig (f ++ e) := by simpa using whole_noDig hf he NumStop.nil
  have run : ∀ i i' : Bytes, JInt i → JInt i' → i ++ (f ++ e) = i' → f ++ e = [] := by
    intro i i' hi hi' e1
    exact (digit_run_unique hi.digits.2 hi'.digits.2 hnd (s := []) (by simp [NoDig]) (by simpa using e1)).2
  have hfe : f ++ e = [] := by
    cases hl with
    | nonneg _ hi =>
      cases h' with
      | nonneg _ hi' => exact run _ _ hi hi' (by rw [ev]; simp)
      | neg i' hi' =>
        exfalso
        cases l with
        | nil => exact hi.digits.1 rfl
        | cons a l =>
          simp only [List.cons_append] at ev
          injection ev with ev _
          exact absurd (hi.digits.2 a (by simp)) (by rw [← ev]; decide)
    | neg i hi =>
      cases h' with
      | nonneg _ hi' => exact absurd (hi'.digits.2 0x2d (by rw [ev]; simp)) (by decide)
      | neg i' hi' =>
        refine run _ _ hi hi' ?_
        simp only [List.cons_append] at ev
        injection ev with _ ev
        rw [ev]; simp
  rw [ev, List.append_assoc, hfe, List.append_nil]

theorem derives_whole {j : Json} {v l : Bytes} {z : Int} (hj : Derives (.value j) v) (h : Whole v l z) : j = .num v := by
  obtain ⟨c, t, e1, hc⟩ := jnumber_head (whole_jnumber h)
  obtain ⟨c', t', e2, hc'⟩ := derives_head hj
  rw [e1] at e2
  injection e2 with e2 _
  subst e2
  have := digit_range hc
  cases j with
  | num s => rw [(num_derives hj).1]
  | _ =>
    exfalso
    simp only [headOk] at hc'
    simp_all

/-- **C98** (partial) An integer that does not fit is called an overflow, and only a number that begins with an integer that does not fit is.
Missing: the number may have a fraction or an exponent (`C98_fails_over`). -/
theorem C98_over_partial (lb : Lib) (k : IntKind) {j : Json} {v r : Bytes} (hj : Derives (.value j) v) (hf : Follow j r) {p x : DV} {r' : Bytes}
    {e : TErr} (h : decT lb (.int k) (v ++ r) p = .err x r' e) :
    ((∃ z, KindLit k v z) → ∃ near, e = .over (.int k) near) ∧
    ((∃ ty near, e = .over ty near) → ∃ l z, Whole v l z ∧ KindLit k l z ∧ ¬ KindFits k z) := by
  by_cases hn : ∃ l z, Whole v l z ∧ KindLit k l z
  · obtain ⟨l, z, hw, hk⟩ := hn
    have hr : NumStop r := by rw [derives_whole hj hw] at hf; exact hf
    obtain ⟨h1, h2, h3⟩ := C98_integer lb k hw hk hr p
    by_cases hwf : WideFits k z
    · by_cases hv : v = l
      · by_cases hkf : KindFits k z
        · exfalso
          have he := decodeKindT_erase k (v ++ r) p
          have h' : decodeKindT k (v ++ r) p = .err x r' e := h
          rw [h'] at he
          subst hv
          have ok := fun q => (C10_sized k hk (numStop_intStop hr) q).1 hkf
          unfold decodeInt at he
          rw [hasNull_num (whole_jnumber hw), ok] at he
          simp [TRes.erase] at he
        · rw [h3 hwf hv hkf] at h
          injection h with _ _ h
          exact ⟨fun _ => ⟨_, h.symm⟩, fun _ => ⟨l, z, hw, hk, hkf⟩⟩
      · rw [h2 hwf hv] at h
        injection h with _ _ h
        subst h
        constructor
        · rintro ⟨z', hz'⟩
          exact absurd (whole_lit hw (kindLit_lit hz')) hv
        · rintro ⟨ty, near, h⟩
          exact absurd h (by simp)
    · rw [h1 hwf] at h
      injection h with _ _ h
      exact ⟨fun _ => ⟨_, h.symm⟩, fun _ => ⟨l, z, hw, hk, fun hkf => hwf (kindFits_wide hkf)⟩⟩
  · constructor
    · rintro ⟨z, hz⟩
      exact absurd ⟨v, z, intLit_whole (kindLit_lit hz), hz⟩ hn
    · rintro ⟨ty, near, rfl⟩
      exfalso
      by_cases h0 : j = .null
      · subst h0
        have h' : decodeKindT k (v ++ r) p = .err x r' (.over ty near) := h
        rw [decodeKindT_null k (by rw [hasNull_value hj]; rfl)] at h'
        exact absurd h' (by simp)
      · rw [C98_no_integer lb k hj hf h0 (fun l z hw hk => hn ⟨l, z, hw, hk⟩)] at h
        injection h with _ _ h
        exact absurd h (by simp)

/-- **C98** In `[true,7]`, for a slice of integers, the error about the first element is about `true,7]`. -/
theorem C98_fails_value : ¬ C98_value_statement := by
  intro h
  obtain ⟨ty, h⟩ := h noLib (.int .int) .tru (bs! "true") (bs! ",7]") (.int 0) (.int 0) (bs! ",7]") (.quote (.int .int) (bs! "true,7]")) .tru trivial
    (by with_unfolding_all rfl)
  rcases h with h | h
  · exact absurd h (by simp)
  · injection h with _ h
    exact absurd h (by decide)

/-- **C98** `9223372036854775808.5` is called an overflow for an `int`, although it is no integer; `1.5` is not. -/
theorem C98_fails_over : ¬ C98_over_statement := by
  intro h
  obtain ⟨z, hz⟩ := h noLib .int (.num (bs! "9223372036854775808.5")) (bs! "9223372036854775808.5") [] (.int 0) (.int 0)
    (bs! "9223372036854775808.5") (.int .int) (bs! "9223372036854775808.5")
    (.num _ (.mk [] (bs! "9223372036854775808") (bs! ".5") [] (.inl rfl) (.pos _ _ (by decide) (by decide) (by decide)) (.some _ ⟨by decide, by decide⟩) .none)) NumStop.nil
    (by with_unfolding_all rfl)
  cases hz with
  | nonneg _ hi => exact absurd (hi.digits.2 0x2e (by decide)) (by decide)

/-- **C98** The error for `true` and a `time.Duration` names the type `int32`. -/
theorem C98_fails_type : ¬ C98_type_statement := by
  intro h
  obtain ⟨near, h⟩ := h noLib .duration .tru (bs! "true") [] (.int 0) (.int 0) [] (.quote (.int .int32) (bs! "true")) .tru trivial
    (by with_unfolding_all rfl)
  rcases h with h | h
  · exact absurd h (by simp)
  · injection h with h _
    exact absurd h (by decide)

/-- What is left and the error. -/
def errorOf : TRes → Option (Bytes × TErr)
  | .err _ r e => some (r, e)
  | _ => none

/-- overflow, fraction and sign, each before another element -/
example : errorOf (decT noLib (.int .int8) (bs! "300,1]") (.int 5)) = some (bs! ",1]", .over (.int .int8) (bs! "300")) ∧
    errorOf (decT noLib (.int .int8) (bs! "3.5e1,1]") (.int 5)) = some (bs! ",1]", .quote (.int .int8) (bs! "3.5e1")) ∧
    errorOf (decT noLib (.int .uint8) (bs! "-3,1]") (.int 5)) = some (bs! ",1]", .quote (.int .uint8) (bs! "-3,1]")) ∧
    errorOf (decT noLib (.int .int8) (bs! "99999999999999999999,1]") (.int 5)) =
      some (bs! "99999999999999999999,1]", .over (.int .int8) (bs! "99999999999999999999,1]")) ∧
    (TErr.over (.int .int8) (bs! "300")).value id = bs! "number 300 overflows" := by decide +kernel

/-- a string for a `bool` and a long list for a `string` -/
example : errorOf (decT noLib .bool (bs! "\"a\"}") (.bool true)) = some (bs! "}", .quote .bool (bs! "\"a\"}")) ∧
    (TErr.quote .string (bs! "[1,2,3,4,5,6,7,8,9,10,11,12,13,14]")).value id = bs! "[1,2,3,4,5,6,7,8,9,10,11,12,13,1..." := by decide +kernel

end JC.Props

import Verif.Lemmas.WorkIface
import Verif.Props.Nest
import Verif.Props.Decode
/-!
C75: the parser takes time in proportion to the length of the text.
C76: the decoder of `interface{}` takes time in proportion to the length times the levels, which can be the square.
-/
namespace JC.Props
open JC Spec

/-! ### C75 -/

/-- The count does not change what the parser returns. -/
theorem C75_same (b : Bytes) : (validW b).1 = Valid b ∧ (parseValueW b).1 = parseValue b := by
  refine ⟨?_, parseValueW_fst b⟩
  unfold validW Valid
  rw [skipSpacesW_fst, ← parseValueW_fst]
  cases parseValueW (skipSpaces b) with
  | mk x k => cases x <;> simp [skipSpacesW_fst]

/-- Parsing a value takes at least one and at most ten steps for each of its bytes, whatever follows it. -/
theorem C75_value (b v r : Bytes) (h : parseValue b = .ok v r) :
    v.length ≤ (parseValueW b).2 ∧ (parseValueW b).2 ≤ 10 * v.length := by
  have hl := parseValueW_lin b
  have e := parseValueW_fst b
  rw [h] at e
  obtain ⟨rfl, _⟩ := parseValue_sound h
  unfold Lin at hl
  rw [e] at hl
  simp only [List.length_append] at hl
  omega

/-- Testing a text, valid or not, takes at most ten steps for each of its bytes and fourteen more. -/
theorem C75_linear (b : Bytes) : (validW b).2 ≤ 10 * b.length + 14 := by
  have hl := parseValueW_lin (skipSpaces b)
  have hs := skipSpacesW_snd b
  have hle := skipSpaces_length_le b
  unfold validW
  rw [skipSpacesW_fst]
  revert hl
  cases parseValueW (skipSpaces b) with
  | mk x k =>
    intro hl
    cases x with
    | fail r e =>
      have : k ≤ 10 * (skipSpaces b).length + 10 := hl
      simp only []; omega
    | ok v r =>
      obtain ⟨h1, h2, _⟩ := hl
      have := skipSpacesW_snd r
      simp only [] at h1 h2 ⊢
      omega

/-- Beside it: `[1, "a\n"]` has ten bytes. The string is scanned up to its quote, up to the backslash, and once more. -/
example : validW (bs! "[1, \"a\\n\"]") = (true, 33) ∧ validW (bs! "[1, 2") = (false, 27) := by decide +kernel

/-- What follows a value costs nothing. -/
example : (parseValueW (bs! "true")).2 = (parseValueW (bs! "true, but a lot follows [[[[[[")).2 := by decide +kernel

/-! ### C76 -/

/-- The count does not change what the decoder returns. -/
theorem C76_same (c : DCfg) (n : Nat) (b : Bytes) : (unmarshalAnyW c b).1 = unmarshal c n .iface b .ifaceNil :=
  unmarshalAnyW_fst c n b

/-- The full statement: a number of steps for each byte is enough for all texts. It is false, see `C76_fails_deep`. -/
def C76_statement : Prop := ∃ k : Nat, ∀ (c : DCfg) (b : Bytes), IsJson b → (unmarshalAnyW c b).2 ≤ k * (b.length + 1)

/-- Decoding takes at most sixty-one steps for each byte on each level of the document. What is missing to the full
statement is a bound that does not depend on the levels. -/
theorem C76_levels_partial (c : DCfg) (j : Json) (b : Bytes) (h : JText j b) :
    (unmarshalAnyW c b).2 ≤ 61 * levels j * b.length + 2 := by
  obtain ⟨w1, v, w2, rfl, h1, h2, hv⟩ := h
  have hf : Follow j w2 := follow_of_numStop (numStop_ws h2)
  have es : skipSpaces (w1 ++ v ++ w2) = v ++ w2 := by
    obtain ⟨ch, t, hvt, hc, _⟩ := derives_value_head hv
    have := skipSpacesW_stop h1 hc (t ++ w2)
    have e := skipSpacesW_fst (w1 ++ ch :: (t ++ w2))
    rw [this] at e
    rw [hvt]; simpa using e.symm
  have hp := (ifaceValueW_per c ((v ++ w2).length + 1) (levels j) j v w2 .ifaceNil hv (Nat.le_refl _) hf).1
  have := unmarshalAnyW_le c (w1 ++ v ++ w2) (K := 50 * levels j * v.length) (by rw [es]; exact hp)
  have hlev : 1 ≤ levels j := by cases j <;> simp [levels]
  have hw : (w1 ++ v ++ w2).length ≤ 11 * levels j * (w1 ++ v ++ w2).length := Nat.le_mul_of_pos_left _ (by omega)
  have hm : 50 * levels j * v.length ≤ 50 * levels j * (w1 ++ v ++ w2).length := Nat.mul_le_mul_left _ (by simp; omega)
  have e : 61 * levels j * (w1 ++ v ++ w2).length
      = 50 * levels j * (w1 ++ v ++ w2).length + 11 * levels j * (w1 ++ v ++ w2).length := by
    rw [← Nat.add_mul, ← Nat.add_mul]
  omega

/-- A text that does not start with a value is parsed once. -/
theorem C76_bad (c : DCfg) (b r : Bytes) (e : Err) (h : parseValue (skipSpaces b) = .fail r e) :
    (unmarshalAnyW c b).2 ≤ 11 * b.length + 13 := by
  have hl := parseValueW_lin (skipSpaces b)
  have ef := parseValueW_fst (skipSpaces b)
  rw [h] at ef
  have hs := skipSpaces_length_le b
  have := unmarshalAnyW_le c b (K := 10 * b.length + 11) ?_
  · omega
  · rcases hb : parseValueW (skipSpaces b) with ⟨x, k⟩
    rw [hb] at hl ef
    simp only [] at ef
    subst ef
    have : k ≤ 10 * (skipSpaces b).length + 10 := hl
    simp only [ifaceValueW, hb]
    omega

/-- On any bytes at all the steps are bounded by the square of the length. -/
theorem C76_quadratic (c : DCfg) (b : Bytes) : (unmarshalAnyW c b).2 ≤ 60 * b.length ^ 2 + 11 * b.length + 13 := by
  cases h : parseValue (skipSpaces b) with
  | fail r e =>
    have := C76_bad c b r e h
    omega
  | ok v r =>
    obtain ⟨j, hj, hk⟩ := ifaceValueW_any c ((skipSpaces b).length + 1) .ifaceNil h
    have h1 : levels j ≤ v.length := levels_le_length hj
    have h2 : v.length ≤ b.length := by
      have := skipSpaces_length_le b
      have e := congrArg List.length (parseValue_sound h).1
      rw [List.length_append] at e
      omega
    have h3 : levels j * v.length ≤ b.length ^ 2 := by
      rw [Nat.pow_two]; exact Nat.mul_le_mul (by omega) h2
    have := unmarshalAnyW_le c b hk
    rw [Nat.mul_assoc] at this
    omega

/-- The square is needed: `[[[...]]]` with `k + 1` levels takes at least `(k + 1) * (k + 2)` steps, because every array
is parsed once for each array around it. -/
theorem C76_tower (c : DCfg) (k : Nat) : IsJson (tower (k + 1)) ∧ (tower (k + 1)).length = 2 * (k + 1) ∧
    (k + 1) * (k + 2) ≤ (unmarshalAnyW c (tower (k + 1))).2 := by
  have nil : Ws [] := by intro c hc; contradiction
  obtain ⟨xs, hj⟩ := tower_arr k
  refine ⟨⟨_, [], _, [], by simp, nil, nil, hj⟩, tower_length _, ?_⟩
  have es : skipSpaces (tower (k + 1)) = tower (k + 1) := rfl
  have := ifaceValueW_tower c k ((tower (k + 1)).length + 1) [] .ifaceNil (by rw [tower_length]; omega)
  rw [List.append_nil] at this
  unfold unmarshalAnyW
  simp only [skipSpacesW_fst, es]
  revert this
  cases ifaceValueW c ((tower (k + 1)).length + 1) (tower (k + 1)) .ifaceNil with
  | mk x l =>
    intro h
    simp only [] at h
    cases x <;> simp only [] <;> omega

/-- No number of steps for each byte is enough. -/
theorem C76_fails_deep : ¬ C76_statement := by
  rintro ⟨k, h⟩
  let c : DCfg := { lib := noLib }
  obtain ⟨h1, h2, h3⟩ := C76_tower c (2 * k)
  have := h c _ h1
  rw [h2] at this
  have e1 : (2 * k + 1) * (2 * k + 2) = 4 * (k * k) + 6 * k + 2 := by
    simp only [Nat.add_mul, Nat.mul_add]
    have : 2 * k * (2 * k) = 4 * (k * k) := by rw [Nat.mul_mul_mul_comm]
    omega
  have e2 : k * (2 * (2 * k + 1) + 1) = 4 * (k * k) + 3 * k := by
    simp only [Nat.mul_add]
    have : k * (2 * (2 * k)) = 4 * (k * k) := by
      rw [Nat.mul_left_comm, Nat.mul_left_comm k 2 k, ← Nat.mul_assoc]
    omega
  omega

/-- Beside it: more and more levels; for twice as many the steps are almost four times as many. -/
example : (unmarshalAnyW { lib := noLib, useNumber := true } (bs! "1")).2 = 25 ∧
    (unmarshalAnyW { lib := noLib, useNumber := true } (bs! "[1]")).2 = 49 ∧
    (unmarshalAnyW { lib := noLib, useNumber := true } (bs! "[[1]]")).2 = 79 ∧
    (unmarshalAnyW { lib := noLib } (tower 20)).2 = 1420 ∧ (unmarshalAnyW { lib := noLib } (tower 40)).2 = 5240 := by decide +kernel

end JC.Props

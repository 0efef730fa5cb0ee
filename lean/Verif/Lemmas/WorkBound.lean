import Verif.Lemmas.WorkTyped
/-!
How many steps the decoding functions take: on success a number for each byte they go over, otherwise a number for each byte
there is.
-/
namespace JC
open Spec Props

/-- The steps of a decoding function on `b`: on success at most `K` for each byte it goes over, less `s`; otherwise at
most `E` for each byte there is and one more. -/
def Cost (K s E : Nat) (b : Bytes) (x : DRes × Nat) : Prop :=
  match x.1 with
  | .ok _ r => r.length < b.length ∧ x.2 + s + K * r.length ≤ K * b.length
  | _ => x.2 ≤ E * (b.length + 1)

def CostD (K s E : Nat) (d : DecW) : Prop := ∀ b p, Cost K s E b (d b p)

theorem cost_ok {K s E : Nat} {b r : Bytes} {v : DV} {k : Nat} (h1 : r.length < b.length) (h2 : k + s + K * r.length ≤ K * b.length) :
    Cost K s E b (.ok v r, k) := ⟨h1, h2⟩

theorem cost_err {K s E : Nat} {b r : Bytes} {v : DV} {e : Err} {k : Nat} (h : k ≤ E * (b.length + 1)) : Cost K s E b (.err v r e, k) := h

theorem cost_crash {K s E : Nat} {b : Bytes} {c : Crash} {k : Nat} (h : k ≤ E * (b.length + 1)) : Cost K s E b (.crash c, k) := h

/-- If some cost for a byte is enough, so is any larger one. -/
theorem lift {K L m n x : Nat} (h : x + K * m ≤ K * n) (hm : m ≤ n) (hK : K ≤ L) : x + L * m ≤ L * n := by
  obtain ⟨d, rfl⟩ := Nat.exists_eq_add_of_le hm
  rw [Nat.mul_add] at h ⊢
  have := Nat.mul_le_mul_right d hK
  omega

theorem lift50 {K m n x : Nat} (h : x + 50 * m ≤ 50 * n) (hK : 50 ≤ K) : x + K * m ≤ K * n := lift h (by omega) hK

/-- One byte more gives a cost for a byte more. -/
theorem lift_slack {K L m n x s : Nat} (h : x + K * m ≤ K * n) (hm : m < n) (hK : K + s ≤ L) : x + s + L * m ≤ L * n := by
  obtain ⟨d, rfl⟩ := Nat.exists_eq_add_of_lt hm
  obtain ⟨e, rfl⟩ := Nat.exists_eq_add_of_le hK
  rw [show m + d + 1 = m + (d + 1) by omega, Nat.mul_add] at h ⊢
  have h1 : (K + s + e) * (d + 1) = K * (d + 1) + (s + e) * (d + 1) := by rw [← Nat.add_mul]; congr 1; omega
  have h2 : s + e ≤ (s + e) * (d + 1) := Nat.le_mul_of_pos_right _ (by omega)
  omega

theorem Cost.mono {K s E K' s' E' : Nat} {b : Bytes} {x : DRes × Nat} (h : Cost K s E b x) (hs : s' ≤ s) (hK : K ≤ K') (hE : E ≤ E') :
    Cost K' s' E' b x := by
  unfold Cost at *
  split at h
  · exact ⟨h.1, by have := lift h.2 (by omega) hK; omega⟩
  · exact Nat.le_trans h (Nat.mul_le_mul_right _ hE)

theorem Cost.more {K s E K' E' : Nat} {b : Bytes} {x : DRes × Nat} (h : Cost K s E b x) (m : Nat) (hK : K + m ≤ K') (hE : E ≤ E') :
    Cost K' (s + m) E' b x := by
  unfold Cost at *
  split at h
  · exact ⟨h.1, by have := lift_slack h.2 h.1 hK; omega⟩
  · exact Nat.le_trans h (Nat.mul_le_mul_right _ hE)

/-! ### Values without elements -/

theorem parseValueW_le (b : Bytes) : (parseValueW b).2 ≤ 10 * b.length + 10 := by
  have h := parseValueW_lin b
  unfold Lin at h
  split at h <;> omega

theorem parseNumberW_le (b : Bytes) : (parseNumberW b).2 ≤ 10 * b.length + 9 := by
  have h := parseNumberW_lin b
  unfold Lin at h
  split at h <;> omega

theorem inputErrW_le (b : Bytes) (p : DV) : (inputErrW b p).2 ≤ 11 * b.length + 11 := by
  have := parseValueW_le b
  unfold inputErrW
  simp only []
  split <;> omega

theorem cost_input {K s E : Nat} {b : Bytes} {p : DV} {k : Nat} (h : k + 11 * b.length + 11 ≤ E * (b.length + 1)) : Cost K s E b (tick k (inputErrW b p)) := by
  have := inputErrW_le b p
  exact cost_err (by omega)

theorem null_len {b : Bytes} (h : hasNullPrefix b = true) : 4 ≤ b.length := by
  simp only [hasNullPrefix, Bool.and_eq_true, decide_eq_true_eq] at h
  exact h.1

theorem cost_null {s E : Nat} {b : Bytes} {v : DV} (h : hasNullPrefix b = true) (hs : s ≤ 150) : Cost 50 s E b (.ok v (b.drop 4), 5) := by
  have := null_len h
  refine cost_ok ?_ ?_ <;> simp only [List.length_drop] <;> omega

theorem decodeBoolW_cost : CostD 50 20 60 decodeBoolW := by
  intro b p
  unfold decodeBoolW
  cases h : decodeBool b p with
  | ok v r =>
    unfold decodeBool at h
    repeat' split at h
    all_goals first | contradiction | (simp [inputErr] at h; done) | skip
    · injection h with _ h; subst h
      refine cost_ok ?_ ?_ <;> simp only [List.length_drop] <;> omega
    · injection h with _ h; subst h
      refine cost_ok ?_ ?_ <;> simp only [List.length_drop] <;> omega
    · injection h with _ h; subst h
      have := null_len ‹_›
      refine cost_ok ?_ ?_ <;> simp only [List.length_drop] <;> omega
  | err v r e => exact cost_input (by omega)
  | crash c => exact cost_input (by omega)

theorem kindLit_pos {k : IntKind} {l : Bytes} {z : Int} (h : KindLit k l z) : 0 < l.length := by
  have hi : ∀ {l z}, IntLit l z → 0 < l.length := by
    intro l z h
    cases h with
    | nonneg i hi => exact List.length_pos_iff.2 hi.digits.1
    | neg i hi => simp
  cases k <;> first | exact hi h | exact List.length_pos_iff.2 (h.1.digits.1)

theorem decodeInt_lt {k : IntKind} {b : Bytes} {p x : DV} {r : Bytes} (h : decodeInt k b p = .ok x r) : r.length < b.length := by
  unfold decodeInt at h
  split at h
  · rename_i hn
    injection h with _ h; subst h
    have := null_len hn
    simp only [List.length_drop]; omega
  · rename_i hn
    simp only [] at h
    split at h
    · rename_i he
      injection h with _ h
      rcases (C10_only k b _).2 he with ⟨h1, _⟩ | ⟨l, z, e2, hl, _⟩
      · exfalso
        apply hn
        have : b.length ≥ 4 := by
          have := congrArg List.length h1
          simp at this; omega
        simp [hasNullPrefix, h1, this]
      · have := congrArg List.length e2
        have := kindLit_pos hl
        rw [List.length_append, h] at *
        omega
    · simp at h

theorem decodeIntW_cost (k : IntKind) : CostD 50 20 60 (decodeIntW k) := by
  intro b p
  have h1 := parseNumberW_le b
  have h2 := inputErrW_le b p
  unfold decodeIntW
  cases h : decodeInt k b p with
  | ok v r =>
    have := decodeInt_lt h
    exact cost_ok this (by omega)
  | err v r e => exact cost_err (by omega)
  | crash c => exact cost_crash (by omega)

theorem decodeFloatW_cost (l : Lib) (s : Bool) : CostD 50 20 60 (decodeFloatW l s) := by
  intro b p
  have h := parseNumberW_lin b
  unfold decodeFloatW
  split
  · exact cost_null ‹_› (by omega)
  · revert h
    cases parseNumberW b with
    | mk x k =>
      cases x with
      | fail r e => intro h; simp only [Lin] at h; exact cost_input (by omega)
      | ok v r =>
        intro h
        simp only [Lin] at h
        simp only []
        split
        · exact cost_input (by omega)
        · exact cost_ok (by omega) (by omega)

theorem decodeNumberW_cost : CostD 50 20 60 decodeNumberW := by
  intro b p
  have h := parseNumberW_lin b
  unfold decodeNumberW
  split
  · exact cost_null ‹_› (by omega)
  · revert h
    cases parseNumberW b with
    | mk x k =>
      cases x with
      | fail r e => intro h; simp only [Lin] at h; exact cost_input (by omega)
      | ok v r => intro h; simp only [Lin] at h; exact cost_ok (by omega) (by omega)

theorem fast_len {b v r : Bytes} {esc : Bool} (h : parseStringFast b = .ok v r esc) : v.length + r.length = b.length := by
  obtain ⟨s, _, h, _⟩ := parseStringFast_sound h
  rw [h, List.length_append]

theorem unquoteW_le (b : Bytes) : unquoteW b ≤ 6 * b.length + 8 := by
  have h := parseStringFastW_steps b
  unfold unquoteW
  rw [parseStringFastW_fst] at *
  cases hf : parseStringFast b with
  | ok v r esc =>
    rw [hf] at h
    simp only [] at h
    have := fast_len hf
    cases esc <;> simp only [] <;> omega
  | fail r e => rw [hf] at h; simp only [] at *; omega

theorem unquote_rest {b v s r r' : Bytes} {esc n : Bool} (hf : parseStringFast b = .ok v r' esc) (h : parseStringUnquote b [] = .ok s r n) : r' = r := by
  unfold parseStringUnquote at h
  rw [hf] at h
  simp only [] at h
  repeat' split at h
  all_goals first | contradiction | (injection h)

theorem unquoteW_ok {b s r : Bytes} {n : Bool} (h : parseStringUnquote b [] = .ok s r n) :
    r.length + 2 ≤ b.length ∧ unquoteW b + 6 * r.length + 1 ≤ 6 * b.length := by
  have hs := parseStringFastW_steps b
  unfold unquoteW
  rw [parseStringFastW_fst] at *
  cases hf : parseStringFast b with
  | ok v r' esc =>
    rw [hf] at hs
    simp only [] at hs
    have hl := fast_len hf
    have e := unquote_rest hf h
    subst e
    refine ⟨hs.1, ?_⟩
    cases esc <;> simp only [] <;> omega
  | fail r e => unfold parseStringUnquote at h; rw [hf] at h; contradiction

theorem encodeRune_len (r : Nat) : (encodeRune r).length ≤ 4 := by
  unfold encodeRune
  repeat' split
  all_goals simp

theorem appendRune_len (b : Bytes) (r : Nat) : (appendRune b r).length ≤ b.length + 4 := by
  have := encodeRune_len r
  simp only [appendRune, List.length_append]; omega

theorem runes_len : ∀ n (s : Bytes), s.length ≤ n → (runes s).length ≤ s.length := by
  intro n
  induction n with
  | zero => intro s h; cases s with
    | nil => simp [runes]
    | cons c t => simp at h
  | succ n ih =>
    intro s h
    cases s with
    | nil => simp [runes]
    | cons c t =>
      have hp := decodeRune_size_pos c t
      rw [runes]
      have := ih ((c :: t).drop (decodeRune (c :: t)).2) (by simp only [List.length_drop, List.length_cons] at *; omega)
      simp only [List.length_drop, List.length_cons] at *
      omega

theorem foldl_append_len (rs : List Nat) : ∀ b, (rs.foldl appendRune b).length ≤ b.length + 4 * rs.length := by
  induction rs with
  | nil => intro b; simp
  | cons r rs ih =>
    intro b
    have := ih (appendRune b r)
    have := appendRune_len b r
    simp only [List.foldl_cons, List.length_cons]
    omega

theorem coerce_len (b s : Bytes) : (appendCoerceInvalidUTF8 b s).length ≤ b.length + 4 * s.length := by
  have := foldl_append_len (runes s) b
  have := runes_len _ s (Nat.le_refl _)
  unfold appendCoerceInvalidUTF8
  omega

theorem unquoteLoop_len : ∀ n (s r out : Bytes), s.length ≤ n → unquoteLoop s r = .ok out → out.length ≤ r.length + 4 * s.length := by
  intro n
  induction n with
  | zero =>
    intro s r out h e
    cases s with
    | nil => rw [unquoteLoop, if_pos rfl] at e; injection e with e; subst e; simp
    | cons c t => simp at h
  | succ n ih =>
    intro s r out h e
    rw [unquoteLoop] at e
    split at e
    · injection e with e; subst e; omega
    · split at e
      · injection e with e; subst e
        exact coerce_len _ _
      · rename_i i hi
        have hlt := indexByte_lt hi
        have hc := coerce_len r (s.take i)
        simp only [] at e
        split at e
        · contradiction
        · rename_i ch t hs
          have hl := congrArg List.length hs
          simp only [List.length_drop, List.length_cons, List.length_take] at hl hc
          have go : ∀ s' r', s'.length ≤ t.length → r'.length ≤ (appendCoerceInvalidUTF8 r (s.take i)).length + 4 → unquoteLoop s' r' = .ok out →
              out.length ≤ r.length + 4 * s.length := by
            intro s' r' h1 h2 e
            have := ih s' r' out (by omega) e
            omega
          have hr : ∀ x, (appendRune (appendCoerceInvalidUTF8 r (s.take i)) x).length ≤ (appendCoerceInvalidUTF8 r (s.take i)).length + 4 :=
            fun x => appendRune_len _ x
          have h1' : ∀ x : UInt8, (appendCoerceInvalidUTF8 r (s.take i) ++ [x]).length ≤ (appendCoerceInvalidUTF8 r (s.take i)).length + 4 := by
            intro x; simp only [List.length_append, List.length_cons, List.length_nil]; omega
          clear ih hs hi
          by_cases h1 : ch = ch! '"' ∨ ch = ch! '\\' ∨ ch = ch! '/'
          · rw [if_pos h1] at e; exact go _ _ (Nat.le_refl _) (h1' _) e
          rw [if_neg h1] at e; clear h1
          by_cases h1 : ch = ch! 'n'
          · rw [if_pos h1] at e; exact go _ _ (Nat.le_refl _) (h1' _) e
          rw [if_neg h1] at e; clear h1
          by_cases h1 : ch = ch! 'r'
          · rw [if_pos h1] at e; exact go _ _ (Nat.le_refl _) (h1' _) e
          rw [if_neg h1] at e; clear h1
          by_cases h1 : ch = ch! 't'
          · rw [if_pos h1] at e; exact go _ _ (Nat.le_refl _) (h1' _) e
          rw [if_neg h1] at e; clear h1
          by_cases h1 : ch = ch! 'b'
          · rw [if_pos h1] at e; exact go _ _ (Nat.le_refl _) (h1' _) e
          rw [if_neg h1] at e; clear h1
          by_cases h1 : ch = ch! 'f'
          · rw [if_pos h1] at e; exact go _ _ (Nat.le_refl _) (h1' _) e
          rw [if_neg h1] at e; clear h1
          by_cases h1 : ch = ch! 'u'
          · rw [if_pos h1] at e
            have dl : ∀ k, (t.drop k).length ≤ t.length := by intro k; simp only [List.length_drop]; omega
            split at e
            · contradiction
            · split at e
              · split at e
                · exact go _ _ (dl 4) (hr _) e
                · split at e
                  · contradiction
                  · split at e
                    · exact go _ _ (by rw [List.drop_drop]; exact dl _) (hr _) e
                    · exact go _ _ (dl 4) (hr _) e
              · exact go _ _ (dl 4) (hr _) e
          · rw [if_neg h1] at e; contradiction

theorem unquote_len {b s r : Bytes} {n : Bool} (h : parseStringUnquote b [] = .ok s r n) : s.length + 4 * r.length + 8 ≤ 4 * b.length := by
  unfold parseStringUnquote at h
  cases hf : parseStringFast b with
  | ok v r' esc =>
    rw [hf] at h
    simp only [] at h
    have hl := fast_len hf
    split at h
    · contradiction
    · split at h
      · injection h with h1 h2; subst h1 h2
        simp only [List.length_take, List.length_drop]; omega
      · split at h
        · rename_i hu
          injection h with h1 h2; subst h1 h2
          have := unquoteLoop_len _ _ _ _ (Nat.le_refl _) hu
          simp only [List.length_take, List.length_drop, List.length_nil] at this
          omega
        · contradiction
        · contradiction
  | fail r e => rw [hf] at h; contradiction

theorem decodeStringW_cost : CostD 50 20 60 decodeStringW := by
  intro b p
  have h := parseStringFastW_steps b
  unfold decodeStringW
  split
  · exact cost_null ‹_› (by omega)
  · rename_i hn
    cases hf : parseStringFastW b with
    | mk x k =>
      have hx : parseStringFast b = x := by rw [← parseStringFastW_fst, hf]
      rw [hf] at h
      cases x with
      | fail r e =>
        simp only [] at h ⊢
        split
        · exact cost_input (by omega)
        · have : parseStringUnquote b [] = .fail r e := by unfold parseStringUnquote; rw [hx]
          rename_i hh
          unfold decodeString
          rw [if_neg hn, this]
          simp only []
          rw [if_neg hh]
          exact cost_err (by simp only []; omega)
      | ok v r esc =>
        have hl := fast_len hx
        simp only [] at h ⊢
        cases hd : decodeString b p with
        | err v' r' e => exact cost_err (by split <;> omega)
        | crash c => exact cost_crash (by split <;> omega)
        | ok v' r' =>
          have : r' = r := by
            unfold decodeString at hd
            rw [if_neg hn] at hd
            split at hd
            · contradiction
            · split at hd <;> contradiction
            · rename_i hu
              injection hd with _ hd
              rw [← hd]
              exact (unquote_rest hx hu).symm
          subst this
          exact cost_ok (by omega) (by split <;> omega)

theorem decodeDurationW_cost (l : Lib) : CostD 50 20 60 (decodeDurationW l) := by
  intro b p
  have h1 := parseNumberW_le b
  have h2 := inputErrW_le b p
  unfold decodeDurationW
  split
  · exact cost_null ‹_› (by omega)
  · cases b with
    | nil => exact cost_input (by omega)
    | cons c t =>
      simp only []
      split
      · cases hp : parseInt (c :: t) with
        | fail r e => exact cost_input (by omega)
        | ok v r =>
          obtain ⟨l, e, hl, _⟩ := parseInt_ok hp
          have e := congrArg List.length e
          have := kindLit_pos (k := .int) hl
          rw [List.length_append] at e
          exact cost_ok (by omega) (by omega)
      split
      · exact cost_input (by omega)
      · have hle := indexByteW_le t (ch! '"')
        rw [indexByteW_fst]
        cases hi : indexByte t (ch! '"') with
        | none => exact cost_input (by simp only [List.length_cons] at *; omega)
        | some j =>
          have hj := indexByteW_some t (ch! '"') j hi
          have hlt := indexByte_lt hi
          simp only [List.length_cons] at *
          split
          · exact cost_input (by simp only [List.length_cons]; omega)
          · refine cost_ok ?_ ?_ <;> simp only [List.length_drop, List.length_cons] <;> omega

theorem decodeTimeW_cost (l : Lib) : CostD 50 20 60 (decodeTimeW l) := by
  intro b p
  unfold decodeTimeW
  split
  · exact cost_null ‹_› (by omega)
  · cases b with
    | nil => exact cost_input (by omega)
    | cons c t =>
      simp only []
      split
      · exact cost_input (by omega)
      · have hle := indexByteW_le t (ch! '"')
        rw [indexByteW_fst]
        cases hi : indexByte t (ch! '"') with
        | none => exact cost_input (by simp only [List.length_cons] at *; omega)
        | some j =>
          have hj := indexByteW_some t (ch! '"') j hi
          have hlt := indexByte_lt hi
          simp only [List.length_cons] at *
          split
          · exact cost_input (by simp only [List.length_cons]; omega)
          · refine cost_ok ?_ ?_ <;> simp only [List.length_drop, List.length_cons] <;> omega

theorem parseValueW_okB {b v r : Bytes} {k : Nat} (h : parseValueW b = (.ok v r, k)) : r.length < b.length ∧ k + 10 * r.length + 2 ≤ 10 * b.length := by
  have := parseValueW_lin b
  rw [h] at this
  simp only [Lin] at this
  exact ⟨by omega, this.2.1⟩

theorem decodeRawW_cost : CostD 50 20 60 decodeRawW := by
  intro b p
  have hl := parseValueW_le b
  unfold decodeRawW
  cases h : parseValueW b with
  | mk x k =>
    rw [h] at hl
    cases x with
    | fail r e => exact cost_input (by simp only [] at hl; omega)
    | ok v r =>
      have := parseValueW_okB h
      exact cost_ok this.1 (by omega)

theorem decodeJSONUW_cost (f : Bytes → Option Err) : CostD 50 20 60 (decodeJSONUW f) := by
  intro b p
  have hl := parseValueW_le b
  unfold decodeJSONUW
  cases hd : decodeJSONUnmarshaler f b p with
  | err v r e => exact cost_err (by omega)
  | crash c => exact cost_crash (by omega)
  | ok v r =>
    unfold decodeJSONUnmarshaler at hd
    rw [← parseValueW_fst] at hd
    cases h : parseValueW b with
    | mk x k =>
      rw [h] at hd
      cases x with
      | fail r e => contradiction
      | ok v' r' =>
        have := parseValueW_okB h
        have e : r' = r := by
          simp only [] at hd
          repeat' split at hd
          all_goals first | contradiction | (injection hd)
        subst e
        exact cost_ok this.1 (by omega)

theorem unsupportedW_cost : CostD 50 20 60 unsupportedW := by
  intro b p
  have hl := parseValueW_le b
  unfold unsupportedW decodeUnmarshalTypeError
  cases parseValue b <;> exact cost_err (by omega)

theorem decodeTextUW_cost (f : Bytes → Option Err) : CostD 50 20 60 (decodeTextUW f) := by
  intro b p
  have hl := parseValueW_le b
  unfold decodeTextUW
  cases h : parseValueW b with
  | mk x k =>
    rw [h] at hl
    cases x with
    | fail r e => exact cost_err (by simp only [] at hl; omega)
    | ok v r =>
      have hk := parseValueW_okB h
      have hp : parseValue b = .ok v r := by rw [← parseValueW_fst, h]
      obtain ⟨e, _⟩ := parseValue_sound hp
      have e := congrArg List.length e
      rw [List.length_append] at e
      have hu := unquoteW_le v
      have hx : textW v (b.length - r.length) ≤ 6 * v.length + 8 := by
        unfold textW
        split
        · omega
        · split <;> omega
      simp only [] at hl ⊢
      cases hd : decodeTextUnmarshaler f b p with
      | err v r e => exact cost_err (by omega)
      | crash c => exact cost_crash (by omega)
      | ok v' r' =>
        have e : r' = r := by
          unfold decodeTextUnmarshaler at hd
          rw [hp] at hd
          simp only [] at hd
          repeat' split at hd
          all_goals first | contradiction | (simp [inputErr] at hd; done) | (injection hd with _ hd; exact hd.symm)
        subst e
        exact cost_ok hk.1 (by omega)

/-- The `string` option: the text in the string may be four times as long as the literal. -/
theorem decodeFromStringW_cost {K s E : Nat} {d : DecW} (h : CostD K 0 E d) (hK : 50 ≤ K) (hE : K ≤ E) (hs : s + 20 ≤ K) :
    CostD (5 * K) s (5 * E) (decodeFromStringW d) := by
  intro b p
  have hul := unquoteW_le b
  have hEb : 50 * (b.length + 1) ≤ E * (b.length + 1) := Nat.mul_le_mul_right _ (by omega)
  have e5 : 5 * E * (b.length + 1) = 5 * (E * (b.length + 1)) := Nat.mul_assoc _ _ _
  unfold decodeFromStringW
  split
  · rename_i hn
    have h0 := h b p
    have := null_len hn
    revert h0
    cases d b p with
    | mk x k => cases x with
      | ok v r =>
        intro h0
        obtain ⟨h1, h2⟩ := h0
        refine cost_ok h1 ?_
        simp only [] at h2
        have := lift_slack (L := 5 * K) (s := s + 5) (x := k) h2 h1 (by omega)
        simp only []; omega
      | err v r e => intro h0; simp only [Cost] at h0; exact cost_err (by simp only [e5]; omega)
      | crash c => intro h0; simp only [Cost] at h0; exact cost_crash (by simp only [e5]; omega)
  · cases hu : parseStringUnquote b [] with
    | panic => exact cost_crash (by rw [e5]; omega)
    | fail r e =>
      have := inputErrW_le [] p
      exact cost_err (by simp only [e5, tick_snd, List.length_nil] at *; omega)
    | ok v r n =>
      obtain ⟨h1, h2⟩ := unquoteW_ok hu
      have h3 := unquote_len hu
      have h0 := h v p
      have hv : E * (v.length + 1) ≤ E * (4 * (b.length + 1)) := Nat.mul_le_mul_left _ (by omega)
      have hv2 : E * (4 * (b.length + 1)) = 4 * (E * (b.length + 1)) := by rw [Nat.mul_left_comm]
      simp only []
      revert h0
      cases d v p with
      | mk x k => cases x with
        | err p' r' e => intro h0; simp only [Cost] at h0; exact cost_err (by rw [e5]; omega)
        | crash c => intro h0; simp only [Cost] at h0; exact cost_crash (by rw [e5]; omega)
        | ok p' v' =>
          intro h0
          obtain ⟨h4, h5⟩ := h0
          simp only [] at h4 h5 ⊢
          have hsk := skipSpacesW_snd v'
          have hkv : K * v'.length + K ≤ K * v.length := by
            rw [← Nat.mul_succ]; exact Nat.mul_le_mul_left _ h4
          have hvb : K * v.length + 4 * (K * r.length) + 8 * K ≤ 4 * (K * b.length) := by
            have := Nat.mul_le_mul_left K h3
            rw [Nat.mul_add, Nat.mul_add, Nat.mul_left_comm, Nat.mul_left_comm K 4 b.length] at this
            omega
          have hkb : unquoteW b + (K * r.length) ≤ K * b.length := lift (K := 6) (by omega) (by omega) (by omega)
          have hv' : v'.length ≤ K * v'.length := Nat.le_mul_of_pos_left _ (by omega)
          split
          · refine cost_err ?_
            have hKE : K * b.length ≤ E * (b.length + 1) := Nat.mul_le_mul hE (by omega)
            rw [e5]
            omega
          · refine cost_ok (by omega) ?_
            rw [Nat.mul_assoc, Nat.mul_assoc]
            omega

theorem dropZeroes_len : ∀ n (v : Bytes), v.length ≤ n → (dropZeroes v).length ≤ v.length := by
  intro n
  induction n with
  | zero => intro v h; cases v with
    | nil => simp [dropZeroes]
    | cons a t => simp at h
  | succ n ih =>
    intro v h
    unfold dropZeroes
    split
    · split
      · have := ih (‹UInt8› :: ‹List UInt8›) (by simp at *; omega)
        simp at *; omega
      · simp
    · omega

theorem stripZeroes_len (v : Bytes) : (stripZeroes v).length ≤ v.length := by
  unfold stripZeroes
  split
  · cases v with
    | nil => simp
    | cons c t =>
      simp only []
      split
      · have := dropZeroes_len _ t (Nat.le_refl _)
        simp; omega
      · exact dropZeroes_len _ _ (Nat.le_refl _)
  · omega

theorem decodeFromStringToIntW_cost (l : Lib) {K s E : Nat} {d : DecW} (h : CostD K 0 E d) (hK : 50 ≤ K) (hE : K ≤ E) (h2 : 100 ≤ E) (hs : s + 20 ≤ K) :
    CostD (5 * K) s (5 * E) (decodeFromStringToIntW l d) := by
  intro b p
  have hul := unquoteW_le b
  have hEb : 100 * (b.length + 1) ≤ E * (b.length + 1) := Nat.mul_le_mul_right _ (by omega)
  have e5 : 5 * E * (b.length + 1) = 5 * (E * (b.length + 1)) := Nat.mul_assoc _ _ _
  unfold decodeFromStringToIntW
  split
  · rename_i hn
    have h0 := h b p
    have := null_len hn
    revert h0
    cases d b p with
    | mk x k => cases x with
      | ok v r =>
        intro h0
        obtain ⟨h1, h2⟩ := h0
        refine cost_ok h1 ?_
        simp only [] at h2
        have := lift_slack (L := 5 * K) (s := s + 5) (x := k) h2 h1 (by omega)
        simp only []; omega
      | err v r e => intro h0; simp only [Cost] at h0; exact cost_err (by simp only [e5]; omega)
      | crash c => intro h0; simp only [Cost] at h0; exact cost_crash (by simp only [e5]; omega)
  split
  · have := parseNumberW_le b
    exact cost_err (by rw [e5]; omega)
  split
  · exact cost_err (by rw [e5]; omega)
  · cases hu : parseStringUnquote b [] with
    | panic => exact cost_crash (by rw [e5]; omega)
    | fail r e =>
      have := inputErrW_le [] p
      exact cost_err (by simp only [e5, tick_snd, List.length_nil] at *; omega)
    | ok v0 r n =>
      obtain ⟨h1, h2⟩ := unquoteW_ok hu
      have h3 := unquote_len hu
      have hst := stripZeroes_len v0
      simp only []
      generalize stripZeroes v0 = v at hst ⊢
      have h0 := h v p
      have hv : E * (v.length + 1) ≤ E * (4 * b.length + 1) := Nat.mul_le_mul_left _ (by omega)
      have hv2 : E * (4 * b.length + 1) = 4 * (E * b.length) + E := by rw [Nat.mul_add, Nat.mul_left_comm]; omega
      have hv3 : E * (b.length + 1) = E * b.length + E := Nat.mul_succ _ _
      have hpn := parseNumberW_le v
      have hpv := parseValueW_le v
      have hEb' : 100 * b.length ≤ E * b.length := Nat.mul_le_mul_right _ (by omega)
      revert h0
      cases d v p with
      | mk x k => cases x with
        | err p' r' e =>
          intro h0; simp only [Cost] at h0
          simp only []
          split
          · split <;> exact cost_err (by rw [e5]; omega)
          · revert hpn
            cases parseNumberW v with
            | mk y m => cases y with
              | ok _ _ => intro hpn; exact cost_err (by rw [e5]; simp only [] at hpn; omega)
              | fail _ _ =>
                intro hpn
                revert hpv
                cases parseValueW v with
                | mk z m' => cases z <;> (intro hpv; exact cost_err (by rw [e5]; simp only [] at hpn hpv; omega))
        | crash c => intro h0; simp only [Cost] at h0; exact cost_crash (by rw [e5]; omega)
        | ok p' v' =>
          intro h0
          obtain ⟨h4, h5⟩ := h0
          simp only [] at h4 h5 ⊢
          have hkv : K * v'.length + K ≤ K * v.length := by
            rw [← Nat.mul_succ]; exact Nat.mul_le_mul_left _ h4
          have hvb : K * v.length + 4 * (K * r.length) + 8 * K ≤ 4 * (K * b.length) := by
            have := Nat.mul_le_mul_left K (show v.length + 4 * r.length + 8 ≤ 4 * b.length by omega)
            rw [Nat.mul_add, Nat.mul_add, Nat.mul_left_comm, Nat.mul_left_comm K 4 b.length] at this
            omega
          have hkb : unquoteW b + v0.length + (K * r.length) ≤ K * b.length := lift (K := 10) (by omega) (by omega) (by omega)
          split
          · refine cost_err ?_
            have hKE : K * b.length ≤ E * (b.length + 1) := Nat.mul_le_mul hE (by omega)
            rw [e5]
            omega
          · refine cost_ok (by omega) ?_
            rw [Nat.mul_assoc, Nat.mul_assoc]
            omega

/-! ### Keys -/

theorem decodeKeyW_cost (k : KTy) (b : Bytes) : Cost 50 20 110 b (decodeKeyW k b) := by
  cases k with
  | str => exact (decodeStringW_cost b _).mono (Nat.le_refl _) (Nat.le_refl _) (by omega)
  | text tk =>
    have h := decodeTextUW_cost tk.answer b (.user none)
    simp only [decodeKeyW]
    revert h
    cases decodeTextUW tk.answer b (.user none) with
    | mk x l => cases x with
      | ok v r => intro h; exact ⟨h.1, h.2⟩
      | err v r e => intro h; simp only [Cost] at h; exact cost_err (by omega)
      | crash c => intro h; simp only [Cost] at h; exact cost_crash (by omega)
  | int k =>
    have hul := unquoteW_le b
    simp only [decodeKeyW]
    unfold decodeFromStringW
    split
    · rename_i hn
      have h := decodeIntW_cost k b (.int 0)
      have := null_len hn
      unfold decodeIntW decodeInt
      simp only [hn, if_true]
      refine cost_ok ?_ ?_ <;> simp only [List.length_drop] <;> omega
    · cases hu : parseStringUnquote b [] with
      | panic => exact cost_crash (by omega)
      | fail r e =>
        have := inputErrW_le [] (.int 0)
        exact cost_err (by simp only [tick_snd, List.length_nil] at *; omega)
      | ok v r n =>
        obtain ⟨h1, h2⟩ := unquoteW_ok hu
        have h3 := unquote_len hu
        have hpn := parseNumberW_le v
        have hie := inputErrW_le v (.int 0)
        simp only []
        unfold decodeIntW
        cases hd : decodeInt k v (.int 0) with
        | err x r' e => exact cost_err (by omega)
        | crash c => exact cost_crash (by omega)
        | ok x v' =>
          have h4 := decodeInt_lt hd
          have hsk := skipSpacesW_snd v'
          simp only []
          split
          · exact cost_err (by omega)
          · exact cost_ok (by omega) (by omega)

theorem structKeyW_cost (b : Bytes) : Cost 50 20 110 b (structKeyW b) := by
  have hul := unquoteW_le b
  unfold structKeyW
  cases hu : parseStringUnquote b [] with
  | panic => exact cost_crash (by omega)
  | fail r e => exact cost_err (by omega)
  | ok s r n =>
    obtain ⟨h1, h2⟩ := unquoteW_ok hu
    exact cost_ok (by omega) (by omega)

/-- The steps of comma, key and colon. -/
def CostM (b : Bytes) (x : (Crash ⊕ (Bytes × Err) ⊕ (DV × Bytes)) × Nat) : Prop :=
  match x.1 with
  | .inr (.inr (_, r)) => r.length < b.length ∧ x.2 + 60 + 50 * r.length ≤ 50 * b.length
  | _ => x.2 ≤ 110 * b.length + 120

theorem keyRestW_cost {key : Bytes → DRes × Nat} (h : ∀ b, Cost 50 20 110 b (key b)) (b : Bytes) : CostM b (keyRestW key b) := by
  unfold keyRestW
  split
  · show 5 ≤ _; omega
  · have h0 := h b
    revert h0
    cases key b with
    | mk x k => cases x with
      | crash c => intro h0; simp only [Cost] at h0; show k + 5 ≤ _; omega
      | err v r e => intro h0; simp only [Cost] at h0; show k + 5 ≤ _; omega
      | ok d r =>
        intro h0
        obtain ⟨h1, h2⟩ := h0
        simp only [] at h1 h2 ⊢
        have hsk := skipSpacesW_snd r
        have hf := skipSpacesW_fst r
        cases hs : (skipSpacesW r).1 with
        | nil => show k + 5 + (skipSpacesW r).2 ≤ _; omega
        | cons c t =>
          rw [hs] at hf
          have hl := congrArg List.length hf
          rw [List.length_cons] at hl
          simp only []
          split
          · show k + 5 + (skipSpacesW r).2 ≤ _; omega
          · have hst := skipSpacesW_snd t
            have hft := skipSpacesW_fst t
            show (skipSpacesW t).1.length < b.length ∧ k + 5 + (skipSpacesW r).2 + (skipSpacesW t).2 + 60 + 50 * (skipSpacesW t).1.length ≤ _
            rw [hft]
            have := skipSpaces_length_le t
            have := skipSpaces_length_le r
            omega

theorem memberKeyT_cost {key : Bytes → DRes × Nat} (h : ∀ b, Cost 50 20 110 b (key b)) (first : Bool) (b : Bytes) :
    CostM b (memberKeyT key first b) := by
  unfold memberKeyT
  split
  · exact keyRestW_cost h b
  · cases b with
    | nil => show 1 ≤ _; omega
    | cons c t =>
      simp only []
      split
      · show 1 ≤ _; omega
      · have h0 := keyRestW_cost h (skipSpacesW t).1
        have hst := skipSpacesW_snd t
        have hsl := skipSpaces_length_le t
        rw [skipSpacesW_fst] at h0 ⊢
        revert h0
        cases keyRestW key (skipSpaces t) with
        | mk x k => cases x with
          | inl c => intro h0; simp only [CostM] at h0; show k + (skipSpacesW t).2 ≤ _; rw [List.length_cons]; omega
          | inr x => cases x with
            | inl y => intro h0; simp only [CostM] at h0; show k + (skipSpacesW t).2 ≤ _; rw [List.length_cons]; omega
            | inr y =>
              intro h0
              obtain ⟨h1, h2⟩ := h0
              show y.2.length < _ ∧ k + (skipSpacesW t).2 + 60 + 50 * y.2.length ≤ _
              simp only [] at h1 h2
              rw [List.length_cons]; omega

end JC

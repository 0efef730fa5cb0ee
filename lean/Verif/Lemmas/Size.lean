import Verif.Spec.Size
import Verif.Props.TokenWork
import Verif.Lemmas.ParseValue
/-!
How much the encoding functions append (property C93).
-/
namespace JC
open Spec

theorem fmtNat_size (n : Nat) : (fmtNat n).length = digits n := by
  induction n using digits.induct with
  | case1 n h => unfold fmtNat digits; simp [h]
  | case2 n h ih => unfold fmtNat digits; simp [h, ih]

theorem digits_pos (n : Nat) : 1 ≤ digits n := by unfold digits; split <;> omega

theorem fmtInt_size (z : Int) : (fmtInt z).length ≤ digits z.natAbs + 1 := by
  unfold fmtInt
  split
  · simp [fmtNat_size]
  · simp [fmtNat_size]

theorem b64_size (s : Bytes) : (b64Encode s).length ≤ 4 * s.length := by
  induction s using b64Encode.induct with
  | case1 => simp [b64Encode]
  | case2 => simp [b64Encode]
  | case3 => simp [b64Encode]
  | case4 a b c r ih => simp [b64Encode]; omega

theorem encLoop_size (html : Bool) (n : Nat) : ∀ (s pend : Bytes), s.length ≤ n →
    (encLoop html pend s).length ≤ pend.length + 6 * s.length := by
  induction n with
  | zero =>
    intro s pend h
    cases s with
    | nil => unfold encLoop; simp
    | cons c t => simp at h
  | succ n ih =>
    intro s pend h
    cases s with
    | nil => unfold encLoop; simp
    | cons c t =>
      have hp := decodeRune_size_pos c t
      simp only [List.length_cons] at h
      have hd : ((c :: t).drop (decodeRune (c :: t)).2).length = t.length + 1 - (decodeRune (c :: t)).2 := by
        rw [List.length_drop, List.length_cons]
      have ht : ((c :: t).take (decodeRune (c :: t)).2).length = min (decodeRune (c :: t)).2 (t.length + 1) := by
        rw [List.length_take, List.length_cons]
      have h1 := ih t [] (by omega)
      have h2 := ih t (pend ++ [c]) (by omega)
      have h3 := ih ((c :: t).drop (decodeRune (c :: t)).2) [] (by omega)
      have h4 := ih ((c :: t).drop (decodeRune (c :: t)).2) (pend ++ (c :: t).take (decodeRune (c :: t)).2) (by omega)
      rw [hd] at h3 h4
      rw [List.length_append, ht] at h4
      simp only [List.length_append, List.length_cons, List.length_nil] at h1 h2 h3
      have a1 : (bs! "\\n").length = 2 := rfl
      have a2 : (bs! "\\r").length = 2 := rfl
      have a3 : (bs! "\\t").length = 2 := rfl
      have a4 : (bs! "\\u00").length = 4 := rfl
      have a5 : (bs! "\\ufffd").length = 6 := rfl
      have a6 : (bs! "\\u202").length = 5 := rfl
      unfold encLoop
      simp only []
      repeat' split
      all_goals
        simp only [List.length_append, List.length_cons, List.length_nil, a1, a2, a3, a4, a5, a6]
        omega

theorem compactLoop_size : ∀ (s : Bytes) (i e : Bool) (k : Nat) (pend : Bytes), (compactLoop i e k pend s).length ≤ pend.length + 6 * s.length
  | [], i, e, k, pend => by simp [compactLoop]
  | c :: t, i, e, k, pend => by
    have hp : (if k = 0 then pend ++ [c] else pend).length ≤ pend.length + 1 := by split <;> simp
    have ih := fun i e k p => compactLoop_size t i e k p
    unfold compactLoop
    simp only []
    generalize (if k = 0 then pend ++ [c] else pend) = p' at *
    simp only [List.length_cons]
    repeat' split
    all_goals first
      | (refine Nat.le_trans (ih _ _ _ _) ?_; omega)
      | (simp only [List.length_append, List.length_cons, List.length_nil]
         have h1 := ih false e 0 []
         have h2 := ih true false 0 []
         have h3 := ih true false 2 []
         simp only [List.length_nil] at *
         have h4 : (bs! "\\u00").length = 4 := rfl
         have h5 : (bs! "\\u202").length = 5 := rfl
         omega)

theorem compact_size (s : Bytes) : (compactLoop false false 0 [] s).length ≤ 6 * s.length := by
  have := compactLoop_size s false false 0 []; simpa using this

theorem compact_string {v : Bytes} (h : rvString v = true) : (compactLoop false false 0 [] v).length + 5 ≤ 6 * v.length := by
  cases v with
  | nil => simp [rvString] at h
  | cons c t =>
    simp only [rvString, List.length_cons, List.head?_cons, Bool.and_eq_true, beq_iff_eq, Option.some.injEq] at h
    obtain ⟨_, rfl⟩ := h
    have := compactLoop_size t true false 0 [ch! '"']
    simp only [List.length_cons, List.length_nil] at this
    unfold compactLoop
    simp only [Bool.not_false, if_true, List.nil_append, List.length_cons, Nat.zero_sub]
    omega

theorem tokSkip_size (b : Bytes) : (tokSkip b).length ≤ b.length := by
  induction b with
  | nil => simp [tokSkip]
  | cons c t ih => unfold tokSkip; split <;> simp only [List.length_cons] <;> omega

theorem tokScan_size {b : Bytes} {d : UInt8} {v r : Bytes} (h : tokScan b = (d, v, r, none)) : v.length + r.length = b.length := by
  unfold tokScan at h
  cases b with
  | nil => simp only [Prod.mk.injEq] at h; obtain ⟨_, rfl, rfl, _⟩ := h; rfl
  | cons c t =>
    have e1 : ∀ {v r}, parseString (c :: t) = .ok v r → c :: t = v ++ r := fun h => (parseString_sound h).1
    have e2 : ∀ {v r}, parseNull (c :: t) = .ok v r → c :: t = v ++ r := fun h => (parseNull_sound h).1
    have e3 : ∀ {v r}, parseTrue (c :: t) = .ok v r → c :: t = v ++ r := fun h => (parseTrue_sound h).1
    have e4 : ∀ {v r}, parseFalse (c :: t) = .ok v r → c :: t = v ++ r := fun h => (parseFalse_sound h).1
    have e5 : ∀ {v r}, parseNumber (c :: t) = .ok v r → c :: t = v ++ r := fun h => (parseNumber_sound h).1
    simp only [] at h
    repeat' split at h
    all_goals simp only [Prod.mk.injEq, reduceCtorEq, and_false] at h
    all_goals obtain ⟨_, rfl, rfl, _⟩ := h
    · rw [e1 ‹_›, List.length_append]
    · rw [e2 ‹_›, List.length_append]
    · rw [e3 ‹_›, List.length_append]
    · rw [e4 ‹_›, List.length_append]
    · rw [e5 ‹_›, List.length_append]
    · simp only [List.length_cons, List.length_nil]; omega

theorem delimStep_value (t : Tok) (d : UInt8) (e : Option Err) (t' : Tok) (e' : Option Err) (h : t.delimStep d e = some (t', e')) :
    t'.value = t.value ∧ (d = 0 → e' = e) := by
  unfold Tok.delimStep at h
  simp only [] at h
  have hp : ∀ s, (t.pop s).1.value = t.value := by
    intro s; unfold Tok.pop; repeat' split
    all_goals rfl
  repeat' split at h
  all_goals first
    | (cases h; done)
    | (simp only [Option.some.injEq, Prod.mk.injEq] at h; obtain ⟨rfl, rfl⟩ := h
       refine ⟨?_, ?_⟩
       · first | rfl | exact hp _ | (split <;> rfl)
       · intro h0; first | rfl | (exact absurd h0 ‹_›))

/-- A token is made of bytes that are gone over. -/
theorem next_size {t t' : Tok} (h : t.next = .ret t' true) : 1 ≤ t'.value.length ∧ t'.value.length + t'.json.length ≤ t.json.length := by
  unfold Tok.next at h
  cases ht : t.err with
  | some e => rw [ht] at h; simp at h
  | none =>
    rw [ht] at h
    simp only [] at h
    have hk := tokSkip_size t.json
    by_cases h2 : (tokSkip t.json).length = 0
    · rw [if_pos h2] at h; simp at h
    · rw [if_neg h2] at h
      have hs : ∀ d v r, tokScan (tokSkip t.json) = (d, v, r, none) → _ := fun d v r h => tokScan_size h
      have hd : ∀ v r e, ∀ d : UInt8, tokScan (tokSkip t.json) = (d, v, r, some e) → d = 0 := by
        intro v r e d h
        unfold tokScan at h
        cases hb : tokSkip t.json with
        | nil => rw [hb] at h2; simp at h2
        | cons c u =>
          rw [hb] at h
          simp only [] at h
          repeat' split at h
          all_goals first
            | (simp only [Prod.mk.injEq] at h; exact h.1.symm)
            | (simp at h; done)
      have hv : ∀ v r, ∀ d : UInt8, d ≠ 0 → tokScan (tokSkip t.json) = (d, v, r, none) → v.length = 1 := by
        intro v r d h0 h
        unfold tokScan at h
        cases hb : tokSkip t.json with
        | nil => rw [hb] at h2; simp at h2
        | cons c u =>
          rw [hb] at h
          simp only [] at h
          repeat' split at h
          all_goals first
            | (simp only [Prod.mk.injEq] at h; exact absurd h.1.symm h0)
            | (simp at h; done)
            | (simp only [Prod.mk.injEq] at h; rw [← h.2.1]; rfl)
      revert h hs hd hv
      rcases tokScan (tokSkip t.json) with ⟨d, v, b, err⟩
      intro h hs hd hv
      simp only [] at h
      generalize ho : Tok.delimStep _ d err = o at h
      rcases o with _ | ⟨t2, e2⟩
      · simp at h
      · simp only [NextR.ret.injEq, Bool.and_eq_true, Bool.or_eq_true, bne_iff_ne, Option.isNone_iff_eq_none] at h
        obtain ⟨rfl, h3, h4⟩ := h
        obtain ⟨_, h5⟩ := Props.delimStep_keeps _ _ _ _ _ ho
        obtain ⟨h6, h7⟩ := delimStep_value _ _ _ _ _ ho
        simp only [] at h5 h6
        rw [h5, h6]
        have he : err = none := by
          cases err with
          | none => rfl
          | some e => rw [h7 (hd _ _ _ _ rfl)] at h4; cases h4
        subst he
        have := hs _ _ _ rfl
        refine ⟨?_, by omega⟩
        by_cases hd0 : d = 0
        · rcases h3 with h3 | h3
          · exact absurd hd0 h3
          · omega
        · exact Nat.le_of_eq (hv _ _ _ hd0 rfl).symm

/-- The bytes of some tokens. -/
def obsSize : List Obs → Nat
  | [] => 0
  | t :: ts => t.value.length + obsSize ts

theorem run_size : ∀ (n : Nat) (t : Tok), obsSize (t.run n).1 ≤ t.json.length ∧ ∀ o ∈ (t.run n).1, 1 ≤ o.value.length
  | 0, t => by simp [Tok.run, obsSize]
  | n + 1, t => by
    unfold Tok.run
    cases h : t.next with
    | panic => simp [obsSize]
    | ret t' ok =>
      cases ok with
      | false => simp [obsSize]
      | true =>
        obtain ⟨h1, h2⟩ := next_size h
        obtain ⟨h3, h4⟩ := run_size n t'
        simp only [obsSize]
        have : t'.obs.value = t'.value := rfl
        refine ⟨by rw [this]; omega, ?_⟩
        intro o ho
        rcases List.mem_cons.1 ho with rfl | ho
        · exact h1
        · exact h4 o ho

/-- The tokens of a text are no longer than the text. -/
theorem tokenize_size (b : Bytes) : obsSize (tokenize b).1 ≤ b.length ∧ ∀ o ∈ (tokenize b).1, 1 ≤ o.value.length :=
  run_size _ (newTokenizer b)

theorem run_ends : ∀ (n : Nat) (t : Tok), t.json.length < n → (t.run n).2 ≠ .outOfFuel
  | 0, t, h => by omega
  | n + 1, t, h => by
    unfold Tok.run
    cases hn : t.next with
    | panic => simp
    | ret t' ok =>
      cases ok with
      | false => simp
      | true =>
        have := next_size hn
        exact run_ends n t' (by omega)

theorem tokenize_ends (b : Bytes) : (tokenize b).2 ≠ .outOfFuel := run_ends _ (newTokenizer b) (Nat.lt_succ_self _)

end JC

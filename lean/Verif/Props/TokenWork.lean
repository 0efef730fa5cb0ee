import Verif.Model.TokenWork
import Verif.Lemmas.Work
import Verif.Lemmas.Token
/-!
Property C91: the work of the Tokenizer.
-/
namespace JC.Props
open JC Spec

theorem tokSkipW_fst (b : Bytes) : (tokSkipW b).1 = tokSkip b := by
  induction b with
  | nil => rfl
  | cons c t ih =>
    simp only [tokSkipW, tokSkip]
    split
    · exact ih
    · rfl

theorem tokSkipW_snd (b : Bytes) : (tokSkipW b).2 + (tokSkipW b).1.length = b.length + 1 ∧ 1 ≤ (tokSkipW b).2 := by
  induction b with
  | nil => exact ⟨rfl, Nat.le_refl _⟩
  | cons c t ih =>
    simp only [tokSkipW]
    split
    · simp only [tick, List.length_cons]; omega
    · simp only [List.length_cons]; omega

/-- What scanning a token costs: ten steps for each byte it goes over; if it fails, ten for each byte there is and eleven more. -/
def ScanCost (b : Bytes) (x : (UInt8 × Bytes × Bytes × Option Err) × Nat) : Prop :=
  match x.1.2.2.2 with
  | none => x.1.2.2.1.length < b.length ∧ x.2 + 10 * x.1.2.2.1.length ≤ 10 * b.length
  | some _ => x.2 ≤ 10 * b.length + 11

theorem scanW_fst (b : Bytes) : (tokScanW b).1 = tokScan b := by
  unfold tokScanW tokScan
  cases b with
  | nil => rfl
  | cons c t =>
    simp only []
    rw [← parseStringW_fst, ← parseNumberW_fst]
    split
    · rcases parseStringW (c :: t) with ⟨_ | _, _⟩ <;> rfl
    · split
      · cases parseNull (c :: t) <;> rfl
      · split
        · cases parseTrue (c :: t) <;> rfl
        · split
          · cases parseFalse (c :: t) <;> rfl
          · split
            · rcases parseNumberW (c :: t) with ⟨_ | _, _⟩ <;> rfl
            · split <;> rfl

theorem scan_word {b v r : Bytes} (h : b = v ++ r) (hv : 4 ≤ v.length) {k : Nat} (hk : k ≤ 7) : ScanCost b ((0, v, r, none), k) := by
  subst h
  simp only [ScanCost, List.length_append]; omega

theorem scanW_cost {b : Bytes} (hb : b ≠ []) : ScanCost b (tokScanW b) := by
  unfold tokScanW
  cases b with
  | nil => exact absurd rfl hb
  | cons c t =>
    simp only []
    split
    · have := parseStringW_lin (c :: t)
      revert this
      rcases parseStringW (c :: t) with ⟨_ | _, _⟩
      · intro h; obtain ⟨h1, h2, h3⟩ := h; simp only [ScanCost] at *; omega
      · intro h; simp only [Lin, ScanCost] at *; omega
    · split
      · cases h : parseNull (c :: t) with
        | ok v r => obtain ⟨h1, rfl⟩ := parseNull_sound h; exact scan_word h1 (by decide) (by omega)
        | fail r e => simp only [ScanCost]; omega
      · split
        · cases h : parseTrue (c :: t) with
          | ok v r => obtain ⟨h1, rfl⟩ := parseTrue_sound h; exact scan_word h1 (by decide) (by omega)
          | fail r e => simp only [ScanCost]; omega
        · split
          · cases h : parseFalse (c :: t) with
            | ok v r => obtain ⟨h1, rfl⟩ := parseFalse_sound h; exact scan_word h1 (by decide) (by omega)
            | fail r e => simp only [ScanCost]; omega
          · split
            · have := parseNumberW_lin (c :: t)
              revert this
              rcases parseNumberW (c :: t) with ⟨_ | _, _⟩
              · intro h; obtain ⟨h1, h2, h3⟩ := h; simp only [ScanCost] at *; omega
              · intro h; simp only [Lin, ScanCost] at *; omega
            · split
              · simp only [ScanCost, List.length_cons]; omega
              · simp only [ScanCost, List.length_cons]; omega

/-- **C91** The counting Tokenizer returns what the Tokenizer returns. -/
theorem C91_next (t : Tok) : t.nextW.1 = t.next := by
  unfold Tok.nextW Tok.next
  cases t.err with
  | some e => rfl
  | none =>
    simp only [← tokSkipW_fst, ← scanW_fst]
    split
    · rfl
    · rcases tokScanW (tokSkipW t.json).1 with ⟨⟨d, v, b, err⟩, k⟩
      simp only []
      generalize Tok.delimStep _ d err = o
      rcases o with _ | ⟨_, _⟩ <;> rfl

theorem delimStep_keeps (t : Tok) (d : UInt8) (e : Option Err) (t' : Tok) (e' : Option Err) (h : t.delimStep d e = some (t', e')) :
    t'.err = t.err ∧ t'.json = t.json := by
  unfold Tok.delimStep at h
  simp only [] at h
  have hp : ∀ s, (t.pop s).1.err = t.err ∧ (t.pop s).1.json = t.json := by
    intro s; unfold Tok.pop; repeat' split
    all_goals exact ⟨rfl, rfl⟩
  repeat' split at h
  all_goals first
    | (cases h; done)
    | (simp only [Option.some.injEq, Prod.mk.injEq] at h; obtain ⟨rfl, rfl⟩ := h
       first | exact ⟨rfl, rfl⟩ | exact hp _ | (split <;> exact ⟨rfl, rfl⟩))

/-- The bytes still to be paid for: all that are left, unless there was an error. -/
def Tok.credit (t : Tok) : Nat := if t.err = none then 10 * t.json.length + 14 else 0

/-- What one call of `Next` costs. -/
def CallCost (t : Tok) : NextR × Nat → Prop
  | (.panic, k) => k ≤ Tok.credit t
  | (.ret t' _, k) => k + Tok.credit t' ≤ Tok.credit t + 3 ∧ (t'.err = none → k + 10 * t'.json.length ≤ 10 * t.json.length + 3)

theorem nextW_cost (t : Tok) : CallCost t t.nextW := by
  unfold Tok.nextW
  cases ht : t.err with
  | some e => simp only [CallCost, Tok.credit, ht]; simp
  | none =>
    obtain ⟨h1, h0⟩ := tokSkipW_snd t.json
    simp only []
    by_cases h2 : (tokSkipW t.json).1.length = 0
    · rw [if_pos h2]
      simp only [CallCost, Tok.credit, ht, Tok.reset, List.length_nil, if_true]
      omega
    · rw [if_neg h2]
      have h3 := scanW_cost (b := (tokSkipW t.json).1) (by intro h; rw [h] at h2; exact h2 rfl)
      revert h3
      rcases tokScanW (tokSkipW t.json).1 with ⟨⟨d, v, b, err⟩, k⟩
      intro h3
      simp only []
      generalize ho : Tok.delimStep _ d err = o
      rcases o with _ | ⟨t', e'⟩
      · simp only [CallCost, Tok.credit, ht, if_true]
        cases err <;> simp only [ScanCost] at h3 <;> omega
      · obtain ⟨h4, h5⟩ := delimStep_keeps _ _ _ _ _ ho
        simp only [] at h4 h5
        simp only [CallCost, Tok.credit, ht, h4, h5, if_true]
        cases err with
        | none => simp only [ScanCost] at h3; simp only [if_true]; omega
        | some x => simp only [ScanCost] at h3; simp; omega

/-- **C91** A token costs ten steps for each byte it is long, the spaces before it included, and three more. -/
theorem C91_token (t t' : Tok) (ok : Bool) (h : t.next = .ret t' ok) (he : t'.err = none) :
    t'.json.length ≤ t.json.length ∧ t.nextW.2 + 10 * t'.json.length ≤ 10 * t.json.length + 3 := by
  have := nextW_cost t
  rw [← C91_next] at h
  revert this h
  rcases t.nextW with ⟨_ | _, k⟩
  · intro h2 h1
    cases h2
    exact ⟨by have := h1.2 he; omega, h1.2 he⟩
  · intro h; cases h

/-- **C91** Any number of calls of `Next`, also behind the end of the text and behind errors, cost ten steps for each byte of the text
and three for each call. -/
theorem C91_calls : ∀ (n : Nat) (t : Tok), (t.nextsW n).2 ≤ 10 * t.json.length + 14 + 3 * n := by
  have key : ∀ (n : Nat) (t : Tok), (t.nextsW n).2 ≤ Tok.credit t + 3 * n := by
    intro n
    induction n with
    | zero => intro t; simp [Tok.nextsW]
    | succ n ih =>
      intro t
      have h := nextW_cost t
      unfold Tok.nextsW
      revert h
      rcases t.nextW with ⟨t' | _, k⟩
      · intro h
        have := ih t'
        simp only [CallCost, tick] at *; omega
      · intro h; simp only [CallCost] at *; omega
  intro n t
  have := key n t
  unfold Tok.credit at this
  split at this <;> omega

theorem runW_fst : ∀ (n : Nat) (t : Tok), (t.runW n).1 = t.run n
  | 0, _ => rfl
  | n + 1, t => by
    unfold Tok.runW Tok.run
    rw [← C91_next]
    rcases t.nextW with ⟨⟨t', _ | _⟩ | _, k⟩
    · rfl
    · simp only [runW_fst n t']
    · rfl

theorem runW_snd : ∀ (n : Nat) (t : Tok), (t.runW n).2 ≤ Tok.credit t + 3 * n
  | 0, _ => by simp [Tok.runW]
  | n + 1, t => by
    have h := nextW_cost t
    unfold Tok.runW
    revert h
    rcases t.nextW with ⟨⟨t', _ | _⟩ | _, k⟩
    · intro h; simp only [CallCost] at *; omega
    · intro h
      have := runW_snd n t'
      simp only [CallCost] at *; omega
    · intro h; simp only [CallCost] at *; omega

/-- **C91** Going through all tokens of a text takes a number of steps that is linear in its length, whether or not it is JSON. -/
theorem C91_linear (b : Bytes) : (tokenizeW b).1 = tokenize b ∧ (tokenizeW b).2 ≤ 13 * b.length + 17 := by
  refine ⟨runW_fst _ _, ?_⟩
  have := runW_snd (b.length + 1) (newTokenizer b)
  have h : Tok.credit (newTokenizer b) = 10 * b.length + 14 := rfl
  unfold tokenizeW
  omega

/-! Concrete cases. -/

example : (tokenizeW (bs! "{\"a\\\"b\": [1, true]}")).2 = 64 := by decide +kernel

/-- The last call pays for the rest of the text. -/
example : (tokenizeW (bs! "[\"aaaaaaaa")).2 = 19 := by decide +kernel

example : ((newTokenizer (bs! "1 2")).nextsW 5).2 = 29 := by decide +kernel

end JC.Props

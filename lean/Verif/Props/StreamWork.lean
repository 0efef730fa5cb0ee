import Verif.Lemmas.StreamAny
import Verif.Lemmas.WorkIface
import Verif.Props.Stream
/-!
C77: the `Decoder` takes time in proportion to the bytes it passes over.
-/
namespace JC.Props
open JC Spec

/-- The count does not change what the `Decoder` returns. -/
theorem C77_same (s : SDec) (n : Nat) : s.readValueW.1 = s.readValue ∧ (s.callsW n).1 = s.calls n :=
  ⟨readValueW_fst s, callsW_fst n s⟩

/-- The full statement: a number of steps for each byte that the reader has is enough for a call, whatever the reader
does. It is false, see `C77_fails_pieces`. -/
def C77_statement : Prop := ∃ k : Nat, ∀ r : Reader, (newDecoder r).readValueW.2 ≤ k * (r.data.length + 1)

theorem plain_calls {e : Err} : ∀ (k : Nat) (s : SDec), s.WF → PlainR e s.reader → PlainR e (s.calls k).2.reader
  | 0, _, _, h => h
  | k + 1, _, hw, h => plain_calls k _ (readValue_wf hw) (readValue_plain _ hw h)

theorem passed_value {v p : Bytes} (h : Passed [v] p) : v.length ≤ p.length := by
  cases h with
  | cons w v vs a hw ha => simp; omega

theorem call_ok {e : Err} {s : SDec} (hw : s.WF) (hpl : PlainR e s.reader) {v : Bytes} (hv : s.readValue.1 = .ok v) :
    s.readValueW.2 + 4 * s.readValue.2.left ≤ 135 * v.length + 4 * s.left + 40 ∧ v.length + s.readValue.2.left ≤ s.left := by
  have h := cost_any (s.reader.data.length + 2) s hw hpl v.length (by
    have := readValueW_fst s
    unfold SDec.readValueW at this
    rw [this, hv]; exact Nat.le_refl _)
  have e1 := readValueW_fst s
  obtain ⟨p, hb, hp⟩ := readValue_bytes s hw
  rw [hv] at hp
  have := passed_value (v := v) (p := p) hp
  have hl := congrArg List.length hb
  simp only [List.length_append] at hl
  constructor
  · unfold Within at h
    change s.readValueW.2 + 4 * s.readValueW.1.2.left ≤ _ at h
    rw [e1] at h
    exact h
  · unfold SDec.left; omega

theorem call_any {e : Err} {s : SDec} (hw : s.WF) (hpl : PlainR e s.reader) : s.readValueW.2 ≤ 139 * s.left + 40 := by
  cases hx : s.readValue.1 with
  | ok v => have := call_ok hw hpl hx; omega
  | err x =>
    have h := cost_any (s.reader.data.length + 2) s hw hpl s.left (by
      have := readValueW_fst s
      unfold SDec.readValueW at this
      rw [this, hx]; exact Nat.le_refl _)
    unfold Within at h
    change s.readValueW.2 + 4 * s.readValueW.1.2.left ≤ _ at h
    omega

/-- For a reader that fails in the end only: after any number of calls, a call that returns a value takes at most 139
steps for each byte that it passes over, and forty more. The value may have been read in any number of portions. -/
theorem C77_value_partial (b : Bytes) (e : Err) (k : Nat) (v : Bytes) (s s' : SDec) (hs : s = ((newDecoder ⟨[(b, e)], e⟩).calls k).2)
    (h : s.readValue = (.ok v, s')) :
    s.readValueW.2 ≤ 139 * (s.remain.length + s.reader.data.length - (s'.remain.length + s'.reader.data.length)) + 40 := by
  have hw : s.WF := by rw [hs]; exact calls_wf k (newDecoder_wf _)
  have hpl : PlainR e s.reader := by rw [hs]; exact plain_calls k _ (newDecoder_wf _) ⟨rfl, .inr ⟨b, rfl⟩⟩
  have := call_ok hw hpl (v := v) (by rw [h])
  rw [h] at this
  unfold SDec.left at this
  simp only [] at this
  omega

/-- For a reader that fails in the end only: reading all values and the error behind them takes at most 139 steps for
each byte and forty for each call. -/
theorem C77_total_partial (b : Bytes) (e : Err) (k : Nat) (h : ∀ x ∈ ((newDecoder ⟨[(b, e)], e⟩).calls k).1, ∃ v, x = .ok v) :
    ((newDecoder ⟨[(b, e)], e⟩).callsW (k + 1)).2 ≤ 139 * b.length + 40 * (k + 1) := by
  have key : ∀ (k : Nat) (s : SDec), s.WF → PlainR e s.reader → (∀ x ∈ (s.calls k).1, ∃ v, x = .ok v) →
      (s.callsW (k + 1)).2 ≤ 139 * s.left + 40 * (k + 1) := by
    intro k
    induction k with
    | zero =>
      intro s hw hpl _
      have := call_any hw hpl
      simp only [SDec.callsW]; omega
    | succ k ih =>
      intro s hw hpl h
      obtain ⟨v, hv⟩ := h s.readValue.1 (by simp [SDec.calls])
      have h1 := call_ok hw hpl hv
      have h2 := ih s.readValue.2 (readValue_wf hw) (readValue_plain s hw hpl) (fun x hx => h x (by simp [SDec.calls, hx]))
      have e1 : (s.callsW (k + 1 + 1)).2 = s.readValueW.2 + (s.readValue.2.callsW (k + 1)).2 := by
        rw [SDec.callsW, readValueW_fst]
      rw [e1]
      omega
  have := key k _ (newDecoder_wf ⟨[(b, e)], e⟩) ⟨rfl, .inr ⟨b, rfl⟩⟩ h
  have hl : (newDecoder ⟨[(b, e)], e⟩).left = b.length := by
    simp [SDec.left, newDecoder, SDec.remain, Reader.data]
  rw [hl] at this
  exact this

/-! Any reader: what it costs that errors are dropped. -/

theorem call_errs {s : SDec} (hw : s.WF) {M : Nat} (h : Lim s.readValue.1 s M) :
    s.readValueW.2 + 4 * s.readValue.2.left + (160 * M + 40) * s.readValue.2.errsLeft ≤ 135 * M + 4 * s.left + 40 + (160 * M + 40) * s.errsLeft := by
  have e1 := readValueW_fst s
  have h1 := (cost_all (s.reader.data.length + 2) s hw M (by
    unfold SDec.readValueW at e1
    rw [e1]; exact h)).1
  unfold WithinE at h1
  change s.readValueW.2 + 4 * s.readValueW.1.2.left + (160 * M + 40) * s.readValueW.1.2.errsLeft ≤ _ at h1
  rw [e1] at h1
  exact h1

theorem call_passed {s : SDec} (hw : s.WF) : s.readValue.2.left ≤ s.left ∧ ∀ v, s.readValue.1 = .ok v → v.length + s.readValue.2.left ≤ s.left := by
  obtain ⟨p, hb, hp⟩ := readValue_bytes s hw
  have hl := congrArg List.length hb
  simp only [List.length_append] at hl
  unfold SDec.left
  refine ⟨by omega, fun v hv => ?_⟩
  rw [hv] at hp
  have := passed_value (v := v) (p := p) hp
  omega

theorem call_le {s : SDec} (hw : s.WF) {M N : Nat} (hM : M ≤ N)
    (h : s.readValueW.2 + 4 * s.readValue.2.left + (160 * M + 40) * s.readValue.2.errsLeft ≤ 135 * M + 4 * s.left + 40 + (160 * M + 40) * s.errsLeft) :
    s.readValueW.2 + 4 * s.readValue.2.left + (160 * N + 40) * s.readValue.2.errsLeft ≤ 135 * M + 4 * s.left + 40 + (160 * N + 40) * s.errsLeft := by
  have hle : s.readValue.2.errsLeft ≤ s.errsLeft := by
    refine readValue_ind (P := fun s x => x.2.errsLeft ≤ s.errsLeft) ?_ ?_ ?_ ?_ s hw
    · intro s v r h hn hp
      rw [readValue_ok hn hp]; exact Nat.le_refl _
    · intro s r e h _ _ _; exact Nat.le_refl _
    · intro s e h _ _; exact Nat.le_refl _
    · intro s x h _ _ hx
      refine Nat.le_trans hx ?_
      rcases refill_any h with ⟨x, _, c⟩ | ⟨_, c⟩ | c
      · unfold SDec.errsLeft; rw [c]; omega
      · omega
      · omega
  obtain ⟨d, hd⟩ := Nat.exists_eq_add_of_le hle
  rw [hd, Nat.mul_add] at h ⊢
  have : (160 * M + 40) * d ≤ (160 * N + 40) * d := Nat.mul_le_mul_right d (by omega)
  omega

/-- For every reader: after any number of calls, a call that returns a value takes at most 139 steps for each byte that
it passes over and forty more, and 160 for each byte of the value and forty more for each error that the reader returned
in between and that was dropped. -/
theorem C77_errors_partial (r : Reader) (k : Nat) (v : Bytes) (s s' : SDec) (hs : s = ((newDecoder r).calls k).2)
    (h : s.readValue = (.ok v, s')) :
    s.readValueW.2 ≤ 139 * (s.remain.length + s.reader.data.length - (s'.remain.length + s'.reader.data.length)) + 40
      + (160 * v.length + 40) * (s.reader.segs.length - s'.reader.segs.length) := by
  have hw : s.WF := by rw [hs]; exact calls_wf k (newDecoder_wf _)
  have h1 := call_errs (M := v.length) hw (by rw [h]; exact Nat.le_refl _)
  have h2 := (call_passed hw).2 v (by rw [h])
  rw [h] at h1 h2
  unfold SDec.left SDec.errsLeft at *
  simp only [] at h1 h2
  rw [Nat.mul_sub (160 * v.length + 40)]
  omega

/-- For every reader: any number of calls, with whatever results, the last of which alone may return an error, take at
most 139 steps for each byte, forty for each call, and for each error of the reader 160 steps for each byte and forty. The
square in `C77_pieces` is the worst there is. -/
theorem C77_total_errors_partial (r : Reader) (k : Nat) (h : ∀ x ∈ ((newDecoder r).calls k).1, ∃ v, x = .ok v) :
    ((newDecoder r).callsW (k + 1)).2 ≤ 139 * r.data.length + 40 * (k + 1) + (160 * r.data.length + 40) * r.segs.length := by
  have key : ∀ (N k : Nat) (s : SDec), s.WF → s.left ≤ N → (∀ x ∈ (s.calls k).1, ∃ v, x = .ok v) →
      (s.callsW (k + 1)).2 ≤ 139 * s.left + 40 * (k + 1) + (160 * N + 40) * s.errsLeft := by
    intro N k
    induction k with
    | zero =>
      intro s hw hN _
      have e0 : (s.callsW (0 + 1)).2 = s.readValueW.2 := by simp [SDec.callsW]
      rw [e0]
      cases hx : s.readValue.1 with
      | ok v =>
        have h2 := (call_passed hw).2 v hx
        have h1 := call_errs (M := v.length) hw (by rw [hx]; exact Nat.le_refl _)
        have h3 := call_le hw (M := v.length) (N := N) (by omega) h1
        omega
      | err x =>
        have h1 := call_errs (M := s.left) hw (by rw [hx]; exact Nat.le_refl _)
        have h3 := call_le hw (M := s.left) hN h1
        omega
    | succ k ih =>
      intro s hw hN h
      obtain ⟨v, hv⟩ := h s.readValue.1 (by simp [SDec.calls])
      have h2 := (call_passed hw).2 v hv
      have h1 := call_errs (M := v.length) hw (by rw [hv]; exact Nat.le_refl _)
      have h3 := call_le hw (M := v.length) (N := N) (by omega) h1
      have h4 := ih s.readValue.2 (readValue_wf hw) (by omega) (fun x hx => h x (by simp [SDec.calls, hx]))
      have e1 : (s.callsW (k + 1 + 1)).2 = s.readValueW.2 + (s.readValue.2.callsW (k + 1)).2 := by
        rw [SDec.callsW, readValueW_fst]
      rw [e1]
      omega
  have hl : (newDecoder r).left = r.data.length := by
    simp [SDec.left, newDecoder, SDec.remain]
  have := key r.data.length k _ (newDecoder_wf r) (by omega) h
  rw [hl] at this
  exact this

/-! A reader that has more data after an error, like a file that is being written: the error is forgotten
(`/repo/json.go:319-322`) and the loop starts again with one more byte. -/

/-- `n` opening brackets, one at a time, with an error between them. -/
def dribble (n : Nat) : Reader := ⟨List.replicate n ([0x5b], .eof), .eof⟩

theorem no_cut (n : Nat) : ¬ BadCut (List.replicate n 0x5b) := by
  rintro ⟨x, y, h, e, _⟩
  have : (0x5c : UInt8) ∈ List.replicate n 0x5b := by rw [e]; simp
  have := List.eq_of_mem_replicate this
  contradiction

theorem open_fails : ∀ i, ∃ e, parseValue (List.replicate (i + 1) 0x5b) = .fail [] e := by
  have htower : ∀ k, tower k = List.replicate k 0x5b ++ List.replicate k 0x5d := by
    intro k
    induction k with
    | zero => rfl
    | succ k ih => rw [tower, ih, List.replicate_succ, List.replicate_succ' (n := k) (a := (0x5d : UInt8))]; simp
  intro i
  obtain ⟨xs, hj⟩ := tower_arr i
  rw [htower] at hj
  rcases parseValue_cut hj (by simp) (no_cut _) with h | ⟨⟨t, h⟩, _⟩
  · exact ⟨_, h⟩
  · contradiction

theorem room_two {s : SDec} (h : s.WF) : 2 ≤ s.room := by
  obtain ⟨f1, f2, f3, f4⟩ := front_spec h
  unfold SDec.room growBuf minReadSize minBufferSize at *
  split
  · simp; omega
  · omega

theorem dribble_cost : ∀ (k n i : Nat) (s : SDec), s.WF → s.err = none → s.remain = List.replicate i 0x5b → s.reader = dribble k → k ≤ n →
    k * (2 * i + k) ≤ 2 * (readLoopW n s).2 + k := by
  intro k
  induction k with
  | zero => intro n i s _ _ _ _ _; omega
  | succ k ih =>
    intro n i s hw he hr hd hn
    obtain ⟨n, rfl⟩ : ∃ m, n = m + 1 := ⟨n - 1, by omega⟩
    obtain ⟨h1, _, h3, h4, _, h6, h7⟩ := refill_spec hw
    have h2 := room_two hw
    have hq : readFull s.room s.reader = ([0x5b], some .unexpectedEOF, dribble k) := by
      rw [hd]
      simp only [dribble, readFull, List.replicate_succ]
      rw [if_neg (by simp; omega)]
      rfl
    rw [hq] at h3 h4 h6
    have hr' : s.refill.remain = List.replicate (i + 1) 0x5b := by
      rw [h4, hr]
      rw [show List.replicate i (0x5b : UInt8) ++ [0x5b] = List.replicate (i + 1) 0x5b from (List.replicate_succ' ..).symm]
      rw [List.replicate_succ]
      rfl
    have hi := ih n (i + 1) s.refill h7 (by rw [h6]; rfl) hr' h3 (by omega)
    have hg := refillW_ge hw
    have hl : s.remain.length = i := by rw [hr]; simp
    have hc : i + (readLoopW n s.refill).2 ≤ (readLoopW (n + 1) s).2 := by
      conv => rhs; unfold readLoopW
      simp only [he]
      split
      · rename_i hne
        obtain ⟨j, rfl⟩ : ∃ j, i = j + 1 := ⟨i - 1, by
          have := List.length_pos_iff.2 hne
          omega⟩
        obtain ⟨x, hx⟩ := open_fails j
        rw [← hr] at hx
        obtain ⟨l, hl, _⟩ := parseValueW_fail hx
        rw [hl]
        simp only []
        rw [if_neg (by simp), tick_snd, tick_snd, refillW_fst]
        omega
      · rw [tick_snd, refillW_fst]
        omega
    have e1 : (k + 1) * (2 * i + (k + 1)) = k * (2 * (i + 1) + k) + 2 * i + 1 := by
      simp only [Nat.add_mul, Nat.mul_add]
      omega
    omega

/-- `n` bytes take at least `n * (n - 1) / 2` steps. -/
theorem C77_pieces (n : Nat) : (dribble n).data.length = n ∧ n * n ≤ 2 * (newDecoder (dribble n)).readValueW.2 + n := by
  have hd : (dribble n).data.length = n := by
    simp only [dribble, Reader.data]
    induction n with
    | zero => rfl
    | succ n ih => rw [List.replicate_succ, List.flatMap_cons]; simp only [List.length_append]; rw [ih]; simp; omega
  refine ⟨hd, ?_⟩
  have := dribble_cost n ((dribble n).data.length + 2) 0 (newDecoder (dribble n)) (newDecoder_wf _) rfl rfl rfl (by omega)
  simp only [Nat.mul_zero, Nat.zero_add] at this
  exact this

/-- No number of steps for each byte is enough for all readers. -/
theorem C77_fails_pieces : ¬ C77_statement := by
  rintro ⟨k, h⟩
  have h1 := h (dribble (4 * k + 4))
  obtain ⟨h2, h3⟩ := C77_pieces (4 * k + 4)
  rw [h2] at h1
  have e1 : (4 * k + 4) * (4 * k + 4) = 16 * (k * k) + 32 * k + 16 := by
    simp only [Nat.add_mul, Nat.mul_add]
    have : 4 * k * (4 * k) = 16 * (k * k) := by rw [Nat.mul_mul_mul_comm]
    omega
  have e2 : k * (4 * k + 4 + 1) = 4 * (k * k) + 5 * k := by
    simp only [Nat.mul_add]
    have : k * (4 * k) = 4 * (k * k) := Nat.mul_left_comm _ _ _
    omega
  omega

/-- Beside it: a value in three pieces with two errors between them. -/
example : ((newDecoder ⟨[(bs! "[1", .eof), (bs! ",2", .unexpectedEOF), (bs! "] 3", .eof)], .eof⟩).callsW 3).1.1
    = [.ok (bs! "[1,2]"), .ok (bs! "3"), .err .eof] ∧
    ((newDecoder ⟨[(bs! "[1", .eof), (bs! ",2", .unexpectedEOF), (bs! "] 3", .eof)], .eof⟩).callsW 3).2
      ≤ 139 * 7 + 40 * 3 + (160 * 7 + 40) * 3 := by decide +kernel

/-- Beside it: two values and the end; four bytes, one at a time. -/
example : ((newDecoder ⟨[(bs! "[1] {}", .eof)], .eof⟩).callsW 3).2 = 28 ∧ (newDecoder (dribble 4)).readValueW.2 = 67 := by decide +kernel

end JC.Props

import Verif.Lemmas.StreamCost
/-!
The `Decoder` on any reader: the steps of a call, with the errors that come before more data.
-/
namespace JC
open Spec

/-- The errors that the reader still has before its last one. -/
def SDec.errsLeft (s : SDec) : Nat := s.reader.segs.length

theorem readFull_any (n : Nat) (r : Reader) :
    ((readFull n r).1 = [] ∧ (readFull n r).2.2 = r ∧ (readFull n r).2.1 = some r.last) ∨
    ((readFull n r).1.length = n ∧ (readFull n r).2.2.segs.length = r.segs.length) ∨
    (readFull n r).2.2.segs.length + 1 = r.segs.length := by
  unfold readFull
  split
  · left; exact ⟨rfl, rfl, rfl⟩
  · rename_i d e segs h
    right
    rw [h]
    split
    · left; simp; omega
    · right; simp

theorem refill_any {s : SDec} (hw : s.WF) : (∃ x, s.refill.err = some x ∧ s.refill.reader = s.reader) ∨
    (s.remain.length + (readFull s.room s.reader).1.length = s.refill.cap ∧ s.refill.errsLeft = s.errsLeft) ∨
    s.refill.errsLeft + 1 = s.errsLeft := by
  obtain ⟨h1, _, h3, h4, _, h6, _⟩ := refill_spec hw
  unfold SDec.errsLeft
  rw [h3]
  rcases readFull_any s.room s.reader with ⟨a, b, c⟩ | ⟨a, b⟩ | a
  · left
    rw [h6, a, b, c]
    simp only [ne_eq, not_true_eq_false, if_false]
    split
    · exact ⟨_, rfl, trivial⟩
    · exact ⟨_, rfl, trivial⟩
  · right; left
    refine ⟨?_, b⟩
    rw [(refill_cap hw).1, a]
  · right; right; exact a

/-- `K` steps for each of `M` bytes, four for each byte that is passed over, and `c`; `W` for each error that is
dropped. -/
def WithinE (W K c M : Nat) (s : SDec) (y : (RV × SDec) × Nat) : Prop :=
  y.2 + 4 * y.1.2.left + W * y.1.2.errsLeft ≤ K * M + 4 * s.left + c + W * s.errsLeft

theorem pending_errs {n : Nat} {s : SDec} {x : Err} (he : s.err = some x) : (readLoopW n s).1.2.errsLeft = s.errsLeft := by
  rw [readLoopW_fst]
  cases n with
  | zero => rfl
  | succ n =>
    unfold readLoop
    simp only [he]
    split
    · split
      · rfl
      · split <;> rfl
    · rfl

theorem ok_errs {n : Nat} {s : SDec} (hn : s.remain ≠ []) {v r : Bytes} (hp : parseValue s.remain = .ok v r) :
    (readLoopW (n + 1) s).1.2.errsLeft = s.errsLeft := by
  rw [readLoopW_fst]
  unfold readLoop
  simp only [hp]
  rw [if_pos hn]
  rfl

theorem cost_all : ∀ (n : Nat) (s : SDec), s.WF → ∀ M, Lim (readLoopW n s).1.1 s M →
    WithinE (160 * M + 40) 135 40 M s (readLoopW n s) ∧
    (s.remain ≠ [] → WithinE (160 * M + 40) 135 30 M s (readLoopW n s)) ∧
    (s.remain ≠ [] → s.remain.length = s.cap →
      (readLoopW n s).2 + 4 * (readLoopW n s).1.2.left + (160 * M + 40) * (readLoopW n s).1.2.errsLeft + 25 * min s.remain.length (2 * M)
        ≤ 110 * M + 4 * s.left + 30 + (160 * M + 40) * s.errsLeft) := by
  intro n
  induction n with
  | zero =>
    intro s hw M h
    have h : s.left ≤ M := h
    have hRl : s.remain.length ≤ s.left := by unfold SDec.left; omega
    unfold WithinE
    simp only [readLoopW]
    exact ⟨by omega, fun _ => by omega, fun _ _ => by omega⟩
  | succ n ih =>
    intro s hw M h
    have hRl : s.remain.length ≤ s.left := by unfold SDec.left; omega
    have hw' := (refill_spec hw).2.2.2.2.2.2
    cases he : s.err with
    | some x =>
      have h1 := cost_pending hw he h
      have h2 := pending_errs (n := n + 1) he
      unfold Within at h1
      unfold WithinE
      rw [h2]
      refine ⟨by omega, fun _ => by omega, fun hn _ => ?_⟩
      cases hp : parseValue s.remain with
      | ok v r =>
        obtain ⟨h1, h2⟩ := round_ok (n := n) hw hn hp
        rw [h1] at h
        have h : v.length ≤ M := h
        omega
      | fail r y =>
        by_cases hr : r = []
        · subst hr
          have hR := lim_more hw hn hp h
          omega
        · obtain ⟨l, h1, h2⟩ := round_bad (n := n) hn hp hr
          rw [h1] at h ⊢
          have h : s.left ≤ M := h
          simp only []; omega
    | none =>
      by_cases hn : s.remain = []
      · refine ⟨?_, fun h => absurd hn h, fun h => absurd hn h⟩
        obtain ⟨h1, _, h3, h4, _, h6, _⟩ := refill_spec hw
        obtain ⟨l, k, g1, g2, g3, g4⟩ := round_empty (n := n) hw he hn
        unfold WithinE
        rw [g1] at h ⊢
        rw [tick_fst] at h ⊢
        rw [tick_snd]
        have h' := h.mono (s' := s.refill) (by omega)
        obtain ⟨i1, i2, _⟩ := ih s.refill hw' M h'
        have hP : (160 * M + 40) * s.refill.errsLeft ≤ (160 * M + 40) * s.errsLeft := by
          apply Nat.mul_le_mul_left
          rcases refill_any hw with ⟨x, _, c⟩ | ⟨_, c⟩ | c
          · unfold SDec.errsLeft; rw [c]; omega
          · omega
          · omega
        unfold WithinE at i1 i2
        by_cases hn' : s.refill.remain = []
        · by_cases hq : (readFull s.room s.reader).1 = []
          · rw [hq, hn'] at g4
            simp only [List.length_nil] at g4
            obtain ⟨x, hx⟩ : ∃ x, s.refill.err = some x := by
              have := readFull_err h1 hq
              rw [h6, hq]
              simp only [ne_eq, not_true_eq_false, if_false]
              split
              · exact ⟨_, rfl⟩
              · exact Option.ne_none_iff_exists'.1 this
            have j1 := cost_pending hw' hx h'
            have j2 := pending_errs (n := n) hx
            unfold Within at j1
            rw [j2]
            omega
          · have := List.length_pos_iff.2 hq
            rw [hn'] at g4
            simp only [List.length_nil] at g4
            omega
        · have := i2 hn'
          omega
      · cases hp : parseValue s.remain with
        | ok v r =>
          obtain ⟨h1, h2⟩ := round_ok (n := n) hw hn hp
          have h3 := ok_errs (n := n) hn hp
          rw [h1] at h
          have h : v.length ≤ M := h
          unfold WithinE
          rw [h3]
          exact ⟨by omega, fun _ => by omega, fun _ _ => by omega⟩
        | fail r y =>
          by_cases hr : r = []
          · subst hr
            have hR := lim_more hw hn hp h
            obtain ⟨l, h1, h2, h3, h4⟩ := round_more (n := n) hw he hn hp
            unfold WithinE
            rw [h1] at h ⊢
            rw [tick_fst] at h ⊢
            rw [tick_snd]
            have h' := h.mono (s' := s.refill) (by omega)
            have hn' : s.refill.remain ≠ [] := by rw [h3]; simp [hn]
            obtain ⟨_, i2, i3⟩ := ih s.refill hw' M h'
            unfold WithinE at i2
            have i2 := i2 hn'
            rcases refill_any hw with ⟨x, hx, c⟩ | ⟨c1, c2⟩ | c
            · have j1 := cost_pending hw' hx h'
              have j2 := pending_errs (n := n) hx
              unfold Within at j1
              have c : s.refill.errsLeft = s.errsLeft := by unfold SDec.errsLeft; rw [c]
              rw [j2, c]
              exact ⟨by omega, fun _ => by omega, fun _ _ => by omega⟩
            · have i3 := i3 hn' (by rw [h3, List.length_append, c1])
              rw [c2] at i3
              refine ⟨by omega, fun _ => by omega, fun _ hc => ?_⟩
              have hm : s.mem ≠ none := by
                intro hm
                apply hn
                unfold SDec.remain
                rw [hm]; simp
              have hcap := (refill_cap hw).2 hm (by unfold minReadSize; omega)
              have hl : s.refill.remain.length = 2 * s.remain.length := by
                rw [h3, List.length_append, c1, hcap, hc]
              rw [hl] at i3
              omega
            · rw [← c, Nat.mul_add, Nat.mul_one]
              exact ⟨by omega, fun _ => by omega, fun _ _ => by omega⟩
          · obtain ⟨l, h1, h2⟩ := round_bad (n := n) hn hp hr
            rw [h1] at h
            have h : s.left ≤ M := h
            unfold WithinE
            rw [h1]
            simp only []
            exact ⟨by omega, fun _ => by omega, fun _ _ => by omega⟩

end JC

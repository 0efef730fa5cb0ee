import Verif.Lemmas.StreamWork
/-!
The `Decoder` on a reader that fails in the end only: the steps of a call.
-/
namespace JC
open Spec

/-- What bounds the parts that had to be parsed more than once: the value, or all there is. -/
def Lim (x : RV) (s : SDec) (M : Nat) : Prop :=
  match x with
  | .ok v => v.length ≤ M
  | .err _ => s.left ≤ M

/-- `K` steps for each of `M` bytes, four for each byte that is passed over, and `c`. -/
def Within (K c M : Nat) (s : SDec) (y : (RV × SDec) × Nat) : Prop := y.2 + 4 * y.1.2.left ≤ K * M + 4 * s.left + c

theorem parseValueW_fail {b r : Bytes} {e : Err} (h : parseValue b = .fail r e) : ∃ l, parseValueW b = (.fail r e, l) ∧ l ≤ 10 * b.length + 10 := by
  have hl := parseValueW_lin b
  have ef := parseValueW_fst b
  rw [h] at ef
  revert hl ef
  cases parseValueW b with
  | mk x l =>
    intro hl ef
    simp only [] at ef
    subst ef
    exact ⟨l, rfl, hl⟩

theorem parseValueW_ok {b v r : Bytes} (h : parseValue b = .ok v r) : ∃ l, parseValueW b = (.ok v r, l) ∧ l + 2 ≤ 10 * v.length := by
  have hl := parseValueW_lin b
  have ef := parseValueW_fst b
  rw [h] at ef
  obtain ⟨rfl, _⟩ := parseValue_sound h
  revert hl ef
  cases parseValueW (v ++ r) with
  | mk x l =>
    intro hl ef
    simp only [] at ef
    subst ef
    obtain ⟨_, h2, _⟩ := hl
    simp only [List.length_append] at h2
    exact ⟨l, rfl, by omega⟩

/-! one round -/

theorem round_ok {n : Nat} {s : SDec} (hw : s.WF) (hn : s.remain ≠ []) {v r : Bytes} (hp : parseValue s.remain = .ok v r) :
    (readLoopW (n + 1) s).1.1 = .ok v ∧ (readLoopW (n + 1) s).2 + 4 * (readLoopW (n + 1) s).1.2.left ≤ 10 * v.length + 4 * s.left := by
  obtain ⟨l, hl, hl2⟩ := parseValueW_ok hp
  unfold readLoopW
  simp only [hl]
  rw [if_pos hn]
  have hs := (parseValue_sound hp).1
  obtain ⟨_, hr⟩ := after_ok hw hs (o := s.offset + (v.length + (skipSpacesN r).2))
  refine ⟨rfl, ?_⟩
  have hk := skipSpacesW_snd r
  have e : ({ s with lo := s.len - (skipSpacesN r).1.length, offset := s.offset + (v.length + (skipSpacesN r).2) } : SDec).left
      = (skipSpaces r).length + s.reader.data.length := by
    unfold SDec.left
    rw [show (skipSpacesN r).1 = skipSpaces r from rfl, hr]
  have e2 : s.left = v.length + r.length + s.reader.data.length := by
    unfold SDec.left; rw [hs]; simp
  simp only []
  rw [e, e2]
  have := skipSpaces_length_le r
  omega

theorem round_bad {n : Nat} {s : SDec} (hn : s.remain ≠ []) {r : Bytes} {e : Err} (hp : parseValue s.remain = .fail r e) (hr : r ≠ []) :
    ∃ l, readLoopW (n + 1) s = ((.err e, s), l) ∧ l ≤ 10 * s.remain.length + 11 := by
  obtain ⟨l, hl, hl2⟩ := parseValueW_fail hp
  refine ⟨l + 1, ?_, by omega⟩
  unfold readLoopW
  simp only [hl]
  rw [if_pos hn, if_pos hr]

theorem round_pending {n : Nat} {s : SDec} {x : Err} (he : s.err = some x) (hp : s.remain = [] ∨ ∃ e, parseValue s.remain = .fail [] e) :
    ∃ l, readLoopW (n + 1) s = ((s.pending x, s), l) ∧ l ≤ 10 * s.remain.length + 11 := by
  by_cases hn : s.remain = []
  · refine ⟨1, ?_, by omega⟩
    unfold readLoopW
    simp only [he]
    rw [if_neg (by simp [hn])]
  · obtain ⟨e, hp⟩ : ∃ e, parseValue s.remain = .fail [] e := by
      rcases hp with hp | hp
      · exact absurd hp hn
      · exact hp
    obtain ⟨l, hl, hl2⟩ := parseValueW_fail hp
    refine ⟨1 + l, ?_, by omega⟩
    unfold readLoopW
    simp only [hl, he]
    rw [if_pos hn, if_neg (by simp)]
    rfl

theorem round_more {n : Nat} {s : SDec} (hw : s.WF) (he : s.err = none) (hn : s.remain ≠ []) {e : Err} (hp : parseValue s.remain = .fail [] e) :
    ∃ l, readLoopW (n + 1) s = tick l (readLoopW n s.refill) ∧ l ≤ 25 * s.remain.length ∧
      s.refill.remain = s.remain ++ (readFull s.room s.reader).1 ∧ s.refill.left = s.left := by
  obtain ⟨l, hl, hl2⟩ := parseValueW_fail hp
  obtain ⟨_, _, h3, h4, _⟩ := refill_spec hw
  have hns := parseValue_nonspace hp hn (readFull s.room s.reader).1
  rw [hns] at h4
  have hk := skipSpacesW_snd (s.remain ++ (readFull s.room s.reader).1)
  rw [hns] at hk
  have hf := refillW_snd hw
  have hpos := List.length_pos_iff.2 hn
  refine ⟨s.refillW.2 + 1 + l, ?_, by omega, h4, ?_⟩
  · conv => lhs; unfold readLoopW
    simp only [hl, he]
    rw [if_pos hn, if_neg (by simp), refillW_fst]
    simp only [tick, Nat.add_assoc]
  · unfold SDec.left
    rw [h4, h3, readFull_data s.room s.reader]
    simp only [List.length_append]
    omega

theorem round_empty {n : Nat} {s : SDec} (hw : s.WF) (he : s.err = none) (hn : s.remain = []) :
    ∃ l k, readLoopW (n + 1) s = tick l (readLoopW n s.refill) ∧ l ≤ k + 2 ∧ s.refill.left + k = s.left ∧
      k + s.refill.remain.length = (readFull s.room s.reader).1.length := by
  obtain ⟨_, _, h3, h4, _⟩ := refill_spec hw
  have hk := skipSpacesW_snd (s.remain ++ (readFull s.room s.reader).1)
  have hf := refillW_snd hw
  have hle := skipSpaces_length_le (s.remain ++ (readFull s.room s.reader).1)
  rw [← h4] at hk hle
  rw [hn] at hk hle hf
  simp only [List.nil_append, List.length_nil] at hk hle hf
  refine ⟨s.refillW.2 + 1, (readFull s.room s.reader).1.length - s.refill.remain.length, ?_, by omega, ?_, by omega⟩
  · conv => lhs; unfold readLoopW
    simp only [he]
    rw [if_neg (by simp [hn]), refillW_fst]
  · unfold SDec.left
    rw [h3, readFull_data s.room s.reader, hn]
    simp only [List.length_append, List.length_nil]
    omega

/-- What is parsed again is within the bound. -/
theorem lim_more {n : Nat} {s : SDec} (hw : s.WF) (hn : s.remain ≠ []) {e : Err} (hp : parseValue s.remain = .fail [] e) {M : Nat}
    (h : Lim (readLoopW n s).1.1 s M) : s.remain.length ≤ M := by
  rw [readLoopW_fst] at h
  cases hx : readLoop n s with
  | mk x s' =>
    rw [hx] at h
    cases x with
    | ok v =>
      have := readLoop_starts n s s' v e hw hn hp hx
      have h : v.length ≤ M := h
      omega
    | err e => have h : s.left ≤ M := h; unfold SDec.left at h; omega

theorem Lim.mono {x : RV} {s s' : SDec} {M : Nat} (h : Lim x s M) (hl : s'.left ≤ s.left) : Lim x s' M := by
  cases x with
  | ok v => exact h
  | err e => have h : s.left ≤ M := h; exact Nat.le_trans hl h

/-! an error is pending -/

theorem cost_pending {n : Nat} {s : SDec} (hw : s.WF) {x : Err} (he : s.err = some x) {M : Nat} (h : Lim (readLoopW n s).1.1 s M) :
    Within 10 11 M s (readLoopW n s) := by
  unfold Within
  cases n with
  | zero => simp [readLoopW]; omega
  | succ n =>
    have base : ∀ e l, readLoopW (n + 1) s = ((.err e, s), l) → l ≤ 10 * s.remain.length + 11 →
        (readLoopW (n + 1) s).2 + 4 * (readLoopW (n + 1) s).1.2.left ≤ 10 * M + 4 * s.left + 11 := by
      intro e l h1 h2
      rw [h1] at h ⊢
      have h : s.left ≤ M := h
      have : s.remain.length ≤ s.left := by unfold SDec.left; omega
      simp only []; omega
    by_cases hn : s.remain = []
    · obtain ⟨l, h1, h2⟩ := round_pending (n := n) he (.inl hn)
      exact base _ l h1 h2
    · cases hp : parseValue s.remain with
      | ok v r =>
        obtain ⟨h1, h2⟩ := round_ok (n := n) hw hn hp
        rw [h1] at h
        have h : v.length ≤ M := h
        omega
      | fail r e =>
        by_cases hr : r = []
        · subst hr
          obtain ⟨l, h1, h2⟩ := round_pending (n := n) he (.inr ⟨e, hp⟩)
          exact base _ l h1 h2
        · obtain ⟨l, h1, h2⟩ := round_bad (n := n) hn hp hr
          exact base e l h1 h2

/-! the reader has no more data -/

theorem refill_exhausted {e : Err} {s : SDec} (hw : s.WF) (hpl : PlainR e s.reader) (hd : s.reader.data = []) :
    ∃ x, s.refill.err = some x := by
  obtain ⟨h1, _, _, _, _, h6, _⟩ := refill_spec hw
  have hq : (readFull s.room s.reader).1 = [] := by
    have := readFull_data s.room s.reader
    rw [hd] at this
    exact (List.append_eq_nil_iff.1 this.symm).1
  rw [h6, if_neg (by simp [hq])]
  rw [((readFull_plain hpl h1).2.1 hq).1]
  split
  · exact ⟨_, rfl⟩
  · exact ⟨_, rfl⟩

theorem cost_exhausted {e : Err} {n : Nat} {s : SDec} (hw : s.WF) (hpl : PlainR e s.reader) (hd : s.reader.data = []) {M : Nat}
    (h : Lim (readLoopW n s).1.1 s M) : Within 35 14 M s (readLoopW n s) := by
  cases he : s.err with
  | some x => have := cost_pending hw he h; unfold Within at *; omega
  | none =>
    obtain ⟨x, hx⟩ := refill_exhausted hw hpl hd
    have hw' := (refill_spec hw).2.2.2.2.2.2
    unfold Within
    cases n with
    | zero => simp [readLoopW]; omega
    | succ n =>
      by_cases hn : s.remain = []
      · obtain ⟨l, k, h1, h2, h3, _⟩ := round_empty (n := n) hw he hn
        rw [h1] at h ⊢
        rw [tick_fst] at h ⊢
        rw [tick_snd]
        have := cost_pending hw' hx (h.mono (by omega))
        unfold Within at this
        omega
      · cases hp : parseValue s.remain with
        | ok v r =>
          obtain ⟨h1, h2⟩ := round_ok (n := n) hw hn hp
          rw [h1] at h
          have h : v.length ≤ M := h
          omega
        | fail r e =>
          by_cases hr : r = []
          · subst hr
            have hR := lim_more hw hn hp h
            obtain ⟨l, h1, h2, h3, h4⟩ := round_more (n := n) hw he hn hp
            rw [h1] at h ⊢
            rw [tick_fst] at h ⊢
            rw [tick_snd]
            have := cost_pending hw' hx (h.mono (by omega))
            unfold Within at this
            omega
          · obtain ⟨l, h1, h2⟩ := round_bad (n := n) hn hp hr
            rw [h1] at h ⊢
            have h : s.left ≤ M := h
            have : s.remain.length ≤ s.left := by unfold SDec.left; omega
            simp only []; omega

/-! the buffer is full -/

theorem refill_plain {e : Err} {s : SDec} (hw : s.WF) (hpl : PlainR e s.reader) : PlainR e s.refill.reader ∧
    (s.refill.reader.data = [] ∨ s.remain.length + (readFull s.room s.reader).1.length = s.refill.cap) := by
  obtain ⟨h1, _, h3, _⟩ := refill_spec hw
  refine ⟨by rw [h3]; exact (readFull_plain hpl h1).1, ?_⟩
  rcases readFull_fills hpl s.room with h | h
  · left; rw [h3]; exact h
  · right; rw [(refill_cap hw).1, h]

theorem cost_full {e : Err} : ∀ (n : Nat) (s : SDec), s.WF → PlainR e s.reader → s.remain ≠ [] → s.remain.length = s.cap →
    ∀ M, Lim (readLoopW n s).1.1 s M →
    (readLoopW n s).2 + 4 * (readLoopW n s).1.2.left + 25 * min s.remain.length (2 * M) ≤ 110 * M + 4 * s.left + 30 := by
  intro n
  induction n with
  | zero =>
    intro s hw hpl hn hc M h
    have h : s.left ≤ M := h
    simp [readLoopW]; omega
  | succ n ih =>
    intro s hw hpl hn hc M h
    have hRl : s.remain.length ≤ s.left := by unfold SDec.left; omega
    cases hp : parseValue s.remain with
    | ok v r =>
      obtain ⟨h1, h2⟩ := round_ok (n := n) hw hn hp
      rw [h1] at h
      have h : v.length ≤ M := h
      omega
    | fail r x =>
      by_cases hr : r = []
      · subst hr
        have hR := lim_more hw hn hp h
        cases he : s.err with
        | some y =>
          obtain ⟨l, h1, h2⟩ := round_pending (n := n) he (.inr ⟨x, hp⟩)
          rw [h1] at h ⊢
          have h : s.left ≤ M := h
          simp only []; omega
        | none =>
          have hw' := (refill_spec hw).2.2.2.2.2.2
          obtain ⟨p1, p2⟩ := refill_plain hw hpl
          obtain ⟨l, h1, h2, h3, h4⟩ := round_more (n := n) hw he hn hp
          rw [h1] at h ⊢
          rw [tick_fst] at h ⊢
          rw [tick_snd]
          rcases p2 with p2 | p2
          · have := cost_exhausted hw' p1 p2 (h.mono (by omega))
            unfold Within at this
            omega
          · have hm : s.mem ≠ none := by
              intro hm
              apply hn
              unfold SDec.remain
              rw [hm]; simp
            have hcap := (refill_cap hw).2 hm (by unfold minReadSize; omega)
            have hl : s.refill.remain.length = 2 * s.remain.length := by
              rw [h3, List.length_append, p2, hcap, hc]
            have hn' : s.refill.remain ≠ [] := by rw [h3]; simp [hn]
            have := ih s.refill hw' p1 hn' (by rw [hl, hcap, hc]) M (h.mono (by omega))
            rw [hl] at this
            omega
      · obtain ⟨l, h1, h2⟩ := round_bad (n := n) hn hp hr
        rw [h1] at h ⊢
        have h : s.left ≤ M := h
        simp only []; omega

/-! any state -/

theorem cost_some {e : Err} (n : Nat) (s : SDec) (hw : s.WF) (hpl : PlainR e s.reader) (hn : s.remain ≠ []) {M : Nat}
    (h : Lim (readLoopW n s).1.1 s M) : Within 135 30 M s (readLoopW n s) := by
  cases he : s.err with
  | some x => have := cost_pending hw he h; unfold Within at *; omega
  | none =>
    unfold Within
    cases n with
    | zero => simp [readLoopW]; omega
    | succ n =>
      cases hp : parseValue s.remain with
      | ok v r =>
        obtain ⟨h1, h2⟩ := round_ok (n := n) hw hn hp
        rw [h1] at h
        have h : v.length ≤ M := h
        omega
      | fail r x =>
        by_cases hr : r = []
        · subst hr
          have hR := lim_more hw hn hp h
          have hw' := (refill_spec hw).2.2.2.2.2.2
          obtain ⟨p1, p2⟩ := refill_plain hw hpl
          obtain ⟨l, h1, h2, h3, h4⟩ := round_more (n := n) hw he hn hp
          rw [h1] at h ⊢
          rw [tick_fst] at h ⊢
          rw [tick_snd]
          rcases p2 with p2 | p2
          · have := cost_exhausted hw' p1 p2 (h.mono (by omega))
            unfold Within at this
            omega
          · have hn' : s.refill.remain ≠ [] := by rw [h3]; simp [hn]
            have := cost_full n s.refill hw' p1 hn' (by rw [h3, List.length_append, p2]) M (h.mono (by omega))
            omega
        · obtain ⟨l, h1, h2⟩ := round_bad (n := n) hn hp hr
          rw [h1] at h ⊢
          have h : s.left ≤ M := h
          have hRl : s.remain.length ≤ s.left := by unfold SDec.left; omega
          simp only []; omega

theorem cost_any {e : Err} : ∀ (n : Nat) (s : SDec), s.WF → PlainR e s.reader → ∀ M, Lim (readLoopW n s).1.1 s M →
    Within 135 40 M s (readLoopW n s) := by
  intro n
  induction n with
  | zero => intro s hw hpl M h; unfold Within; simp [readLoopW]; omega
  | succ n ih =>
    intro s hw hpl M h
    by_cases hn : s.remain = []
    · cases he : s.err with
      | some x => have := cost_pending hw he h; unfold Within at *; omega
      | none =>
        have hw' := (refill_spec hw).2.2.2.2.2.2
        obtain ⟨h1, _, h3, h4, _, h6, _⟩ := refill_spec hw
        obtain ⟨p1, _⟩ := refill_plain hw hpl
        obtain ⟨l, k, g1, g2, g3, g4⟩ := round_empty (n := n) hw he hn
        unfold Within
        rw [g1] at h ⊢
        rw [tick_fst] at h ⊢
        rw [tick_snd]
        have h' := h.mono (s' := s.refill) (by omega)
        by_cases hn' : s.refill.remain = []
        · by_cases hq : (readFull s.room s.reader).1 = []
          · have hdata : s.reader.data = [] := ((readFull_plain hpl h1).2.1 hq).2
            obtain ⟨x, hx⟩ := refill_exhausted hw hpl hdata
            have := cost_pending hw' hx h'
            unfold Within at this
            omega
          · have := List.length_pos_iff.2 hq
            rw [hn'] at g4
            simp only [List.length_nil] at g4
            have := ih s.refill hw' p1 M h'
            unfold Within at this
            omega
        · have := cost_some n s.refill hw' p1 hn' h'
          unfold Within at this
          omega
    · have := cost_some (n + 1) s hw hpl hn h
      unfold Within at *
      omega

theorem readValue_plain {e : Err} (s : SDec) (hw : s.WF) (hpl : PlainR e s.reader) : PlainR e s.readValue.2.reader := by
  refine readValue_ind (P := fun s x => PlainR e s.reader → PlainR e x.2.reader) ?_ ?_ ?_ ?_ s hw hpl
  · intro s v r h hn hp hpl
    rw [readValue_ok hn hp]; exact hpl
  · intro s r e h _ _ _ hpl; exact hpl
  · intro s e h _ _ hpl; exact hpl
  · intro s x h _ _ hx hpl; exact hx (refill_plain h hpl).1

end JC

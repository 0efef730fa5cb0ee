import Verif.Model.Stream
import Verif.Lemmas.Cut
/-! The state machine of the `Decoder`, without its buffer and fuel. -/
namespace JC
open Spec

/-- What holds of the buffer at all times. -/
structure SDec.WF (s : SDec) : Prop where
  none : s.mem = .none → s.len = 0
  some : ∀ m, s.mem = .some m → s.len ≤ m.length ∧ minBufferSize ≤ m.length
  lo : s.lo ≤ s.len

theorem newDecoder_wf (r : Reader) : (newDecoder r).WF := ⟨fun _ => rfl, fun m h => by simp [newDecoder] at h, Nat.le_refl _⟩

theorem SDec.WF.remain_length {s : SDec} (h : s.WF) : s.remain.length = s.len - s.lo := by
  unfold SDec.remain
  rw [List.length_drop, List.length_take]
  cases hm : s.mem with
  | none => simp [h.none hm]
  | some m => simp; have := (h.some m hm).1; omega

theorem readFull_data (n : Nat) (r : Reader) : r.data = (readFull n r).1 ++ (readFull n r).2.2.data := by
  unfold readFull Reader.data
  split
  · rename_i h; simp [h]
  · rename_i d e segs h
    rw [h]
    split
    · simp [← List.append_assoc, List.take_append_drop]
    · simp

theorem readFull_length {n : Nat} {r : Reader} : (readFull n r).1.length ≤ n := by
  unfold readFull
  split
  · simp
  · split
    · simp; omega
    · simp; omega

theorem readFull_err {n : Nat} (hn : 0 < n) {r : Reader} (h : (readFull n r).1 = []) : (readFull n r).2.1 ≠ none := by
  unfold readFull at *
  split
  · simp
  · rename_i d e segs hs
    rw [hs] at h
    simp only [] at h
    split
    · rename_i hd
      rw [if_pos hd] at h
      simp at h
      rcases h with h | h
      · omega
      · subst h; simp at hd; omega
    · simp

theorem skipSpacesN_snd (b : Bytes) : (skipSpacesN b).2 = if skipSpaces b = [] then 0 else b.length - (skipSpaces b).length := by
  induction b with
  | nil => rfl
  | cons c t ih =>
    unfold skipSpaces at *
    simp only [skipSpacesN]
    split
    · cases h : skipSpacesN t with
      | mk r n =>
        rw [h] at ih
        cases r with
        | nil => simp
        | cons d u =>
          have := skipSpaces_length_le t
          rw [skipSpaces, h] at this
          simp only [List.length_cons] at *
          simp at ih
          simp; omega
    · simp

/-- Room that the reader is asked to fill. -/
def SDec.room (s : SDec) : Nat := (growBuf s.front.1 s.front.2).length - s.front.2

theorem front_spec {s : SDec} (h : s.WF) : s.front.1.take s.front.2 = s.remain ∧ s.front.2 = s.remain.length ∧
    s.front.2 ≤ s.front.1.length ∧ minBufferSize ≤ s.front.1.length := by
  unfold SDec.front
  cases hm : s.mem with
  | none =>
    have : s.remain = [] := by
      unfold SDec.remain; rw [hm]; simp
    simp [this]
  | some m =>
    have h1 := h.some m hm
    have h2 := h.remain_length
    refine ⟨?_, rfl, ?_, ?_⟩
    · simp
    · simp
    · simp; omega

theorem growBuf_spec {m : Bytes} {len : Nat} (h : len ≤ m.length) (hm : minBufferSize ≤ m.length) :
    (growBuf m len).take len = m.take len ∧ len < (growBuf m len).length ∧ minBufferSize ≤ (growBuf m len).length := by
  unfold growBuf minBufferSize minReadSize at *
  split
  · refine ⟨?_, ?_, ?_⟩
    · rw [List.take_append_of_le_length (by simp; omega), List.take_take]; simp
    · simp; omega
    · simp; omega
  · exact ⟨rfl, by omega, hm⟩

theorem refill_eq (s : SDec) : s.refill =
    let q := readFull s.room s.reader
    let g := growBuf s.front.1 s.front.2
    let m := g.take s.front.2 ++ q.1 ++ g.drop (s.front.2 + q.1.length)
    let x := skipSpacesN (m.take (s.front.2 + q.1.length))
    ⟨q.2.2, some m, s.front.2 + q.1.length, s.front.2 + q.1.length - x.1.length, s.offset + x.2,
      if q.1 ≠ [] then none else if q.2.1 = some .unexpectedEOF then some .eof else q.2.1⟩ := rfl

theorem refill_spec {s : SDec} (h : s.WF) :
    0 < s.room ∧ (s.mem = none → s.room = minBufferSize) ∧
    s.refill.reader = (readFull s.room s.reader).2.2 ∧
    s.refill.remain = skipSpaces (s.remain ++ (readFull s.room s.reader).1) ∧
    s.refill.offset = s.offset + (skipSpacesN (s.remain ++ (readFull s.room s.reader).1)).2 ∧
    s.refill.err = (if (readFull s.room s.reader).1 ≠ [] then none
      else if (readFull s.room s.reader).2.1 = some .unexpectedEOF then some .eof else (readFull s.room s.reader).2.1) ∧
    s.refill.WF := by
  obtain ⟨f1, f2, f3, f4⟩ := front_spec h
  obtain ⟨g1, g2, g3⟩ := growBuf_spec f3 f4
  have hl : (readFull s.room s.reader).1.length ≤ s.room := readFull_length
  have hroom : s.room = (growBuf s.front.1 s.front.2).length - s.front.2 := rfl
  rw [refill_eq]
  generalize readFull s.room s.reader = q at hl ⊢
  generalize hG : growBuf s.front.1 s.front.2 = g at *
  simp only []
  have htake : g.take s.front.2 = s.remain := by rw [g1, f1]
  have hlen : (g.take s.front.2 ++ q.1 ++ g.drop (s.front.2 + q.1.length)).length = g.length := by
    simp; omega
  have hpre : (g.take s.front.2 ++ q.1 ++ g.drop (s.front.2 + q.1.length)).take (s.front.2 + q.1.length) = s.remain ++ q.1 := by
    rw [htake, List.take_append_of_le_length (by simp; omega), List.take_of_length_le (by simp; omega)]
  rw [hpre]
  refine ⟨by omega, ?_, trivial, ?_, rfl, trivial, ?_⟩
  · intro hm
    rw [hroom, ← hG]
    unfold SDec.front
    rw [hm]
    have : ¬ minBufferSize < minReadSize := by decide
    simp only [growBuf, List.length_replicate, Nat.sub_zero]
    rw [if_neg this, List.length_replicate]
  · unfold SDec.remain
    simp only [Option.getD_some]
    rw [hpre]
    change List.drop (s.front.2 + q.1.length - (skipSpacesN (s.remain ++ q.1)).1.length) _ = skipSpaces (s.remain ++ q.1)
    have e : (skipSpacesN (s.remain ++ q.1)).1 = skipSpaces (s.remain ++ q.1) := rfl
    rw [e]
    have := wsPrefix_append (s.remain ++ q.1)
    have hl2 := congrArg List.length this
    simp only [List.length_append] at hl2
    conv => lhs; arg 2; rw [← this]
    rw [show s.front.2 + q.1.length - (skipSpaces (s.remain ++ q.1)).length = (wsPrefix (s.remain ++ q.1)).length from by omega]
    exact List.drop_left
  · refine ⟨fun h => by simp at h, fun m hm => ?_, by simp⟩
    injection hm with hm
    subst hm
    rw [hlen]
    exact ⟨by simp; omega, g3⟩

/-- Rounds of the loop that may be needed. -/
def SDec.need (s : SDec) : Nat := if s.err = none then s.reader.data.length + 2 else 1

theorem need_refill {s : SDec} (h : s.WF) (he : s.err = none) : s.refill.need < s.need := by
  obtain ⟨h1, _, h3, _, _, h6, _⟩ := refill_spec h
  have hd := readFull_data s.room s.reader
  unfold SDec.need
  rw [if_pos he, h3, h6]
  by_cases hq : (readFull s.room s.reader).1 = []
  · have := readFull_err h1 hq
    have h7 : s.refill.err ≠ none := by
      rw [h6, if_neg (by simpa using hq)]
      split
      · simp
      · exact this
    rw [← h6, if_neg h7]
    omega
  · rw [if_pos hq, if_pos rfl, hd]
    have := List.length_pos_iff.2 hq
    simp
    omega

/-- The loop as it is meant: no fuel. -/
theorem readLoop_fuel : ∀ (n m : Nat) (s : SDec), s.WF → s.need ≤ n → s.need ≤ m → readLoop n s = readLoop m s := by
  intro n
  induction n with
  | zero => intro m s _ h; unfold SDec.need at h; split at h <;> omega
  | succ n ih =>
    intro m s h hn hm
    cases m with
    | zero => unfold SDec.need at hm; split at hm <;> omega
    | succ m =>
      unfold readLoop
      simp only []
      cases he : s.err with
      | some e => rfl
      | none =>
        have := need_refill h he
        simp only []
        rw [ih m _ (refill_spec h).2.2.2.2.2.2 (by omega) (by omega)]

/-- one round of the loop, without fuel -/
theorem readValue_step {s : SDec} (h : s.WF) (he : s.err = none) (hp : s.remain = [] ∨ ∃ e, parseValue s.remain = .fail [] e) :
    s.readValue = s.refill.readValue := by
  have hn := need_refill h he
  have hw := (refill_spec h).2.2.2.2.2.2
  have e1 : s.readValue = readLoop (s.need + 1) s := readLoop_fuel _ _ _ h (by unfold SDec.need; split <;> omega) (by omega)
  have e2 : s.refill.readValue = readLoop s.need s.refill :=
    readLoop_fuel _ _ _ hw (by unfold SDec.need; split <;> omega) (by omega)
  rw [e1, e2]
  conv => lhs; unfold readLoop
  simp only [he]
  rcases hp with hp | ⟨e, hp⟩
  · rw [if_neg (by simp [hp])]
  · split
    · rw [hp]; simp
    · rfl

theorem readValue_pending {s : SDec} {e : Err} (he : s.err = some e) (hp : s.remain = [] ∨ ∃ e, parseValue s.remain = .fail [] e) :
    s.readValue = (s.pending e, s) := by
  unfold SDec.readValue readLoop
  simp only [he]
  rcases hp with hp | ⟨e', hp⟩
  · rw [if_neg (by simp [hp])]
  · split
    · rw [hp]; simp
    · rfl

theorem readValue_ok {s : SDec} {v r : Bytes} (hn : s.remain ≠ []) (hp : parseValue s.remain = .ok v r) :
    s.readValue = (.ok v, { s with lo := s.len - (skipSpaces r).length, offset := s.offset + (v.length + (skipSpacesN r).2) }) := by
  unfold SDec.readValue readLoop
  simp only []
  rw [if_pos hn, hp]
  rfl

theorem readValue_fail {s : SDec} {r : Bytes} {e : Err} (hn : s.remain ≠ []) (hp : parseValue s.remain = .fail r e) (hr : r ≠ []) :
    s.readValue = (.err e, s) := by
  unfold SDec.readValue readLoop
  simp only []
  rw [if_pos hn, hp]
  simp [hr]

/-- the decoder after a value -/
theorem after_ok {s : SDec} (h : s.WF) {v r : Bytes} (e : s.remain = v ++ r) {o : Nat} :
    ({ s with lo := s.len - (skipSpaces r).length, offset := o } : SDec).WF ∧
    ({ s with lo := s.len - (skipSpaces r).length, offset := o } : SDec).remain = skipSpaces r := by
  refine ⟨⟨h.none, h.some, by simp⟩, ?_⟩
  have hl := h.remain_length
  unfold SDec.remain at *
  simp only []
  generalize hx : (s.mem.getD []).take s.len = x at *
  have hxl : x.length = s.len := by
    rw [← hx, List.length_take]
    cases hm : s.mem with
    | none => simp [h.none hm]
    | some m => simp [(h.some m hm).1]
  have h2 := wsPrefix_append r
  have hlo := h.lo
  have hx2 : x = x.take s.lo ++ v ++ wsPrefix r ++ skipSpaces r := by
    rw [List.append_assoc, h2, List.append_assoc, ← e, List.take_append_drop]
  have hl3 := congrArg List.length hx2
  simp only [List.length_append] at hl3
  conv => lhs; rw [hx2]
  rw [List.drop_append_of_le_length (by simp only [List.length_append]; omega)]
  rw [show s.len - (skipSpaces r).length = (x.take s.lo ++ v ++ wsPrefix r).length from by simp only [List.length_append]; omega]
  simp

/-- Induction over the rounds of one call. -/
theorem readValue_ind {P : SDec → RV × SDec → Prop}
    (ok : ∀ s v r, s.WF → s.remain ≠ [] → parseValue s.remain = .ok v r → P s s.readValue)
    (fail : ∀ s r e, s.WF → s.remain ≠ [] → parseValue s.remain = .fail r e → r ≠ [] → P s (.err e, s))
    (pend : ∀ s e, s.WF → s.err = some e → (s.remain = [] ∨ ∃ e, parseValue s.remain = .fail [] e) → P s (s.pending e, s))
    (more : ∀ s x, s.WF → s.err = none → (s.remain = [] ∨ ∃ e, parseValue s.remain = .fail [] e) → P s.refill x → P s x) :
    ∀ s : SDec, s.WF → P s s.readValue := by
  intro s
  induction hk : s.need using Nat.strongRecOn generalizing s with
  | _ k ih =>
    subst hk
    intro h
    have other : (s.remain = [] ∨ ∃ e, parseValue s.remain = .fail [] e) → P s s.readValue := by
      intro hp
      cases he : s.err with
      | some e => rw [readValue_pending he hp]; exact pend _ _ h he hp
      | none =>
        rw [readValue_step h he hp]
        exact more _ _ h he hp (ih _ (need_refill h he) _ rfl (refill_spec h).2.2.2.2.2.2)
    by_cases hn : s.remain = []
    · exact other (.inl hn)
    · cases hp : parseValue s.remain with
      | ok v r => exact ok _ _ _ h hn hp
      | fail r e =>
        by_cases hr : r = []
        · subst hr; exact other (.inr ⟨_, hp⟩)
        · rw [readValue_fail hn hp hr]; exact fail _ _ _ h hn hp hr

theorem pending_ne (s : SDec) (e : Err) (v : Bytes) : s.pending e ≠ .ok v := by simp [SDec.pending]

theorem readValue_wf {s : SDec} (h : s.WF) : s.readValue.2.WF := by
  refine readValue_ind (P := fun _ x => x.2.WF) ?_ ?_ ?_ ?_ s h
  · intro s v r h hn hp
    rw [readValue_ok hn hp]
    exact (after_ok h (parseValue_sound hp).1).1
  · intro s r e h _ _ _; exact h
  · intro s e h _ _; exact h
  · intro s x _ _ _ h; exact h

theorem calls_wf : ∀ (n : Nat) {s : SDec}, s.WF → (s.calls n).2.WF
  | 0, _, h => h
  | n + 1, _, h => calls_wf n (readValue_wf h)

end JC

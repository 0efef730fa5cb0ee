import Verif.Spec.Pieces
import Verif.Lemmas.Stream
/-!
The `Decoder` on pieces is the `Decoder` on the data put together.
-/
namespace JC
open Spec

/-- The loop of `io.ReadAtLeast`. -/
theorem fill_read {n : Nat} (s : Source) (hn : 0 < n) : fill s.last n s.pieces =
    match s.read n with
    | none => none
    | some (d, e, s') =>
      if n ≤ d.length then some (d, none, s'.pieces)
      else match e with
        | some e => some (d, some e, s'.pieces)
        | none => (fill s.last (n - d.length) s'.pieces).map fun r => (d ++ r.1, r.2.1, r.2.2) := by
  obtain ⟨ps, last⟩ := s
  cases ps with
  | nil =>
    simp only [fill, Source.read]
    cases last with
    | none => rfl
    | some e => simp only [Option.map_some, List.length_nil]; rw [if_neg (by omega)]
  | cons p ps =>
    simp only [fill, Source.read]
    by_cases h1 : n < p.data.length
    · rw [if_pos h1, if_neg (by omega)]
      simp only [List.length_take]
      rw [if_pos (by omega)]
    · have h3 : p.data.length ≤ n := by omega
      simp only [if_neg h1, if_pos h3]
      by_cases h2 : n = p.data.length
      · rw [if_pos h2, if_pos (by omega)]
      · rw [if_neg h2, if_neg (by omega)]
        cases p.err <;> rfl

/-- The reader of `Model/Stream.lean` for what is left of a source. -/
def SameData (e : Err) (s : Source) (r : Reader) : Prop :=
  s.last = some e ∧ PlainPieces e s.pieces ∧ r.last = e ∧ (r.segs = [(s.data, e)] ∨ r.segs = [] ∧ s.data = [])

theorem data_cons (p : Piece) (ps : List Piece) (l : Option Err) : (⟨p :: ps, l⟩ : Source).data = p.data ++ (⟨ps, l⟩ : Source).data := by
  simp [Source.data]

theorem fill_plain (e : Err) : ∀ (ps : List Piece) (n : Nat), 0 < n → PlainPieces e ps →
    ∃ ps', PlainPieces e ps' ∧ (if n ≤ (ps.flatMap (·.data)).length then
        fill (some e) n ps = some ((ps.flatMap (·.data)).take n, none, ps') ∧ ps'.flatMap (·.data) = (ps.flatMap (·.data)).drop n
      else fill (some e) n ps = some (ps.flatMap (·.data), some e, ps') ∧ ps'.flatMap (·.data) = [])
  | [], n, hn, _ => ⟨[], trivial, by rw [if_neg (by simp; omega)]; exact ⟨rfl, rfl⟩⟩
  | p :: ps, n, hn, h => by
    simp only [fill, List.flatMap_cons, List.length_append]
    by_cases h1 : n < p.data.length
    · refine ⟨⟨p.data.drop n, p.err⟩ :: ps, h, ?_⟩
      rw [if_pos (by omega), if_pos h1, List.take_append_of_le_length (by omega), List.drop_append_of_le_length (by omega)]
      exact ⟨rfl, by simp⟩
    · rw [if_neg h1]
      by_cases h2 : n = p.data.length
      · refine ⟨ps, h.2, ?_⟩
        rw [if_pos (by omega), if_pos h2, h2, List.take_left, List.drop_left]
        exact ⟨rfl, rfl⟩
      · rw [if_neg h2]
        rcases h.1 with h3 | ⟨h3, h4⟩
        · obtain ⟨ps', h4, h5⟩ := fill_plain e ps (n - p.data.length) (by omega) h.2
          refine ⟨ps', h4, ?_⟩
          rw [h3]
          simp only []
          split at h5
          · rw [if_pos (by omega), h5.1, h5.2]
            simp only [Option.map_some]
            rw [List.take_append, List.drop_append, List.take_of_length_le (l := p.data) (i := n) (by omega), List.drop_of_length_le (l := p.data) (i := n) (by omega)]
            exact ⟨rfl, rfl⟩
          · rw [if_neg (by omega), h5.1]
            exact ⟨rfl, h5.2⟩
        · subst h3
          refine ⟨[], trivial, ?_⟩
          rw [h4, if_neg (by simp; omega)]
          simp

theorem readFull_same {e : Err} {s : Source} {r : Reader} (h : SameData e s r) {n : Nat} (hn : 0 < n) :
    ∃ s', s.readFull n = some ((readFull n r).1, (readFull n r).2.1, s') ∧ SameData e s' (readFull n r).2.2 := by
  obtain ⟨ps, last⟩ := s
  obtain ⟨h1, h2, h3, h4⟩ := h
  simp only at h1 h2
  subst h1
  obtain ⟨ps', h5, h6⟩ := fill_plain e ps n hn h2
  obtain ⟨segs, l⟩ := r
  simp only at h3 h4
  subst h3
  simp only [Source.readFull]
  simp only [Source.data] at h4
  generalize hd : ps.flatMap (·.data) = d at h4 h6
  split at h6
  · rename_i hl
    rw [h6.1]
    simp only [Option.map_some, Option.map_none]
    refine ⟨⟨ps', some l⟩, ?_, rfl, h5, ?_, ?_⟩
    · rcases h4 with rfl | ⟨rfl, rfl⟩
      · simp [readFull, hl]
      · simp at hl; omega
    · rcases h4 with rfl | ⟨rfl, rfl⟩
      · simp [readFull, hl]
      · rfl
    · rcases h4 with rfl | ⟨rfl, rfl⟩
      · left
        simp only [readFull, hl, if_true, Source.data, h6.2]
      · simp at hl; omega
  · rename_i hl
    rw [h6.1]
    simp only [Option.map_some]
    refine ⟨⟨ps', some l⟩, ?_, rfl, h5, ?_, ?_⟩
    · rcases h4 with rfl | ⟨rfl, rfl⟩
      · simp [readFull, hl]
      · simp [readFull]
    · rcases h4 with rfl | ⟨rfl, rfl⟩
      · simp [readFull, hl]
      · rfl
    · right
      rcases h4 with rfl | ⟨rfl, rfl⟩
      · simp [readFull, hl, Source.data, h6.2]
      · simp [readFull, Source.data, h6.2]

/-- The same decoder, apart from how its data comes. -/
structure SameDec (e : Err) (p : PieceDec) (s : SDec) : Prop where
  src : SameData e p.src s.reader
  mem : p.mem = s.mem
  len : p.len = s.len
  lo : p.lo = s.lo
  offset : p.offset = s.offset
  err : p.err = s.err

theorem SameDec.remain {e : Err} {p : PieceDec} {s : SDec} (h : SameDec e p s) : p.remain = s.remain := by
  simp [PieceDec.remain, SDec.remain, h.mem, h.len, h.lo]

theorem SameDec.front {e : Err} {p : PieceDec} {s : SDec} (h : SameDec e p s) : p.front = s.front := by
  simp only [PieceDec.front, SDec.front, h.mem, h.remain]
  cases s.mem <;> rfl

theorem SameData.data {e : Err} {s : Source} {r : Reader} (h : SameData e s r) : r.data = s.data := by
  rcases h.2.2.2 with h | ⟨h, h'⟩
  · simp [Reader.data, h]
  · simp [Reader.data, h, h']

theorem refill_same {e : Err} {p : PieceDec} {s : SDec} (h : SameDec e p s) (hw : s.WF) :
    ∃ p', p.refill = some p' ∧ SameDec e p' s.refill := by
  have hroom := (refill_spec hw).1
  unfold SDec.room at hroom
  obtain ⟨s', h1, h2⟩ := readFull_same h.src (n := (growBuf s.front.1 s.front.2).length - s.front.2) hroom
  refine ⟨⟨s', s.refill.mem, s.refill.len, s.refill.lo, s.refill.offset, s.refill.err⟩, ?_, ⟨h2, rfl, rfl, rfl, rfl, rfl⟩⟩
  simp only [PieceDec.refill, h.front]
  rw [h1]
  simp only [Option.map_some, h.offset]
  rfl

theorem readLoop_same {e : Err} : ∀ (n : Nat) (p : PieceDec) (s : SDec), SameDec e p s → s.WF →
    ∃ p', readLoopP n p = some ((readLoop n s).1, p') ∧ SameDec e p' (readLoop n s).2
  | 0, p, s, h, _ => ⟨p, rfl, h⟩
  | n + 1, p, s, h, hw => by
    obtain ⟨p1, h1, h2⟩ := refill_same h hw
    obtain ⟨p2, h3, h4⟩ := readLoop_same n p1 s.refill h2 (refill_spec hw).2.2.2.2.2.2
    have more : ∃ p', (match p.err with
        | some e => some (.err (if s.remain ≠ [] ∧ e = .eof then .unexpectedEOF else e), p)
        | none => p.refill.bind (readLoopP n) : Option (RV × PieceDec)) = some ((match s.err with
        | some e => (s.pending e, s)
        | none => readLoop n s.refill : RV × SDec).1, p') ∧ SameDec e p' (match s.err with
        | some e => (s.pending e, s)
        | none => readLoop n s.refill : RV × SDec).2 := by
      rw [h.err]
      cases s.err with
      | some x => exact ⟨p, by simp only [SDec.pending], h⟩
      | none => exact ⟨p2, by simp only [h1, Option.bind_some, h3], h4⟩
    simp only [readLoopP, readLoop]
    rw [h.remain]
    by_cases hr : s.remain ≠ []
    · rw [if_pos hr, if_pos hr]
      cases hp : parseValue s.remain with
      | ok v r =>
        simp only []
        refine ⟨_, rfl, ⟨h.src, h.mem, h.len, by simp only [h.len], by simp only [h.offset], h.err⟩⟩
      | fail r x =>
        simp only []
        by_cases hr' : r ≠ []
        · rw [if_pos hr', if_pos hr']; exact ⟨p, rfl, h⟩
        · rw [if_neg hr', if_neg hr']
          exact more
    · rw [if_neg hr, if_neg hr]
      exact more

theorem readValue_same {e : Err} {p : PieceDec} {s : SDec} (h : SameDec e p s) (hw : s.WF) :
    ∃ p', p.readValue = some (s.readValue.1, p') ∧ SameDec e p' s.readValue.2 := by
  unfold PieceDec.readValue SDec.readValue
  rw [h.src.data]
  exact readLoop_same _ p s h hw

theorem fill_length (l : Option Err) : ∀ (ps : List Piece) (n : Nat) {x : Bytes × Option Err × List Piece}, fill l n ps = some x → x.1.length ≤ n
  | [], n, x, h => by
    simp only [fill, Option.map_eq_some_iff] at h
    obtain ⟨e, _, rfl⟩ := h
    simp
  | p :: ps, n, x, h => by
    simp only [fill] at h
    split at h
    · cases h; simp [List.length_take]; omega
    · split at h
      · cases h; simp only []; omega
      · split at h
        · cases h; simp only []; omega
        · simp only [Option.map_eq_some_iff] at h
          obtain ⟨r, hr, rfl⟩ := h
          have := fill_length l ps _ hr
          simp only [List.length_append]; omega

/-- On an open connection `io.ReadFull` waits for all it asks for. -/
theorem fill_open : ∀ (ps : List Piece) (n : Nat), 0 < n → (∀ p ∈ ps, p.err = none) →
    if n ≤ (ps.flatMap (·.data)).length then ∃ ps', fill none n ps = some ((ps.flatMap (·.data)).take n, none, ps') ∧
      ps'.flatMap (·.data) = (ps.flatMap (·.data)).drop n ∧ ∀ p ∈ ps', p.err = none
    else fill none n ps = none
  | [], n, hn, _ => by rw [if_neg (by simp; omega)]; rfl
  | p :: ps, n, hn, h => by
    simp only [fill, List.flatMap_cons, List.length_append]
    by_cases h1 : n < p.data.length
    · rw [if_pos (by omega)]
      refine ⟨⟨p.data.drop n, p.err⟩ :: ps, ?_, ?_, ?_⟩
      · rw [if_pos h1, List.take_append_of_le_length (by omega)]
      · rw [List.drop_append_of_le_length (by omega)]; simp
      · intro q hq
        rcases List.mem_cons.1 hq with rfl | hq
        · exact h p (by simp)
        · exact h q (by simp [hq])
    · rw [if_neg h1]
      by_cases h2 : n = p.data.length
      · rw [if_pos (by omega)]
        refine ⟨ps, ?_, ?_, fun q hq => h q (by simp [hq])⟩
        · rw [if_pos h2, h2, List.take_left]
        · rw [h2, List.drop_left]
      · rw [if_neg h2, h p (by simp)]
        simp only []
        have ih := fill_open ps (n - p.data.length) (by omega) fun q hq => h q (by simp [hq])
        split at ih
        · rw [if_pos (by omega)]
          obtain ⟨ps', h4, h5, h6⟩ := ih
          refine ⟨ps', ?_, ?_, h6⟩
          · rw [h4, List.take_append, List.take_of_length_le (l := p.data) (i := n) (by omega)]; rfl
          · rw [h5, List.drop_append, List.drop_of_length_le (l := p.data) (i := n) (by omega)]; rfl
        · rw [if_neg (by omega), ih]; rfl

theorem fill_ends (e : Err) : ∀ (ps : List Piece) (n : Nat), fill (some e) n ps ≠ none
  | [], n => by simp [fill]
  | p :: ps, n => by
    simp only [fill]
    split
    · simp
    · split
      · simp
      · split
        · simp
        · simpa using fill_ends e ps _

/-- The buffer is missing or has its minimal size. -/
def PieceDec.Sized (s : PieceDec) : Prop := ∀ m, s.mem = some m → minBufferSize ≤ m.length

theorem pfront_length {s : PieceDec} (h : s.Sized) : minBufferSize ≤ s.front.1.length ∧ s.front.2 ≤ s.front.1.length := by
  unfold PieceDec.front
  cases hm : s.mem with
  | none => simp
  | some m =>
    have := h m hm
    simp only [List.length_append, List.length_drop]
    have hl : s.remain.length ≤ m.length := by simp [PieceDec.remain, hm, List.length_take, List.length_drop]; omega
    omega

theorem growBuf_length (m : Bytes) (len : Nat) (h : len ≤ m.length) (hm : minBufferSize ≤ m.length) :
    minBufferSize ≤ (growBuf m len).length ∧ len < (growBuf m len).length ∧ (len = 0 → growBuf m len = m) := by
  have h1 : minBufferSize = 32768 := rfl
  have h2 : minReadSize = 4096 := rfl
  unfold growBuf
  split
  · simp only [List.length_append, List.length_take, List.length_replicate]; refine ⟨by omega, by omega, fun h => by omega⟩
  · exact ⟨hm, by omega, fun _ => rfl⟩

theorem prefill_sized {s s' : PieceDec} (h : s.Sized) (e : s.refill = some s') : s'.Sized := by
  obtain ⟨h1, h2⟩ := pfront_length h
  obtain ⟨h3, h4, _⟩ := growBuf_length _ _ h2 h1
  simp only [PieceDec.refill, Source.readFull, Option.map_map, Option.map_eq_some_iff] at e
  obtain ⟨x, hx, rfl⟩ := e
  have := fill_length _ _ _ hx
  intro m hm
  simp only [Function.comp] at hm
  cases hm
  simp only [List.length_append, List.length_take, List.length_drop]
  omega

theorem preadLoop_sized : ∀ (n : Nat) {s : PieceDec} {x : RV × PieceDec}, s.Sized → readLoopP n s = some x → x.2.Sized
  | 0, s, x, h, e => by simp only [readLoopP] at e; cases e; exact h
  | n + 1, s, x, h, e => by
    have more : ∀ y, (match s.err with
        | some e => some (.err (if s.remain ≠ [] ∧ e = .eof then .unexpectedEOF else e), s)
        | none => s.refill.bind (readLoopP n) : Option (RV × PieceDec)) = some y → y.2.Sized := by
      intro y hy
      cases hs : s.err with
      | some e => rw [hs] at hy; cases hy; exact h
      | none =>
        rw [hs] at hy
        simp only [Option.bind_eq_some_iff] at hy
        obtain ⟨s', h1, h2⟩ := hy
        exact preadLoop_sized n (prefill_sized h h1) h2
    simp only [readLoopP] at e
    split at e
    · split at e
      · cases e; exact h
      · split at e
        · cases e; exact h
        · exact more _ e
    · exact more _ e

theorem pcalls_sized : ∀ (n : Nat) {s : PieceDec} {x : List RV × PieceDec}, s.Sized → s.calls n = some x → x.2.Sized
  | 0, s, x, h, e => by simp only [PieceDec.calls] at e; cases e; exact h
  | n + 1, s, x, h, e => by
    simp only [PieceDec.calls, Option.bind_eq_some_iff, Option.map_eq_some_iff] at e
    obtain ⟨y, h1, z, h2, rfl⟩ := e
    exact (pcalls_sized n (preadLoop_sized _ h h1) h2 :)

end JC

import Verif.Props.EncDec
import Verif.Lemmas.Pieces
/-!
Property C90: when the `Decoder` returns, and that it does not matter how the data is cut into pieces.
-/
namespace JC.Props
open JC Spec

theorem pieceDecoder_sized (s : Source) : (pieceDecoder s).Sized := fun _ h => by cases h

theorem same_new {s : Source} {b : Bytes} {e : Err} (h : EndsIn s b e) : SameDec e (pieceDecoder s) (newDecoder ⟨[(b, e)], e⟩) := by
  obtain ⟨rfl, h2, h3⟩ := h
  exact ⟨⟨h2, h3, rfl, .inl rfl⟩, rfl, rfl, rfl, rfl, rfl⟩

theorem calls_same {e : Err} : ∀ (n : Nat) (p : PieceDec) (s : SDec), SameDec e p s → s.WF →
    ∃ p', p.calls n = some ((s.calls n).1, p') ∧ SameDec e p' (s.calls n).2
  | 0, p, s, h, _ => ⟨p, rfl, h⟩
  | n + 1, p, s, h, hw => by
    obtain ⟨p1, h1, h2⟩ := readValue_same h hw
    obtain ⟨p2, h3, h4⟩ := calls_same n p1 _ h2 (readValue_wf hw)
    refine ⟨p2, ?_, h4⟩
    simp only [PieceDec.calls, h1, Option.bind_some, h3, Option.map_some, SDec.calls]

/-- **C90** However the data of a reader is cut into pieces, and whether the error behind them comes with the last piece or on
its own: any number of calls return what they return for the data in one piece. -/
theorem C90_pieces {s : Source} {b : Bytes} {e : Err} (h : EndsIn s b e) (n : Nat) :
    ∃ p', (pieceDecoder s).calls n = some (((newDecoder ⟨[(b, e)], e⟩).calls n).1, p') ∧
      p'.remain = ((newDecoder ⟨[(b, e)], e⟩).calls n).2.remain ∧ p'.offset = ((newDecoder ⟨[(b, e)], e⟩).calls n).2.offset := by
  obtain ⟨p', h1, h2⟩ := calls_same n _ _ (same_new h) (newDecoder_wf _)
  exact ⟨p', h1, h2.remain, h2.offset⟩

/-- **C90** A stream of JSON values gives these values however it is cut into pieces (partial as C31 is). -/
theorem C90_stream_partial {vs : List (Json × Bytes)} {b : Bytes} (hb : Stream vs [] b)
    (hf : b.length ≤ 32768 ∨ (∀ x ∈ vs, ¬ IsNum x.1) ∧ ¬ QuoteThenU b) {s : Source} (h : EndsIn s b .eof) (k : Nat) :
    ∃ p', (pieceDecoder s).calls (vs.length + k) = some (vs.map (fun x => RV.ok x.2) ++ List.replicate k (.err .eof), p') := by
  obtain ⟨p', h1, _⟩ := C90_pieces h (vs.length + k)
  rw [C31_stream_partial hb hf k] at h1
  exact ⟨p', h1⟩

theorem decode_same {e : Err} {p : PieceDec} {s : SDec} (h : SameDec e p s) (hw : s.WF) (c : DCfg) (n : Nat) (t : Ty) (v : DV) :
    ∃ p', p.decode c n t v = some ((s.decode c n t v).1, p') := by
  obtain ⟨p1, h1, _⟩ := readValue_same h hw
  simp only [PieceDec.decode, SDec.decode, h1, Option.map_some]
  rcases s.readValue with ⟨_ | _, _⟩
  · exact ⟨_, rfl⟩
  · exact ⟨_, rfl⟩

/-- **C90** The same holds of `Decode`, into variables of any type, after any number of calls. -/
theorem C90_decode {s : Source} {b : Bytes} {e : Err} (h : EndsIn s b e) (k : Nat) (c : DCfg) (n : Nat) (t : Ty) (v : DV) :
    ∃ p p' rs, (pieceDecoder s).calls k = some (rs, p) ∧ p.decode c n t v = some ((((newDecoder ⟨[(b, e)], e⟩).calls k).2.decode c n t v).1, p') := by
  obtain ⟨p, h1, h2⟩ := calls_same k _ _ (same_new h) (newDecoder_wf _)
  obtain ⟨p', h3⟩ := decode_same h2 (calls_wf k (newDecoder_wf _)) c n t v
  exact ⟨p, p', _, h1, h3⟩

/-- **C90** A value that is in the buffer is returned without a call of `Read`. -/
theorem C90_buffered (s : PieceDec) (hs : s.remain ≠ []) {v r : Bytes} (h : parseValue s.remain = .ok v r) :
    ∃ s', s.readValue = some (.ok v, s') ∧ s'.src = s.src := by
  unfold PieceDec.readValue readLoopP
  rw [if_pos hs, h]
  exact ⟨_, rfl, rfl⟩

theorem readLoop_ends {e : Err} : ∀ (n : Nat) (s : PieceDec), s.src.last = some e → readLoopP n s ≠ none
  | 0, s, _ => by simp [readLoopP]
  | n + 1, s, h => by
    have more : (match s.err with
        | some e => some (.err (if s.remain ≠ [] ∧ e = .eof then .unexpectedEOF else e), s)
        | none => s.refill.bind (readLoopP n) : Option (RV × PieceDec)) ≠ none := by
      cases s.err with
      | some x => simp
      | none =>
        simp only []
        cases hr : s.refill with
        | none =>
          simp only [PieceDec.refill, Source.readFull, Option.map_eq_none_iff, h] at hr
          exact absurd hr (fill_ends e _ _)
        | some s' =>
          simp only [Option.bind_some]
          refine readLoop_ends (e := e) n s' ?_
          simp only [PieceDec.refill, Source.readFull, Option.map_map, Option.map_eq_some_iff] at hr
          obtain ⟨x, _, rfl⟩ := hr
          exact h
    simp only [readLoopP]
    split
    · split
      · simp
      · split
        · simp
        · exact more
    · exact more

/-- **C90** If the reader ends, whatever errors come before its end, every call returns. -/
theorem C90_ends (s : PieceDec) {e : Err} (h : s.src.last = some e) : s.readValue ≠ none := readLoop_ends _ s h

/-- **C90** Full statement: a value that has been received, with a newline behind it, is returned, also if the
connection stays open. It is false, see `C90_fails`. -/
def C90_statement : Prop := ∀ (s : Source) (j : Json) (v rest : Bytes), Derives (.value j) v → Open s (v ++ 0x0a :: rest) →
  ∃ s', (pieceDecoder s).readValue = some (.ok v, s')

theorem refill_waits {s : PieceDec} (hs : s.Sized) {b : Bytes} (h : Open s.src b) (hr : s.remain = []) (hb : b.length < 32768) : s.refill = none := by
  obtain ⟨h1, h2⟩ := pfront_length hs
  obtain ⟨rfl, h3, h4⟩ := h
  have hf : s.front.2 = 0 := by
    unfold PieceDec.front
    cases s.mem with
    | none => rfl
    | some m => simp [hr]
  obtain ⟨_, h5, h6⟩ := growBuf_length _ _ h2 h1
  have hm : minBufferSize = 32768 := rfl
  simp only [PieceDec.refill, Source.readFull, Option.map_map, Option.map_eq_none_iff, h3]
  have := fill_open s.src.pieces ((growBuf s.front.1 s.front.2).length - s.front.2) (by omega) h4
  rw [if_neg ?_] at this
  · exact this
  · rw [h6 hf, hf]
    simp only [Source.data] at hb
    omega

/-- **C90** fails: however many values have been received on a connection that stays open, the first call of `Decode` waits
until there are 32768 bytes; and when all that was received has been returned, so does the next. -/
theorem C90_waits (s : PieceDec) (hs : s.Sized) {b : Bytes} (h : Open s.src b) (hr : s.remain = []) (he : s.err = none) (hb : b.length < 32768) :
    s.readValue = none := by
  unfold PieceDec.readValue readLoopP
  rw [if_neg (by simp [hr]), he]
  simp only [refill_waits hs h hr hb, Option.bind_none]

theorem C90_waits_first {s : Source} {b : Bytes} (h : Open s b) (hb : b.length < 32768) : (pieceDecoder s).readValue = none :=
  C90_waits _ (pieceDecoder_sized s) h rfl rfl hb

theorem C90_waits_again {s : Source} (n : Nat) {x : List RV} {p : PieceDec} (hp : (pieceDecoder s).calls n = some (x, p)) {b : Bytes} (h : Open p.src b)
    (hr : p.remain = []) (he : p.err = none) (hb : b.length < 32768) : p.readValue = none :=
  C90_waits p (pcalls_sized n (pieceDecoder_sized s) hp) h hr he hb

theorem C90_fails : ¬ C90_statement := by
  intro h
  have ho : Open ⟨[⟨bs! "1\n", none⟩], none⟩ (bs! "1" ++ 0x0a :: []) := ⟨rfl, rfl, by simp⟩
  obtain ⟨s', hs⟩ := h _ _ (bs! "1") [] derives_one ho
  rw [C90_waits_first ho (by decide)] at hs
  cases hs

/-- **C90** (partial: 32768 bytes have been received) Then the first value in them, with whitespace before and behind it, is returned, and the
connection may stay open. -/
theorem C90_full_partial {s : Source} {w v x rest : Bytes} {c : UInt8} {j : Json} (h : Open s (w ++ v ++ c :: x ++ rest)) (hl : (w ++ v ++ c :: x).length = 32768)
    (hw : Ws w) (hv : Derives (.value j) v) (hc : IsWs c) : ∃ s', (pieceDecoder s).readValue = some (.ok v, s') := by
  obtain ⟨hd, hl1, hp⟩ := h
  have hf := fill_open s.pieces 32768 (by omega) hp
  simp only [Source.data] at hd
  rw [hd, if_pos (by rw [List.length_append]; omega), List.take_append_of_le_length (by omega), List.take_of_length_le (by omega)] at hf
  obtain ⟨ps, h1, h2, h3⟩ := hf
  obtain ⟨s1, hs1, hr1⟩ : ∃ s1, (pieceDecoder s).refill = some s1 ∧ s1.remain = v ++ c :: x := by
    have hm : minBufferSize = 32768 := rfl
    have hg : growBuf (List.replicate 32768 0) 0 = List.replicate 32768 0 :=
      (growBuf_length _ 0 (Nat.zero_le _) (by rw [List.length_replicate]; exact Nat.le_of_eq hm)).2.2 rfl
    have hk : skipSpaces (w ++ v ++ c :: x) = v ++ c :: x := by
      rw [List.append_assoc, skipSpaces_ws_append hw, skip_value hv]
    have hfront : (pieceDecoder s).front = (List.replicate minBufferSize 0, 0) := rfl
    have hsrc : (pieceDecoder s).src = s := rfl
    cases hq : (pieceDecoder s).refill with
    | none =>
      simp only [PieceDec.refill, hfront, hg, hsrc, Source.readFull, List.length_replicate, hm, Nat.sub_zero, hl1, h1] at hq
      cases hq
    | some s1 =>
      refine ⟨s1, rfl, ?_⟩
      simp only [PieceDec.refill, hfront, hg, hsrc, Source.readFull, List.length_replicate, hm, Nat.sub_zero, hl1, h1, Option.map_some] at hq
      cases hq
      simp only [PieceDec.remain, Option.getD_some, List.take_zero, List.nil_append, Nat.zero_add]
      rw [List.take_left' rfl]
      have : (skipSpacesN (w ++ v ++ c :: x)).1 = v ++ c :: x := hk
      rw [this]
      simp [List.append_assoc]
  have hne : v ++ c :: x ≠ [] := by simp
  have hfol : Follow j (c :: x) := by
    cases j <;> simp only [Follow]
    intro d hd
    cases hd
    cases hc <;> decide
  unfold PieceDec.readValue readLoopP
  rw [if_neg (by simp [PieceDec.remain, pieceDecoder])]
  have he : (pieceDecoder s).err = none := rfl
  simp only [he, hs1, Option.bind_some]
  rw [readLoopP, hr1, if_pos hne, parse_value_lt hv hfol]
  exact ⟨_, rfl⟩

/-- A dialogue through `Encoder` and `Decoder` comes to a halt: values that an `Encoder` writes are returned one by one
when the connection is closed behind them, in whatever pieces they arrive. While it is open none of them is, as long as there are fewer than 32768 bytes. -/
theorem C90_dialogue_partial {ji : Bytes → Bytes → Bytes → Option Bytes} {e : Encoder} {cs : List EncCall} (he : PlainEncoder e) (hc : PlainCalls ji e cs) :
    ∃ e' rs, ∃ vs : List (Json × Bytes), e.run ji cs = some (e', rs) ∧ writes rs = vs.map (fun x => x.2 ++ [0x0a]) ∧
      (∀ x ∈ vs, Derives (.value x.1) x.2) ∧ ((writes rs).flatten.length < 32768 → ∀ s : Source,
        (EndsIn s (writes rs).flatten .eof → ∃ p', (pieceDecoder s).calls vs.length = some (vs.map (fun x => RV.ok x.2), p')) ∧
        (Open s (writes rs).flatten → (pieceDecoder s).readValue = none)) := by
  obtain ⟨e', rs, vs, h1, h2, h3, h4⟩ := plain_run (ji := ji) cs e he hc
  refine ⟨e', rs, vs, h1, h3, h4, fun hl s => ⟨fun h => ?_, fun h => C90_waits_first h hl⟩⟩
  rw [h3] at h hl
  obtain ⟨p', hp⟩ := C90_stream_partial (stream_lines vs h4) (.inl (Nat.le_of_lt hl)) h 0
  exact ⟨p', by simpa using hp⟩

/-! Concrete cases. -/

/-- Two values in four pieces, cut inside the first, with the end of the data coming with the last piece. -/
def cut4 : Source := ⟨[⟨bs! "[1", none⟩, ⟨[], none⟩, ⟨bs! ",2]\n", none⟩, ⟨bs! "null\n", some .eof⟩], some .eof⟩

example : EndsIn cut4 (bs! "[1,2]\nnull\n") .eof := ⟨rfl, rfl, .inl rfl, .inl rfl, .inl rfl, .inr ⟨rfl, rfl⟩, trivial⟩

example : (cut4.readFull 3).map (·.1) = some (bs! "[1,") := rfl

/-- The same pieces on a connection that stays open: five bytes can be had, twelve cannot. -/
def open3 : Source := ⟨[⟨bs! "[1", none⟩, ⟨bs! ",2]\n", none⟩, ⟨bs! "null\n", none⟩], none⟩

example : Open open3 (bs! "[1,2]\nnull\n") := ⟨rfl, rfl, by decide⟩

example : (open3.readFull 11).map (·.1) = some (bs! "[1,2]\nnull\n") ∧ (open3.readFull 12).map (·.1) = none := ⟨rfl, rfl⟩

example : (pieceDecoder open3).readValue = none := C90_waits_first (b := bs! "[1,2]\nnull\n") ⟨rfl, rfl, by decide⟩ (by decide)

/-- A `Decoder` with `true` in its buffer returns it; with `[1` it asks for more and waits. -/
example : ((PieceDec.mk ⟨[], none⟩ (some (bs! "true ")) 5 0 0 none).readValue).map (·.1) = some (.ok (bs! "true")) := by with_unfolding_all rfl

example : ((PieceDec.mk ⟨[], none⟩ (some (bs! "[1")) 2 0 0 none).readValue).map (·.1) = none := by with_unfolding_all rfl

end JC.Props

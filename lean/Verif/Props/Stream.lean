import Verif.Props.Struct
import Verif.Lemmas.StreamGood
/-!
Properties C31 to C34: the `Decoder` on streams.
-/
namespace JC.Props
open JC Spec

/-- The texts of the values that were returned. -/
def oks : List RV → List Bytes
  | [] => []
  | .ok v :: l => v :: oks l
  | .err _ :: l => oks l

theorem oks_append : ∀ a b, oks (a ++ b) = oks a ++ oks b
  | [], _ => rfl
  | .ok v :: a, b => by simp [oks, oks_append a b]
  | .err _ :: a, b => by simp [oks, oks_append a b]

/-! ### C34 -/

theorem passed_append {vs ws : List Bytes} {a b : Bytes} (ha : Passed vs a) (hb : Passed ws b) : Passed (vs ++ ws) (a ++ b) := by
  induction ha with
  | nil w hw =>
    cases hb with
    | nil w' hw' => exact .nil _ (fun c hc => (List.mem_append.1 hc).elim (hw c) (hw' c))
    | cons w' v ws b hw' hb =>
      rw [← List.append_assoc, ← List.append_assoc]
      exact .cons _ v ws b (fun c hc => (List.mem_append.1 hc).elim (hw c) (hw' c)) hb
  | cons w v vs a hw _ ih =>
    rw [List.append_assoc, List.cons_append]
    exact .cons w v _ _ hw ih

theorem passed_ws {w : Bytes} (h : Ws w) : Passed [] w := .nil w h

theorem readValue_bytes (s : SDec) (h : s.WF) : ∃ p, s.remain ++ s.reader.data = p ++ s.readValue.2.remain ++ s.readValue.2.reader.data ∧
    Passed (oks [s.readValue.1]) p := by
  refine readValue_ind (P := fun s x => ∃ p, s.remain ++ s.reader.data = p ++ x.2.remain ++ x.2.reader.data ∧
    Passed (oks [x.1]) p) ?_ ?_ ?_ ?_ s h
  · intro s v r h hn hp
    rw [readValue_ok hn hp]
    have e := (parseValue_sound hp).1
    refine ⟨v ++ wsPrefix r, ?_, ?_⟩
    · simp only []
      rw [(after_ok h e).2, List.append_assoc v, wsPrefix_append, e]
    · exact .cons [] v [] _ ws_nil (.nil _ (wsPrefix_ws r))
  · intro s r e h _ _ _; exact ⟨[], by simp, passed_ws ws_nil⟩
  · intro s e h _ _; exact ⟨[], by simp, passed_ws ws_nil⟩
  · intro s x h he hp ⟨p, h1, h2⟩
    obtain ⟨_, _, h3, h4, _, _, _⟩ := refill_spec h
    refine ⟨wsPrefix (s.remain ++ (readFull s.room s.reader).1) ++ p, ?_, ?_⟩
    · have e := wsPrefix_append (s.remain ++ (readFull s.room s.reader).1)
      rw [← h4] at e
      generalize wsPrefix (s.remain ++ (readFull s.room s.reader).1) = w at e ⊢
      rw [readFull_data s.room s.reader, ← h3, ← List.append_assoc, ← e, List.append_assoc, h1]
      simp
    · have := passed_append (passed_ws (wsPrefix_ws (s.remain ++ (readFull s.room s.reader).1))) h2
      simpa using this

theorem calls_bytes : ∀ (n : Nat) (s : SDec), s.WF → ∃ p, s.remain ++ s.reader.data = p ++ (s.calls n).2.remain ++ (s.calls n).2.reader.data ∧
    Passed (oks (s.calls n).1) p
  | 0, s, _ => ⟨[], by simp [SDec.calls], passed_ws ws_nil⟩
  | n + 1, s, h => by
    obtain ⟨p, h1, h2⟩ := readValue_bytes s h
    obtain ⟨q, h3, h4⟩ := calls_bytes n _ (readValue_wf h)
    refine ⟨p ++ q, ?_, ?_⟩
    · rw [h1, List.append_assoc, h3]; simp [SDec.calls]
    · have e : oks (s.calls (n + 1)).1 = oks [s.readValue.1] ++ oks (s.readValue.2.calls n).1 := by
        rw [← oks_append]; rfl
      rw [e]; exact passed_append h2 h4

/-- **C34.** For every reader and every number of calls: the data of the reader is what
was passed over (the returned values, in order, and whitespace), then what
`Buffered` gives, then what the reader has not yet delivered. -/
theorem C34_bytes (r : Reader) (n : Nat) : ∃ p,
    r.data = p ++ ((newDecoder r).calls n).2.remain ++ ((newDecoder r).calls n).2.reader.data ∧
    Passed (oks ((newDecoder r).calls n).1) p := by
  obtain ⟨p, h1, h2⟩ := calls_bytes n _ (newDecoder_wf r)
  refine ⟨p, ?_, h2⟩
  rw [← h1]
  simp [SDec.remain, newDecoder]

example : Passed [bs! "[]"] (bs! " [] ") := .cons [0x20] (bs! "[]") [] [0x20]
  (by intro c hc; rw [List.mem_singleton.1 hc]; exact .space) (.nil _ (by intro c hc; rw [List.mem_singleton.1 hc]; exact .space))

/-! ### C31 -/

/-- **C31**, partial. A stream of JSON values separated by whitespace gives these values,
in order, then `io.EOF`. The full property has no condition; it fails (see below) for
longer streams if a number at the top level, or a `\u` escape behind a `\"`, falls on
the end of the buffer. -/
theorem C31_stream_partial {vs : List (Json × Bytes)} {b : Bytes} (h : Stream vs [] b)
    (hf : b.length ≤ 32768 ∨ (∀ x ∈ vs, ¬ IsNum x.1) ∧ ¬ QuoteThenU b) (k : Nat) :
    ((newDecoder ⟨[(b, .eof)], .eof⟩).calls (vs.length + k)).1 = vs.map (fun x => RV.ok x.2) ++ List.replicate k (.err .eof) := by
  refine good_calls vs k _ (good_new h rfl ?_)
  rcases hf with hf | ⟨h1, h2⟩
  · exact .inl ⟨hf, fun h => absurd rfl h⟩
  · refine .inr ⟨h1, h2, fun p q e hp => ?_⟩
    exact absurd (List.append_eq_nil_iff.1 e.symm).1 hp

theorem ws_space : Ws [0x20] := by intro c hc; rw [List.mem_singleton.1 hc]; exact .space

theorem derives_one : Derives (.value (.num (bs! "1"))) (bs! "1") := by
  refine .num _ ⟨[], bs! "1", [], [], .inl rfl, ?_, .none, .none⟩
  exact .pos _ [] (by decide) (by decide) (by simp)

theorem derives_arr0 : Derives (.value (.arr [])) (bs! "[]") := .arrNil [] ws_nil

example : ((newDecoder ⟨[(bs! " 1 []", .eof)], .eof⟩).calls 4).1 =
    [.ok (bs! "1"), .ok (bs! "[]"), .err .eof, .err .eof] :=
  C31_stream_partial (vs := [(_, bs! "1"), (_, bs! "[]")]) (b := bs! " 1 []")
    (.cons [0x20] (bs! "1") _ _ [] (bs! " []") ws_space derives_one (.inr ⟨_, _, rfl, .space⟩)
      (.cons [0x20] (bs! "[]") _ [] [] [] ws_space derives_arr0 (.inl rfl) (.nil [] [] ws_nil))) (.inl (by decide)) 2

theorem readFull_one {n : Nat} {d : Bytes} {e : Err} (h : n ≤ d.length) :
    readFull n ⟨[(d, e)], e⟩ = (d.take n, none, ⟨[(d.drop n, e)], e⟩) := by
  unfold readFull; simp [h]

/-- the first fill of a buffer by a long stream -/
theorem first_fill {b x y : Bytes} {e : Err} {w : Bytes} (hb : b = w ++ x ++ y) (hw : Ws w) (hl : (w ++ x).length = 32768) :
    let s := (newDecoder ⟨[(b, e)], e⟩).refill
    s.WF ∧ s.remain = skipSpaces x ∧ s.reader = ⟨[(y, e)], e⟩ ∧ s.offset = (skipSpacesN (w ++ x)).2 ∧
    (w ++ x ≠ [] → s.err = none) ∧ (newDecoder ⟨[(b, e)], e⟩).readValue = s.readValue := by
  have hn : (newDecoder ⟨[(b, e)], e⟩).remain = [] := by simp [SDec.remain, newDecoder]
  obtain ⟨h1, h2, h3, h4, h5, h6, h7⟩ := refill_spec (newDecoder_wf ⟨[(b, e)], e⟩)
  have hq : readFull (newDecoder ⟨[(b, e)], e⟩).room (newDecoder ⟨[(b, e)], e⟩).reader = (w ++ x, none, ⟨[(y, e)], e⟩) := by
    rw [h2 rfl]
    show readFull minBufferSize ⟨[(b, e)], e⟩ = _
    have hl' : minBufferSize = (w ++ x).length := hl.symm
    rw [readFull_one (by rw [hb, hl']; simp), hl', hb, List.take_left, List.drop_left]
  rw [hq] at h3 h4 h5 h6
  rw [hn, List.nil_append] at h4 h5
  refine ⟨h7, ?_, h3, ?_, ?_, readValue_step (newDecoder_wf _) rfl (.inl hn)⟩
  · rw [h4, skipSpaces_ws_append hw]
  · rw [h5]; simp [newDecoder]
  · intro h; rw [h6, if_pos h]

theorem spaces (n : Nat) : ∃ w : Bytes, Ws w ∧ w.length = n :=
  ⟨List.replicate n 0x20, fun c hc => by rw [List.eq_of_mem_replicate hc]; exact .space, List.length_replicate⟩

/-- C31 fails: a number that reaches over the end of the buffer comes out as two. -/
theorem C31_fails_number : ∃ vs b, Stream vs [] b ∧ vs.map (·.2) = [bs! "12"] ∧
    ((newDecoder ⟨[(b, .eof)], .eof⟩).calls 1).1 = [.ok (bs! "1")] := by
  obtain ⟨w, hw, hl⟩ := spaces 32767
  refine ⟨[(_, bs! "12")], w ++ bs! "12" ++ [], .cons _ (bs! "12") (.num (bs! "12")) [] [] [] hw ?_ (.inl rfl) (.nil [] [] ws_nil), rfl, ?_⟩
  · refine .num _ ⟨[], bs! "12", [], [], .inl rfl, ?_, .none, .none⟩
    exact .pos _ [0x32] (by decide) (by decide) (by intro c hc; rw [List.mem_singleton.1 hc]; exact ⟨by decide, by decide⟩)
  · obtain ⟨h1, h2, h3, h4, h5, h6⟩ := first_fill (b := w ++ bs! "12" ++ []) (w := w)
      (x := bs! "1") (y := bs! "2") (e := .eof) (by simp) hw (by simp [hl])
    have hr : skipSpaces (bs! "1") = bs! "1" := by decide
    rw [hr] at h2
    simp only [SDec.calls, h6]
    rw [readValue_ok (v := bs! "1") (r := []) (by rw [h2]; decide) (by rw [h2]; decide +kernel)]

theorem derives_quoteU : Derives (.value (.str (bs! "\"\\\"\\u0041\""))) (bs! "\"\\\"\\u0041\"") := by
  refine .str _ (.mk (bs! "\\\"\\u0041") (.esc _ _ (by unfold SimpleEsc; decide) (.uni _ _ _ _ [] ?_ ?_ ?_ ?_ .nil))) <;>
    (unfold HexDigit; decide)

theorem parse_quoteU : ∃ r, r ≠ [] ∧ parseValue (bs! "\"\\\"\\u0") = .fail r .syntax := ⟨bs! "\"\\\"\\u0", by decide, by decide +kernel⟩

/-- C31 fails: a string with `\"` and, later, a `\u` escape that reaches over the end
of the buffer is taken for a syntax error. -/
theorem C31_fails_escape : ∃ vs b, Stream vs [] b ∧ vs.map (·.2) = [bs! "\"\\\"\\u0041\""] ∧
    ((newDecoder ⟨[(b, .eof)], .eof⟩).calls 1).1 = [.err .syntax] := by
  obtain ⟨w, hw, hl⟩ := spaces 32762
  refine ⟨[(_, bs! "\"\\\"\\u0041\"")], w ++ bs! "\"\\\"\\u0041\"" ++ [],
    .cons _ (bs! "\"\\\"\\u0041\"") (.str (bs! "\"\\\"\\u0041\"")) [] [] [] hw derives_quoteU (.inl rfl) (.nil [] [] ws_nil), rfl, ?_⟩
  obtain ⟨h1, h2, h3, h4, h5, h6⟩ := first_fill (b := w ++ bs! "\"\\\"\\u0041\"" ++ [])
    (w := w) (x := bs! "\"\\\"\\u0") (y := bs! "041\"") (e := .eof) (by simp) hw (by simp [hl])
  have hr : skipSpaces (bs! "\"\\\"\\u0") = bs! "\"\\\"\\u0" := by decide
  rw [hr] at h2
  simp only [SDec.calls, h6]
  obtain ⟨r, hr, hp⟩ := parse_quoteU
  rw [readValue_fail (r := r) (e := .syntax) (by rw [h2]; decide) (by rw [h2]; exact hp) hr]

/-! ### Decode -/

theorem decode_ok {c : DCfg} {n : Nat} {t : Ty} {p : DV} {s s' : SDec} {v : Bytes} (h : s.readValue = (.ok v, s')) :
    (s.decode c n t p).2 = s' ∧ (∀ x, unmarshal c n t v p = .done x none → (s.decode c n t p).1 = .done x none) ∧
    (∀ x e, unmarshal c n t v p = .done x (some e) → ∃ e', (s.decode c n t p).1 = .done x e') ∧
    (∀ x e, (s.decode c n t p).1 = .done x (some e) → ∃ e', unmarshal c n t v p = .done x (some e')) := by
  have e1 : s.decode c n t p = (match parseInto (decN c n t) v p with
      | .crash x => .crash x
      | .ok v _ => .done v none
      | .err v _ e => .done v (some e), s') := by
    unfold SDec.decode; rw [h]; rfl
  rw [e1]
  unfold unmarshal
  generalize parseInto (decN c n t) v p = q
  cases q with
  | crash x => simp
  | ok x r =>
    simp only []
    refine ⟨trivial, ?_, ?_, ?_⟩ <;> intros <;> simp_all
  | err x r e =>
    simp only []
    refine ⟨trivial, ?_, ?_, ?_⟩
    · intro y h; injection h with _ h; split at h <;> simp at h
    · intro y e' h; injection h with h1 h2; subst h1; exact ⟨_, rfl⟩
    · intro y e' h; injection h with h1 h2; subst h1
      split <;> exact ⟨_, rfl⟩

/-- **C31** for `Decode`, partial in the same way: the `i`-th call leaves in the `i`-th
destination what `Unmarshal` of the `i`-th value would leave there, with success
if `Unmarshal` has success, and only then for the types whose decoders follow the
document tree. -/
theorem C31_decode_partial {vs : List (Json × Bytes)} {b : Bytes} (h : Stream vs [] b)
    (hf : b.length ≤ 32768 ∨ (∀ x ∈ vs, ¬ IsNum x.1) ∧ ¬ QuoteThenU b) (c : DCfg) (n : Nat) (ds : List (Ty × DV)) :
    ∀ (i : Nat) (t : Ty) (p : DV) (j : Json) (v : Bytes), ds[i]? = some (t, p) → vs[i]? = some (j, v) →
    ∃ u, ((newDecoder ⟨[(b, .eof)], .eof⟩).decodes c n ds)[i]? = some u ∧
      (∀ x, unmarshal c n t v p = .done x none → u = .done x none) ∧
      (∀ x e, unmarshal c n t v p = .done x (some e) → ∃ e', u = .done x e') ∧
      (∀ x e, u = .done x (some e) → ∃ e', unmarshal c n t v p = .done x (some e')) ∧
      (LibOk c.lib → t.tree → Held Ty.tree p n → ∀ x, u = .done x none ↔ unmarshal c n t v p = .done x none) := by
  have main : ∀ (vs : List (Json × Bytes)) (s : SDec) (ds : List (Ty × DV)), Good .eof vs [] s →
      ∀ (i : Nat) (t : Ty) (p : DV) (j : Json) (v : Bytes), ds[i]? = some (t, p) → vs[i]? = some (j, v) →
      ∃ u, (s.decodes c n ds)[i]? = some u ∧
        (∀ x, unmarshal c n t v p = .done x none → u = .done x none) ∧
        (∀ x e, unmarshal c n t v p = .done x (some e) → ∃ e', u = .done x e') ∧
        (∀ x e, u = .done x (some e) → ∃ e', unmarshal c n t v p = .done x (some e')) ∧
        (LibOk c.lib → t.tree → Held Ty.tree p n → ∀ x, u = .done x none ↔ unmarshal c n t v p = .done x none) := by
    intro vs
    induction vs with
    | nil => intro s ds _ i t p j v _ h; simp at h
    | cons x vs ih =>
      intro s ds h i t p j v h1 h2
      obtain ⟨j0, v0⟩ := x
      cases ds with
      | nil => simp at h1
      | cons d ds =>
        obtain ⟨t0, p0⟩ := d
        have hstr := h.str
        obtain ⟨s', hs, hg⟩ := good_ok s h
        obtain ⟨d1, d2, d3, d4⟩ := decode_ok (c := c) (n := n) (t := t0) (p := p0) hs
        cases i with
        | zero =>
          simp at h1 h2
          obtain ⟨rfl, rfl⟩ := h1
          obtain ⟨rfl, rfl⟩ := h2
          refine ⟨_, rfl, d2, d3, d4, ?_⟩
          intro hl ht hp x
          refine ⟨fun hx => ?_, d2 x⟩
          have hj : Derives (.value j0) v0 := by
            generalize s.remain ++ s.reader.data = z at hstr
            cases hstr; assumption
          cases hJ : decJN c n t0 j0 p0 with
          | some y =>
            have := (unmarshal_tree hl ht (jtext_of_value hj) hp y).2 hJ
            have := d2 _ this
            rw [hx] at this
            injection this with this
            subst this; assumption
          | none =>
            exfalso
            have hno := (decN_ref hl n t0 ht (v0.length + 1) j0 v0 hj (by omega) [] (follow_of_numStop (numStop_ws ws_nil)) p0 hp).2 hJ
            unfold SDec.decode parseInto at hx
            rw [hs] at hx
            have e := skip_value hj []
            rw [List.append_nil] at e hno
            simp only [e] at hx
            cases hd : decN c n t0 v0 p0 with
            | crash => rw [hd] at hx; simp at hx
            | err => rw [hd] at hx; simp at hx
            | ok x r => exact hno _ _ hd
        | succ i =>
          obtain ⟨u, h3, h4⟩ := ih s' ds hg i t p j v (by simpa using h1) (by simpa using h2)
          refine ⟨u, ?_, h4⟩
          show ((s.decode c n t0 p0).1 :: SDec.decodes c n ds (s.decode c n t0 p0).2)[i + 1]? = _
          rw [d1]; simpa using h3
  refine main vs _ ds (good_new h rfl ?_)
  rcases hf with hf | ⟨h1, h2⟩
  · exact .inl ⟨hf, fun h => absurd rfl h⟩
  · refine .inr ⟨h1, h2, fun p q e hp => ?_⟩
    exact absurd (List.append_eq_nil_iff.1 e.symm).1 hp

/-! ### C33 -/

/-- **C33**, stickiness, for every reader and history: an error comes again at every
later call, and nothing changes. -/
theorem C33_sticky (r : Reader) (n : Nat) (e : Err) (h : ((newDecoder r).calls n).2.readValue.1 = .err e) :
    let s := ((newDecoder r).calls n).2.readValue.2
    s.readValue = (.err e, s) := by
  have key : ∀ s : SDec, s.WF → ∀ e, s.readValue.1 = .err e → s.readValue.2.readValue = (.err e, s.readValue.2) := by
    refine readValue_ind (P := fun _ x => ∀ e, x.1 = .err e → x.2.readValue = (.err e, x.2)) ?_ ?_ ?_ ?_
    · intro s v r h hn hp e h
      rw [readValue_ok hn hp] at h
      cases h
    · intro s r e h hn hp hr e' he
      injection he with he
      subst he
      exact readValue_fail hn hp hr
    · intro s e h he hp e' hx
      simp only [] at hx ⊢
      rw [readValue_pending he hp, hx]
    · intro s x _ _ _ h; exact h
  exact key _ (calls_wf n (newDecoder_wf r)) e h

/-- **C33**, partial: the end of a stream of values. The error of the reader comes behind
the values, `io.EOF` in particular. Missing: readers that fail and then go on, the
error `io.ErrUnexpectedEOF`, and the streams left out in C31. -/
theorem C33_clean_partial {vs : List (Json × Bytes)} {b : Bytes} (h : Stream vs [] b) {e : Err} (he : e ≠ .unexpectedEOF)
    (hf : b.length ≤ 32768 ∨ (∀ x ∈ vs, ¬ IsNum x.1) ∧ ¬ QuoteThenU b) (k : Nat) :
    ((newDecoder ⟨[(b, e)], e⟩).calls (vs.length + k)).1 = vs.map (fun x => RV.ok x.2) ++ List.replicate k (.err e) := by
  have : endErr e [] = e := by simp [endErr, finErr, he]
  have := good_calls (e := e) (tl := []) vs k _ (good_new h rfl ?_)
  · rwa [‹endErr e [] = e›] at this
  rcases hf with hf | ⟨h1, h2⟩
  · exact .inl ⟨hf, fun h => absurd rfl h⟩
  · refine .inr ⟨h1, h2, fun p q e hp => ?_⟩
    exact absurd (List.append_eq_nil_iff.1 e.symm).1 hp

/-- **C33**, partial: a stream that ends in the middle of a value gives the values before,
then `io.ErrUnexpectedEOF` if the reader ends with `io.EOF`, the error of the reader
otherwise. Missing: as above, and `\u` escapes cut behind a `\"`. -/
theorem C33_truncated_partial {vs : List (Json × Bytes)} {j : Json} {tl b : Bytes} (h : Stream vs tl b) (ht : Truncated j tl)
    (hq : ¬ QuoteThenU tl) {e : Err} (he : e ≠ .unexpectedEOF)
    (hf : b.length ≤ 32768 ∨ (∀ x ∈ vs, ¬ IsNum x.1) ∧ ¬ IsNum j ∧ ¬ QuoteThenU b) (k : Nat) :
    ((newDecoder ⟨[(b, e)], e⟩).calls (vs.length + k)).1 =
      vs.map (fun x => RV.ok x.2) ++ List.replicate k (.err (if e = .eof then .unexpectedEOF else e)) := by
  have e1 : endErr e tl = if e = .eof then .unexpectedEOF else e := by simp [endErr, finErr, he, ht.1]
  obtain ⟨t1, t2, t3⟩ := truncated_parse ht hq
  have := good_calls (e := e) (tl := tl) vs k _ (good_new h t1 ?_)
  · rwa [e1] at this
  rcases hf with hf | ⟨h1, h2, h3⟩
  · exact .inl ⟨hf, fun _ => t2⟩
  · exact .inr ⟨h1, h3, t3 h2⟩

theorem truncated_bracket : Truncated (.arr []) (bs! "[") := by
  refine ⟨by simp, ⟨bs! "]", derives_arr0⟩, ?_⟩
  rintro ⟨j, h⟩
  have := parseValue_complete (r := []) h (follow_of_numStop (numStop_ws ws_nil))
  revert this
  have e : parseValue (bs! "[" ++ []) = .fail [] .syntax := by decide +kernel
  rw [e]; simp

theorem no_quoteU {b : Bytes} (h : 0x5c ∉ b) : ¬ QuoteThenU b := by
  rintro ⟨x, y, z, rfl, _⟩
  exact h (by simp)

example : ((newDecoder ⟨[(bs! "1 [", .eof)], .eof⟩).calls 3).1 = [.ok (bs! "1"), .err .unexpectedEOF, .err .unexpectedEOF] :=
  C33_truncated_partial (vs := [(_, bs! "1")]) (tl := bs! "[") (b := bs! "1 [") (j := .arr [])
    (.cons [] (bs! "1") _ [] _ (bs! " [") ws_nil derives_one (.inr ⟨_, _, rfl, .space⟩) (.nil [0x20] _ ws_space))
    truncated_bracket (no_quoteU (by decide)) (by simp) (.inl (by decide)) 2

example : ((newDecoder ⟨[(bs! "1 ", .other 7)], .other 7⟩).calls 2).1 = [.ok (bs! "1"), .err (.other 7)] :=
  C33_clean_partial (vs := [(_, bs! "1")]) (b := bs! "1 ")
    (.cons [] (bs! "1") _ [] _ (bs! " ") ws_nil derives_one (.inr ⟨_, _, rfl, .space⟩) (.nil [0x20] _ ws_space))
    (by simp) (.inl (by decide)) 1

/-- what the decoder makes of a short stream that is not read to the end by the first value -/
theorem short_end {b : Bytes} {e : Err} (hl : b.length ≤ 32768) (hw : skipSpaces b = b) (hp : b ≠ [] → parseValue b = .fail [] .syntax) (k : Nat) :
    ((newDecoder ⟨[(b, e)], e⟩).calls k).1 = List.replicate k (.err (endErr e b)) := by
  have := good_calls (e := e) (tl := b) [] k _ (good_new (b := b) (.nil [] b ws_nil) hw (.inl ⟨hl, hp⟩))
  simpa using this

/-- C33 fails: `io.ErrUnexpectedEOF` of the reader (a truncated compressed stream, say) is
reported as a clean end. -/
theorem C33_fails_unexpected : ((newDecoder ⟨[(bs! "", .unexpectedEOF)], .unexpectedEOF⟩).calls 1).1 = [.err .eof] :=
  short_end (e := .unexpectedEOF) (by decide) rfl (fun h => absurd rfl h) 1

/-- C33 fails: an error of the reader that comes behind data is dropped; here the
reader fails within an array and then is at its end. -/
theorem C33_fails_dropped : ((newDecoder ⟨[(bs! "[", .other 7)], .eof⟩).calls 1).1 = [.err .unexpectedEOF] := by
  have hn : (newDecoder ⟨[(bs! "[", .other 7)], .eof⟩).remain = [] := by simp [SDec.remain, newDecoder]
  obtain ⟨h1, h2, h3, h4, h5, h6, h7⟩ := refill_spec (newDecoder_wf ⟨[(bs! "[", .other 7)], .eof⟩)
  have hq : readFull (newDecoder ⟨[(bs! "[", .other 7)], .eof⟩).room (newDecoder ⟨[(bs! "[", .other 7)], .eof⟩).reader =
      (bs! "[", some (.other 7), ⟨[], .eof⟩) := by
    rw [h2 rfl]; rfl
  rw [hq] at h3 h4 h5 h6
  rw [hn, List.nil_append] at h4
  have e1 := readValue_step (newDecoder_wf ⟨[(bs! "[", .other 7)], .eof⟩) rfl (.inl hn)
  generalize (newDecoder ⟨[(bs! "[", .other 7)], .eof⟩).refill = s at *
  have hg : Good .eof [] (bs! "[") s := by
    refine ⟨h7, by rw [h3]; exact ⟨rfl, .inl rfl⟩, by rw [h4, skipSpaces_idem], ?_, by decide, .inl h6, .inl ⟨.inl ?_, ?_⟩⟩
    · rw [h4, h3]; exact .nil [] _ ws_nil
    · rw [h3]; rfl
    · intro _; decide +kernel
  obtain ⟨s', h8, _⟩ := good_end s hg
  simp only [SDec.calls, e1, h8]
  rfl

/-- C33 fails: a syntax error at the end is reported as an unexpected end, though no
continuation is a value. -/
theorem C33_fails_syntax : (∀ y j, ¬ Derives (.value j) (bs! "1ex" ++ y)) ∧
    ((newDecoder ⟨[(bs! "1ex", .eof)], .eof⟩).calls 1).1 = [.err .unexpectedEOF] := by
  constructor
  · intro y j h
    have := parseValue_complete (r := []) h (follow_of_numStop (numStop_ws ws_nil))
    rw [List.append_nil] at this
    revert this
    simp [parseValue, fuelFor, parseValueF, parseNumber, isDigit, numFrac, numExp, skipDigits]
  · exact short_end (e := .eof) (by decide) (by decide) (fun _ => by decide +kernel) 1

/-- C33 fails: a string that is cut off in a `\u` escape behind a `\"` is reported as a
syntax error. -/
theorem C33_fails_escape : Truncated (.str (bs! "\"\\\"\\u0041\"")) (bs! "\"\\\"\\u0") ∧
    ((newDecoder ⟨[(bs! "\"\\\"\\u0", .eof)], .eof⟩).calls 1).1 = [.err .syntax] := by
  obtain ⟨r, hr, hp⟩ := parse_quoteU
  constructor
  · refine ⟨by simp, ⟨bs! "041\"", derives_quoteU⟩, ?_⟩
    rintro ⟨j, h⟩
    have := parseValue_complete (r := []) h (follow_of_numStop (numStop_ws ws_nil))
    rw [List.append_nil, hp] at this
    cases this
  · obtain ⟨h1, h2, h3, h4, h5, h6, h7⟩ := refill_spec (newDecoder_wf ⟨[(bs! "\"\\\"\\u0", .eof)], .eof⟩)
    have hn : (newDecoder ⟨[(bs! "\"\\\"\\u0", .eof)], .eof⟩).remain = [] := by simp [SDec.remain, newDecoder]
    have hq : (readFull (newDecoder ⟨[(bs! "\"\\\"\\u0", .eof)], .eof⟩).room (newDecoder ⟨[(bs! "\"\\\"\\u0", .eof)], .eof⟩).reader).1 =
        bs! "\"\\\"\\u0" := by
      rw [h2 rfl]; rfl
    rw [hq, hn, List.nil_append] at h4
    have e : skipSpaces (bs! "\"\\\"\\u0") = bs! "\"\\\"\\u0" := by decide
    rw [e] at h4
    simp only [SDec.calls, readValue_step (newDecoder_wf ⟨[(bs! "\"\\\"\\u0", .eof)], .eof⟩) rfl (.inl hn)]
    rw [readValue_fail (r := r) (e := .syntax) (by rw [h4]; decide) (by rw [h4]; exact hp) hr]

/-- The errors a reader may give. -/
def readerErrs (r : Reader) : List Err := r.last :: r.segs.map (·.2)

/-- **C33**: where errors come from. For every reader and history: an error is a syntax
error, an error of the reader, or an end of the stream. -/
theorem C33_source (r : Reader) (n : Nat) (e : Err) (h : ((newDecoder r).calls n).2.readValue.1 = .err e) :
    e = .syntax ∨ e = .eof ∨ e = .unexpectedEOF ∨ e ∈ readerErrs r := by
  have sub : ∀ (m : Nat) (q : Reader), (∀ x, (readFull m q).2.1 = some x → x = .unexpectedEOF ∨ x ∈ readerErrs q) ∧
      ∀ x ∈ readerErrs (readFull m q).2.2, x ∈ readerErrs q := by
    intro m q
    unfold readFull readerErrs
    split
    · rename_i h; rw [h]; simp
    · rename_i d x segs h
      rw [h]
      split
      · simp
      · constructor
        · intro y hy
          injection hy with hy
          split at hy
          · exact .inl hy.symm
          · subst hy; simp
        · intro y hy
          simp at hy ⊢
          rcases hy with hy | hy
          · exact .inl hy
          · exact .inr (.inr hy)
  have key : ∀ s : SDec, s.WF → (∀ x, s.err = some x → x = .eof ∨ x = .unexpectedEOF ∨ x ∈ readerErrs r) ∧ (∀ x ∈ readerErrs s.reader, x ∈ readerErrs r) →
      ((∀ x, s.readValue.2.err = some x → x = .eof ∨ x = .unexpectedEOF ∨ x ∈ readerErrs r) ∧ (∀ x ∈ readerErrs s.readValue.2.reader, x ∈ readerErrs r)) ∧
      ∀ e, s.readValue.1 = .err e → e = .syntax ∨ e = .eof ∨ e = .unexpectedEOF ∨ e ∈ readerErrs r := by
    refine readValue_ind (P := fun s x => (∀ x, s.err = some x → x = .eof ∨ x = .unexpectedEOF ∨ x ∈ readerErrs r) ∧ (∀ x ∈ readerErrs s.reader, x ∈ readerErrs r) →
      ((∀ y, x.2.err = some y → y = .eof ∨ y = .unexpectedEOF ∨ y ∈ readerErrs r) ∧ (∀ y ∈ readerErrs x.2.reader, y ∈ readerErrs r)) ∧
      ∀ e, x.1 = .err e → e = .syntax ∨ e = .eof ∨ e = .unexpectedEOF ∨ e ∈ readerErrs r) ?_ ?_ ?_ ?_
    · intro s v r h hn hp hi
      rw [readValue_ok hn hp]
      exact ⟨hi, by simp⟩
    · intro s r e h hn hp hr hi
      refine ⟨hi, fun e' he => ?_⟩
      injection he with he
      subst he
      exact .inl (parseValue_err hp)
    · intro s e h he hp hi
      refine ⟨hi, fun e' hx => ?_⟩
      simp only [SDec.pending] at hx
      injection hx with hx
      split at hx
      · exact .inr (.inr (.inl hx.symm))
      · subst hx; exact .inr (hi.1 e he)
    · intro s x h he hp ih hi
      apply ih
      obtain ⟨_, _, h3, _, _, h6, _⟩ := refill_spec h
      obtain ⟨s1, s2⟩ := sub s.room s.reader
      rw [h3]
      refine ⟨fun y hy => ?_, fun y hy => hi.2 y (s2 y hy)⟩
      rw [h6] at hy
      split at hy
      · cases hy
      · split at hy
        · injection hy with hy; exact .inl hy.symm
        · rcases s1 y hy with h | h
          · exact .inr (.inl h)
          · exact .inr (.inr (hi.2 y h))
  have all : ∀ (k : Nat) (s : SDec), s.WF → (∀ x, s.err = some x → x = .eof ∨ x = .unexpectedEOF ∨ x ∈ readerErrs r) ∧ (∀ x ∈ readerErrs s.reader, x ∈ readerErrs r) →
      (∀ x, (s.calls k).2.err = some x → x = .eof ∨ x = .unexpectedEOF ∨ x ∈ readerErrs r) ∧ (∀ x ∈ readerErrs (s.calls k).2.reader, x ∈ readerErrs r) := by
    intro k
    induction k with
    | zero => intro s _ h; exact h
    | succ k ih => intro s hw h; exact ih _ (readValue_wf hw) (key s hw h).1
  exact (key _ (calls_wf n (newDecoder_wf r)) (all n _ (newDecoder_wf r) ⟨by simp [newDecoder], fun x h => h⟩)).2 e h

/-! ### C32 -/

theorem skipN_lead {b : Bytes} (h : skipSpaces b = b) : (skipSpacesN b).2 = 0 := by
  rw [skipSpacesN_snd, h]; simp

/-- the offset in a stream that fits in the buffer -/
def OffInv (b : Bytes) (done : List Bytes) (s : SDec) : Prop :=
  s.reader.data = [] ∧ skipSpaces s.remain = s.remain ∧ ∃ p w, b = p ++ w ++ s.remain ∧ Passed done p ∧
    (∀ v, done.getLast? = some v → ∃ q, p = q ++ v) ∧ Ws w ∧ s.offset = p.length + if s.remain = [] then 0 else w.length

theorem OffInv.position {b : Bytes} {done : List Bytes} {s : SDec} (h : OffInv b done s) : Position done b s.offset := by
  obtain ⟨_, hl, p, w, h1, h2, h3, h4, h5⟩ := h
  refine ⟨p, w, s.remain, h1, h2, h3, h4, ?_⟩
  rw [h5]
  split
  · exact .inl rfl
  · right
    refine ⟨rfl, fun c hc hw => ?_⟩
    cases hr : s.remain with
    | nil => rw [hr] at hc; simp at hc
    | cons d t =>
      rw [hr] at hc hl
      simp at hc; subst hc
      have := skipSpaces_head _ _ _ hl
      rw [isSpace_of_ws hw] at this
      cases this

theorem offInv_refill {b : Bytes} {done : List Bytes} {s : SDec} (hw : s.WF) (h : OffInv b done s) : OffInv b done s.refill := by
  obtain ⟨hd, hl, p, w, h1, h2, h3, h4, h5⟩ := h
  obtain ⟨_, _, r3, r4, r5, _, _⟩ := refill_spec hw
  have hq := readFull_data s.room s.reader
  rw [hd] at hq
  obtain ⟨q1, q2⟩ := List.append_eq_nil_iff.1 hq.symm
  rw [q1, List.append_nil] at r4 r5
  rw [hl] at r4
  rw [skipN_lead hl, Nat.add_zero] at r5
  exact ⟨by rw [r3, q2], by rw [r4, hl], p, w, by rw [r4]; exact h1, h2, h3, h4, by rw [r5, r4]; exact h5⟩

theorem offInv_call {b : Bytes} {done : List Bytes} : ∀ s : SDec, s.WF → OffInv b done s → OffInv b (done ++ oks [s.readValue.1]) s.readValue.2 := by
  refine readValue_ind (P := fun s x => OffInv b done s → OffInv b (done ++ oks [x.1]) x.2) ?_ ?_ ?_ ?_
  · intro s v r hw hn hp h
    rw [readValue_ok hn hp]
    have e := (parseValue_sound hp).1
    have ha := after_ok hw e (o := s.offset + (v.length + (skipSpacesN r).2))
    obtain ⟨hd, hl, p, w, h1, h2, h3, h4, h5⟩ := h
    refine ⟨hd, by rw [ha.2, skipSpaces_idem], p ++ w ++ v, wsPrefix r, ?_, ?_, ?_, wsPrefix_ws r, ?_⟩
    · rw [ha.2, List.append_assoc, wsPrefix_append, h1, e]; simp
    · rw [List.append_assoc]
      refine passed_append h2 ?_
      have := Passed.cons w v [] [] h4 (.nil [] ws_nil)
      simpa [oks] using this
    · intro u hu
      simp [oks] at hu
      subst hu
      exact ⟨p ++ w, rfl⟩
    · simp only []
      rw [ha.2, h5, if_neg hn, skipSpacesN_snd]
      have := congrArg List.length (wsPrefix_append r)
      simp only [List.length_append] at this ⊢
      split <;> omega
  · intro s r e _ _ _ _ h; simpa [oks] using h
  · intro s e _ _ _ h; simpa [oks, SDec.pending] using h
  · intro s x hw _ _ ih h; exact ih (offInv_refill hw h)

theorem offInv_calls {b : Bytes} : ∀ (k : Nat) {done : List Bytes} {s : SDec}, s.WF → OffInv b done s →
    OffInv b (done ++ oks (s.calls k).1) (s.calls k).2
  | 0, done, s, _, h => by simpa [SDec.calls, oks] using h
  | k + 1, done, s, hw, h => by
    have := offInv_calls k (readValue_wf hw) (offInv_call s hw h)
    have e : oks (s.calls (k + 1)).1 = oks [s.readValue.1] ++ oks (s.readValue.2.calls k).1 := by
      rw [← oks_append]; rfl
    rw [e, ← List.append_assoc]
    exact this

/-- **C32**, partial: for every stream of at most 32768 bytes, valid or not, at every point
`InputOffset` is the end of the last value or the beginning of what comes next.
Missing: longer streams (see below). -/
theorem C32_position_partial {b : Bytes} (e : Err) (hb : b.length ≤ 32768) (k : Nat) :
    Position (oks ((newDecoder ⟨[(b, e)], e⟩).calls k).1) b ((newDecoder ⟨[(b, e)], e⟩).calls k).2.offset := by
  cases k with
  | zero => exact ⟨[], [], b, by simp, passed_ws ws_nil, by simp [SDec.calls, oks], ws_nil, .inl rfl⟩
  | succ k =>
    have hw := newDecoder_wf ⟨[(b, e)], e⟩
    have hn : (newDecoder ⟨[(b, e)], e⟩).remain = [] := by simp [SDec.remain, newDecoder]
    obtain ⟨h1, h2, h3, h4, h5, h6, h7⟩ := refill_spec hw
    have hp := readFull_plain (e := e) (r := (newDecoder ⟨[(b, e)], e⟩).reader) ⟨rfl, .inr ⟨b, rfl⟩⟩ h1
    have hdata : (newDecoder ⟨[(b, e)], e⟩).reader.data = b := by simp [Reader.data, newDecoder]
    have hd := hp.2.2 (by rw [h2 rfl, hdata]; exact hb)
    have hq := readFull_data (newDecoder ⟨[(b, e)], e⟩).room (newDecoder ⟨[(b, e)], e⟩).reader
    rw [hd, List.append_nil, hdata] at hq
    rw [← hq, hn, List.nil_append] at h4 h5
    have hi : OffInv b [] (newDecoder ⟨[(b, e)], e⟩).refill := by
      refine ⟨by rw [h3, hd], by rw [h4, skipSpaces_idem], [], wsPrefix b, ?_, passed_ws ws_nil, by simp, wsPrefix_ws b, ?_⟩
      · rw [h4, List.nil_append, wsPrefix_append]
      · rw [h5, h4, skipSpacesN_snd]
        have := congrArg List.length (wsPrefix_append b)
        simp only [List.length_append] at this
        simp only [newDecoder, List.length_nil]
        split <;> omega
    have := offInv_calls (k + 1) h7 hi
    rw [List.nil_append] at this
    have e1 : (newDecoder ⟨[(b, e)], e⟩).calls (k + 1) = (newDecoder ⟨[(b, e)], e⟩).refill.calls (k + 1) := by
      simp only [SDec.calls, readValue_step hw rfl (.inl hn)]
    rw [e1]
    exact this.position

/-- the first call on `" [] 1"`: the offset behind it is 4, where the `1` is -/
theorem offset_sample : ((newDecoder ⟨[(bs! " [] 1", .eof)], .eof⟩).calls 1).1 = [.ok (bs! "[]")] ∧
    ((newDecoder ⟨[(bs! " [] 1", .eof)], .eof⟩).calls 1).2.offset = 4 ∧
    ((newDecoder ⟨[(bs! " [] 1", .eof)], .eof⟩).calls 1).2.remain = bs! "1" := by
  have hw := newDecoder_wf ⟨[(bs! " [] 1", .eof)], .eof⟩
  have hn : (newDecoder ⟨[(bs! " [] 1", .eof)], .eof⟩).remain = [] := by simp [SDec.remain, newDecoder]
  obtain ⟨h1, h2, h3, h4, h5, h6, h7⟩ := refill_spec hw
  have hq : (readFull (newDecoder ⟨[(bs! " [] 1", .eof)], .eof⟩).room (newDecoder ⟨[(bs! " [] 1", .eof)], .eof⟩).reader).1 = bs! " [] 1" := by
    rw [h2 rfl]; rfl
  rw [hq, hn, List.nil_append] at h4 h5
  have e1 : skipSpaces (bs! " [] 1") = bs! "[] 1" := by decide
  rw [e1] at h4
  have hok := readValue_ok (s := (newDecoder ⟨[(bs! " [] 1", .eof)], .eof⟩).refill) (v := bs! "[]") (r := bs! " 1")
    (by rw [h4]; decide) (by rw [h4]; decide +kernel)
  have ha := (after_ok h7 (v := bs! "[]") (r := bs! " 1") h4
    (o := (newDecoder ⟨[(bs! " [] 1", .eof)], .eof⟩).refill.offset + ((bs! "[]").length + (skipSpacesN (bs! " 1")).2))).2
  simp only [SDec.calls, readValue_step hw rfl (.inl hn)]
  rw [hok]
  refine ⟨rfl, ?_, ?_⟩
  · simp only []; rw [h5]; decide
  · rw [ha]; decide

example : Position [bs! "[]"] (bs! " [] 1") 4 := by
  have := C32_position_partial (b := bs! " [] 1") .eof (by decide) 1
  rw [offset_sample.1, offset_sample.2.1] at this
  exact this

/-- **C32**, bounds, for every reader and history: the offset is at least the length of
the values returned and at most the position in the stream. -/
theorem C32_bounds (r : Reader) (k : Nat) :
    ((oks ((newDecoder r).calls k).1).map List.length).sum ≤ ((newDecoder r).calls k).2.offset ∧
    ((newDecoder r).calls k).2.offset + ((newDecoder r).calls k).2.remain.length + ((newDecoder r).calls k).2.reader.data.length ≤ r.data.length := by
  have one : ∀ s : SDec, s.WF → s.offset + ((oks [s.readValue.1]).map List.length).sum ≤ s.readValue.2.offset ∧
      s.readValue.2.offset + s.readValue.2.remain.length + s.readValue.2.reader.data.length ≤ s.offset + s.remain.length + s.reader.data.length := by
    refine readValue_ind (P := fun s x => s.offset + ((oks [x.1]).map List.length).sum ≤ x.2.offset ∧
      x.2.offset + x.2.remain.length + x.2.reader.data.length ≤ s.offset + s.remain.length + s.reader.data.length) ?_ ?_ ?_ ?_
    · intro s v r hw hn hp
      rw [readValue_ok hn hp]
      have e := (parseValue_sound hp).1
      have ha := after_ok hw e (o := s.offset + (v.length + (skipSpacesN r).2))
      simp only [] at ha ⊢
      rw [ha.2, e, skipSpacesN_snd]
      have := skipSpaces_length_le r
      simp only [oks, List.map_cons, List.map_nil, List.sum_cons, List.sum_nil, List.length_append]
      split
      · rename_i h0; rw [h0] at this ⊢; simp only [List.length_nil] at *; omega
      · omega
    · intro s r e _ _ _ _; simp [oks]
    · intro s e _ _ _; simp [oks, SDec.pending]
    · intro s x hw _ _ ⟨h1, h2⟩
      obtain ⟨_, _, r3, r4, r5, _, _⟩ := refill_spec hw
      have hq := congrArg List.length (readFull_data s.room s.reader)
      rw [r3, r4, r5, skipSpacesN_snd] at h2
      rw [r5] at h1
      have := skipSpaces_length_le (s.remain ++ (readFull s.room s.reader).1)
      simp only [List.length_append] at *
      refine ⟨by omega, ?_⟩
      split at h2
      · rename_i h0; rw [h0] at h2; simp only [List.length_nil] at h2; omega
      · omega
  have all : ∀ (k : Nat) (s : SDec), s.WF → s.offset + ((oks (s.calls k).1).map List.length).sum ≤ (s.calls k).2.offset ∧
      (s.calls k).2.offset + (s.calls k).2.remain.length + (s.calls k).2.reader.data.length ≤ s.offset + s.remain.length + s.reader.data.length := by
    intro k
    induction k with
    | zero => intro s _; simp [SDec.calls, oks]
    | succ k ih =>
      intro s hw
      obtain ⟨a1, a2⟩ := one s hw
      obtain ⟨b1, b2⟩ := ih _ (readValue_wf hw)
      have e : oks (s.calls (k + 1)).1 = oks [s.readValue.1] ++ oks (s.readValue.2.calls k).1 := by
        rw [← oks_append]; rfl
      rw [e, List.map_append, List.sum_append]
      exact ⟨by show _ ≤ (s.readValue.2.calls k).2.offset; omega, by show (s.readValue.2.calls k).2.offset + (s.readValue.2.calls k).2.remain.length + (s.readValue.2.calls k).2.reader.data.length ≤ _; omega⟩
  have := all k _ (newDecoder_wf r)
  simpa [SDec.remain, newDecoder] using this

/-- C32 fails: whitespace up to the end of the buffer is not counted. -/
theorem C32_fails : ∃ b, ((newDecoder ⟨[(b, .eof)], .eof⟩).calls 1).1 = [.ok (bs! "[]")] ∧
    ((newDecoder ⟨[(b, .eof)], .eof⟩).calls 1).2.offset = 2 ∧ ¬ Position [bs! "[]"] b 2 := by
  obtain ⟨w, hw, hl⟩ := spaces 32768
  refine ⟨w ++ [] ++ bs! "[]", ?_⟩
  obtain ⟨h1, h2, h3, h4, h5, h6⟩ := first_fill (b := w ++ [] ++ bs! "[]") (w := w) (x := []) (y := bs! "[]") (e := .eof) rfl hw (by simpa using hl)
  have h5 := h5 (by intro h; simp at h; subst h; simp at hl)
  generalize hs : (newDecoder ⟨[(w ++ [] ++ bs! "[]", .eof)], .eof⟩).refill = s at *
  rw [List.append_nil, skipSpacesN_snd, if_pos (skipSpaces_ws hw)] at h4
  have hr0 : s.remain = [] := h2
  obtain ⟨r1, r2, r3, r4, r5, r6, r7⟩ := refill_spec h1
  have hroom : 2 < s.room := by
    obtain ⟨_, f2, f3, f4⟩ := front_spec h1
    obtain ⟨_, _, g3⟩ := growBuf_spec f3 f4
    have : s.front.2 = 0 := by rw [f2, hr0]; rfl
    unfold SDec.room
    simp only [minBufferSize] at g3
    omega
  have hq : readFull s.room s.reader = (bs! "[]", some .unexpectedEOF, ⟨[], .eof⟩) := by
    rw [h3]
    unfold readFull
    simp only []
    rw [if_neg (by simp; omega)]
    rfl
  rw [hq, hr0, List.nil_append] at r4 r5
  have e1 : skipSpaces (bs! "[]") = bs! "[]" := by decide
  have hcall : (newDecoder ⟨[(w ++ [] ++ bs! "[]", .eof)], .eof⟩).readValue = s.refill.readValue := by
    rw [h6, readValue_step h1 h5 (.inl hr0)]
  rw [e1] at r4
  have hok := readValue_ok (s := s.refill) (v := bs! "[]") (r := []) (by rw [r4]; decide) (by rw [r4]; decide +kernel)
  rw [hok] at hcall
  refine ⟨by simp only [SDec.calls, hcall], ?_, ?_⟩
  · simp only [SDec.calls, hcall]
    rw [r5, h4]; decide
  · rintro ⟨p, w', rest, e1, hp, hv, hw', ho⟩
    cases hp with
    | cons u v vs b hu hb =>
      have hpl : (u ++ bs! "[]" ++ b).length ≤ 2 := by omega
      have hu0 : u = [] := by
        simp only [List.length_append, List.length_cons] at hpl
        exact List.length_eq_zero_iff.1 (by omega)
      subst hu0
      cases w with
      | nil => simp at hl
      | cons c w =>
        simp at e1
        have := hw c (by simp)
        rw [e1.1] at this
        cases this


/-- the decoder of `offset_sample`: passed over, buffered, not delivered -/
example : bs! " [] 1" = bs! " [] " ++ ((newDecoder ⟨[(bs! " [] 1", .eof)], .eof⟩).calls 1).2.remain := by
  rw [offset_sample.2.2]; decide

end JC.Props

import Verif.Props.Encoder
import Verif.Props.Stream
import Verif.Props.Typed
import Verif.Lemmas.Rises
import Verif.Spec.EncDec
/-!
Property C89: what an `Encoder` writes, a `Decoder` reads back value by value.
-/
namespace JC.Props
open JC Spec

theorem newEncoder_plain : PlainEncoder newEncoder := ⟨rfl, rfl, fun _ _ h => by cases h⟩

theorem plain_set {e : Encoder} {s : Setting} (h : PlainEncoder e) (hs : PlainSetting s) : PlainEncoder (e.set s) := by
  cases s with
  | colors c => exact ⟨h.err, hs, h.ws⟩
  | indent pre indent =>
    refine ⟨h.err, h.clrs, ?_⟩
    intro i d hi
    simp only [Encoder.set, Option.some.injEq, Prod.mk.injEq] at hi
    obtain ⟨rfl, rfl⟩ := hi
    exact ⟨hs.1, hs.2, Int.le_refl _⟩
  | escapeHTML => exact ⟨h.err, h.clrs, h.ws⟩
  | sortMapKeys => exact ⟨h.err, h.clrs, h.ws⟩
  | trustRawMessage => exact ⟨h.err, h.clrs, h.ws⟩

theorem plain_depth {e : Encoder} (h : PlainEncoder e) : 0 ≤ e.depth := by
  unfold Encoder.depth
  cases hi : e.ind with
  | none => simp
  | some x => exact (h.ws x.1 x.2 (by rw [hi])).2.2

theorem plain_layout {e : Encoder} (h : PlainEncoder e) (ji : Bytes → Bytes → Bytes → Option Bytes) : WsLayout (e.cfg ji) := by
  intro i hi
  simp only [Encoder.cfg] at hi
  cases hx : e.ind with
  | none => rw [hx] at hi; cases hi
  | some x =>
    rw [hx] at hi
    cases hi
    exact ⟨(h.ws _ _ (by rw [hx])).1, (h.ws _ _ (by rw [hx])).2.1⟩

theorem plain_level {e : Encoder} (h : PlainEncoder e) {d : Int} (hd : e.depth ≤ d) :
    PlainEncoder { e with ind := e.ind.map fun i => (i.1, d) } := by
  refine ⟨h.err, h.clrs, ?_⟩
  intro i d' hi
  simp only [] at hi
  cases hx : e.ind with
  | none => rw [hx] at hi; cases hi
  | some x =>
    rw [hx] at hi
    simp only [Option.map_some, Option.some.injEq, Prod.mk.injEq] at hi
    obtain ⟨rfl, rfl⟩ := hi
    have := h.ws _ _ (by rw [hx] : e.ind = some (x.1, x.2))
    refine ⟨this.1, this.2.1, ?_⟩
    simp only [Encoder.depth, hx, Option.map_some, Option.getD_some] at hd
    omega

theorem cfg_level (e : Encoder) (d : Int) (ji : Bytes → Bytes → Bytes → Option Bytes) :
    ({ e with ind := e.ind.map fun i => (i.1, d) } : Encoder).cfg ji = e.cfg ji := by
  simp only [Encoder.cfg]
  cases e.ind <;> rfl

/-- One `Encode` of a clean value: a document is written, or nothing, and only the level of the Indenter may rise. -/
theorem plain_encode {ji : Bytes → Bytes → Bytes → Option Bytes} {e : Encoder} (he : e.err = none) (h0 : 0 ≤ e.depth) {v : GV} (hv : Clean (e.cfg ji) v)
    {w : Bytes → Option Err} (hw : ∀ b, w b = none) : ∃ d, e.depth ≤ d ∧
    ((∃ x, meaning (e.cfg ji) v = .doc x ∧ DocOk x ∧ d = e.depth ∧
      e.encode ji v w = .done { e with ind := e.ind.map fun i => (i.1, d) } none [render (styleOf (e.cfg ji)) e.depth.toNat x ++ [0x0a]]) ∨
    (∃ x, meaning (e.cfg ji) v = .err x ∧ e.encode ji v w = .done { e with ind := e.ind.map fun i => (i.1, d) } (some x) [])) := by
  have hd := enc_does (e.cfg ji) v
  have hf := clean_fine (e.cfg ji) v hv
  have ho := meaning_ok (e.cfg ji) v hv
  have hr := rises_enc (e.cfg ji) v hv
  have hn : e.depth = (e.depth.toNat : Int) := by omega
  cases hm : meaning (e.cfg ji) v with
  | wild => rw [hm] at hf; exact absurd hf id
  | doc x =>
    rw [hm] at hd ho
    have hs := hd [] e.depth e.depth.toNat (fun _ => hn)
    refine ⟨e.depth, Int.le_refl _, .inl ⟨x, rfl, ho x rfl, rfl, ?_⟩⟩
    unfold Encoder.encode
    simp only [he, hs, hw, List.nil_append]
  | err x =>
    rw [hm] at hd
    obtain ⟨b', d', hs, _⟩ := hd [] e.depth e.depth.toNat (fun _ => hn)
    refine ⟨d', hr _ _ _ _ _ h0 hs, .inr ⟨x, rfl, ?_⟩⟩
    unfold Encoder.encode
    simp only [he, hs]

theorem plainCalls_level {ji : Bytes → Bytes → Bytes → Option Bytes} {d : Int} : ∀ (cs : List EncCall) (e : Encoder),
    PlainCalls ji e cs → PlainCalls ji { e with ind := e.ind.map fun i => (i.1, d) } cs
  | [], _, _ => trivial
  | .set s :: cs, e, h => by
    refine ⟨h.1, ?_⟩
    cases s with
    | indent pre indent => exact h.2
    | colors c => exact plainCalls_level cs (e.set (.colors c)) h.2
    | escapeHTML on => exact plainCalls_level cs (e.set (.escapeHTML on)) h.2
    | sortMapKeys on => exact plainCalls_level cs (e.set (.sortMapKeys on)) h.2
    | trustRawMessage on => exact plainCalls_level cs (e.set (.trustRawMessage on)) h.2
  | .encode v w :: cs, e, h => ⟨by rw [cfg_level]; exact h.1, h.2.1, plainCalls_level cs e h.2.2⟩

theorem stream_ws {vs : List (Json × Bytes)} {tl b w : Bytes} (hw : Ws w) (h : Stream vs tl b) : Stream vs tl (w ++ b) := by
  cases h with
  | nil w' tl hw' =>
    rw [← List.append_assoc]
    exact .nil _ _ fun c hc => (List.mem_append.1 hc).elim (hw c) (hw' c)
  | cons w' v j vs tl b hw' hv hb hs =>
    rw [← List.append_assoc, ← List.append_assoc]
    exact .cons _ v j vs tl b (fun c hc => (List.mem_append.1 hc).elim (hw c) (hw' c)) hv hb hs

theorem ws_newline : Ws [0x0a] := by intro c hc; rw [List.mem_singleton.1 hc]; exact .lf

/-- Values each followed by a newline are a stream. -/
theorem stream_lines : ∀ vs : List (Json × Bytes), (∀ x ∈ vs, Derives (.value x.1) x.2) →
    Stream vs [] (vs.map fun x => x.2 ++ [0x0a]).flatten
  | [], _ => .nil [] [] ws_nil
  | (j, v) :: vs, h => by
    have ih := stream_ws ws_newline (stream_lines vs fun x hx => h x (by simp [hx]))
    have := Stream.cons [] v j vs [] _ ws_nil (h (j, v) (by simp)) (.inr ⟨0x0a, _, rfl, .lf⟩) ih
    simpa using this

/-- What a run of plain calls writes: JSON values, each with a newline. -/
theorem plain_run {ji : Bytes → Bytes → Bytes → Option Bytes} : ∀ (cs : List EncCall) (e : Encoder), PlainEncoder e → PlainCalls ji e cs →
    ∃ e' rs, ∃ vs : List (Json × Bytes), e.run ji cs = some (e', rs) ∧ PlainEncoder e' ∧ writes rs = vs.map (fun x => x.2 ++ [0x0a]) ∧
      ∀ x ∈ vs, Derives (.value x.1) x.2
  | [], e, h, _ => ⟨e, [], [], rfl, h, rfl, by simp⟩
  | .set s :: cs, e, h, hc => by
    obtain ⟨e', rs, vs, h1, h2, h3, h4⟩ := plain_run cs (e.set s) (plain_set h hc.1) hc.2
    exact ⟨e', _, vs, by simp only [Encoder.run, Encoder.call, h1]; rfl, h2, by simpa [writes] using h3, h4⟩
  | .encode v w :: cs, e, h, hc => by
    obtain ⟨d, hd, hx⟩ := plain_encode h.err (plain_depth h) hc.1 hc.2.1
    obtain ⟨e', rs, vs, h1, h2, h3, h4⟩ := plain_run cs { e with ind := e.ind.map fun i => (i.1, d) } (plain_level h hd) (plainCalls_level cs e hc.2.2)
    rcases hx with ⟨x, _, hx, _, he⟩ | ⟨x, _, he⟩
    · refine ⟨e', _, (jsonOf x, render (styleOf (e.cfg ji)) e.depth.toNat x) :: vs, by simp only [Encoder.run, Encoder.call, he, h1]; rfl, h2, ?_, ?_⟩
      · simp only [writes, List.flatMap_cons, List.map_cons] at h3 ⊢; rw [h3]; rfl
      · intro y hy
        rcases List.mem_cons.1 hy with rfl | hy
        · exact render_derives (wsStyle_of h.clrs (plain_layout h ji)) _ x hx
        · exact h4 y hy
    · exact ⟨e', _, vs, by simp only [Encoder.run, Encoder.call, he, h1]; rfl, h2, by simpa [writes] using h3, h4⟩

theorem isNum_text {j : Json} {v : Bytes} (h : Derives (.value j) v) (hj : IsNum j) : JNumber v := by
  cases j with
  | num t => cases h; assumption
  | _ => exact absurd hj id

theorem fits_stream {ws : List Bytes} (h : FitsBuffer ws) {vs : List (Json × Bytes)} (e : ws = vs.map (fun x => x.2 ++ [0x0a]))
    (hv : ∀ x ∈ vs, Derives (.value x.1) x.2) : ws.flatten.length ≤ 32768 ∨ (∀ x ∈ vs, ¬ IsNum x.1) ∧ ¬ QuoteThenU ws.flatten := by
  refine h.imp id fun h => ⟨fun x hx hn => ?_, h.2⟩
  exact h.1 x.2 (by rw [e]; exact List.mem_map.2 ⟨x, hx, rfl⟩) (isNum_text (hv x hx) hn)

/-- **C89** (partial: for output longer than the first buffer, no number at the top level and no `\u` escape behind a
`\"`; see `C89_fails_number` and `C89_fails_escape` for the full statement) Whatever is encoded, with whatever settings
and whether or not calls fail: no call panics, and a `Decoder` reading what was written finds the texts that the
successful calls wrote, one by one without their newlines, and then `io.EOF`. -/
theorem C89_texts_partial (ji : Bytes → Bytes → Bytes → Option Bytes) (e : Encoder) (he : PlainEncoder e) (cs : List EncCall) (hc : PlainCalls ji e cs) :
    ∃ e' rs, ∃ vs : List (Json × Bytes), e.run ji cs = some (e', rs) ∧ writes rs = vs.map (fun x => x.2 ++ [0x0a]) ∧
      (FitsBuffer (writes rs) → ∀ k, ((newDecoder ⟨[((writes rs).flatten, .eof)], .eof⟩).calls (vs.length + k)).1 =
          vs.map (fun x => RV.ok x.2) ++ List.replicate k (.err .eof)) := by
  obtain ⟨e', rs, vs, h1, _, h3, h4⟩ := plain_run cs e he hc
  refine ⟨e', rs, vs, h1, h3, fun hs k => ?_⟩
  have := stream_lines vs h4
  rw [← h3] at this
  exact C31_stream_partial this (fits_stream hs h3 h4) k

/-- **C89** What is written is always a stream of JSON values, one per successful call, so that other readers
of such streams can read it. -/
theorem C89_stream (ji : Bytes → Bytes → Bytes → Option Bytes) (e : Encoder) (he : PlainEncoder e) (cs : List EncCall) (hc : PlainCalls ji e cs) :
    ∃ e' rs, ∃ vs : List (Json × Bytes), e.run ji cs = some (e', rs) ∧ Stream vs [] (writes rs).flatten ∧ vs.map (fun x => x.2 ++ [0x0a]) = writes rs := by
  obtain ⟨e', rs, vs, h1, _, h3, h4⟩ := plain_run cs e he hc
  have := stream_lines vs h4
  rw [← h3] at this
  exact ⟨e', rs, vs, h1, this, h3.symm⟩

/-! ### Values -/

theorem sent_doc {dc : DCfg} {x : Sent} (h : x.Ok dc) {c : Cfg} (hc : c.clrs = none) (m : Nat) :
    ∃ d, meaning c x.g = .doc d ∧ DocOk d ∧ decJN dc m x.t (jsonOf d) (zero x.t) = some (clip x.v) := by
  have key : ∀ dyn dynJ, decJN dc m x.t = decJ dc dyn dynJ x.t → ∃ d, meaning c x.g = .doc d ∧ DocOk d ∧ decJN dc m x.t (jsonOf d) (zero x.t) = some (clip x.v) := by
    intro dyn dynJ e
    obtain ⟨d, h1, h2, h3, _⟩ := seen_back hc dc dyn dynJ x.t x.v x.g h.2
    exact ⟨d, h1, h2, by rw [e]; exact h3⟩
  cases m with
  | zero => exact key _ _ rfl
  | succ m => exact key _ _ rfl

/-- Encoding the values one after the other. -/
def sendAll (xs : List Sent) : List EncCall := xs.map fun x => .encode x.g fun _ => none

theorem sent_run {ji : Bytes → Bytes → Bytes → Option Bytes} {dc : DCfg} (hl : LibOk dc.lib) (m : Nat) {e : Encoder} (h : PlainEncoder e) :
    ∀ xs : List Sent, (∀ x ∈ xs, x.Ok dc) →
    ∃ rs, ∃ vs : List (Json × Bytes), e.run ji (sendAll xs) = some (e, rs) ∧ (∀ r ∈ rs, r.1 = none) ∧ writes rs = vs.map (fun x => x.2 ++ [0x0a]) ∧
      (∀ y ∈ vs, Derives (.value y.1) y.2) ∧ Pairs (fun x y => unmarshal dc m x.t y.2 (zero x.t) = .done (clip x.v) none) xs vs
  | [], _ => ⟨[], [], rfl, by simp, rfl, by simp, trivial⟩
  | x :: xs, hx => by
    obtain ⟨rs, vs, h1, h2, h3, h4, h5⟩ := sent_run (ji := ji) hl m h xs fun y hy => hx y (by simp [hy])
    obtain ⟨d, d1, d2, d3⟩ := sent_doc (hx x (by simp)) (c := e.cfg ji) h.clrs m
    have hd := enc_does (e.cfg ji) x.g
    rw [d1] at hd
    have hn : e.depth = (e.depth.toNat : Int) := by have := (plain_depth h); omega
    have hs := hd [] e.depth e.depth.toNat (fun _ => hn)
    have hv := render_derives (wsStyle_of h.clrs (plain_layout h ji)) e.depth.toNat d d2
    have hi : (e.ind.map fun i => (i.1, e.depth)) = e.ind := by
      cases hi : e.ind with
      | none => rfl
      | some i => simp [Encoder.depth, hi]
    have he : e.encode ji x.g (fun _ => none) = .done e none [render (styleOf (e.cfg ji)) e.depth.toNat d ++ [0x0a]] := by
      unfold Encoder.encode
      simp only [h.err, hs, List.nil_append, hi]
      have := h.err
      cases e; simp only at this; subst this; rfl
    refine ⟨(none, [render (styleOf (e.cfg ji)) e.depth.toNat d ++ [0x0a]]) :: rs, (jsonOf d, render (styleOf (e.cfg ji)) e.depth.toNat d) :: vs, ?_, ?_, ?_, ?_, ?_⟩
    · show Encoder.run ji e (.encode x.g (fun _ => none) :: sendAll xs) = _
      simp only [Encoder.run, Encoder.call, he, h1]
    · intro r hr
      rcases List.mem_cons.1 hr with rfl | hr
      · rfl
      · exact h2 r hr
    · simp only [writes, List.flatMap_cons, List.map_cons] at h3 ⊢; rw [h3]; rfl
    · intro y hy
      rcases List.mem_cons.1 hy with rfl | hy
      · exact hv
      · exact h4 y hy
    · exact ⟨(unmarshal_tree hl (hx x (by simp)).1 (jtext_of_value hv) (held_zero _ _ _) _).2 d3, h5⟩

theorem good_decodes {dc : DCfg} {m : Nat} (k : Nat) (t0 : Ty) (p0 : DV) : ∀ (xs : List Sent) (vs : List (Json × Bytes)) (s : SDec), Good .eof vs [] s →
    Pairs (fun (x : Sent) y => unmarshal dc m x.t y.2 (zero x.t) = .done (clip x.v) none) xs vs →
    s.decodes dc m (xs.map (fun x => (x.t, zero x.t)) ++ List.replicate k (t0, p0)) =
      xs.map (fun x => URes.done (clip x.v) none) ++ List.replicate k (.done p0 (some .eof))
  | [], [], s, hg, _ => by
    simp only [List.map_nil, List.nil_append]
    induction k generalizing s with
    | zero => rfl
    | succ k ih =>
      obtain ⟨s', h1, h2⟩ := good_end s hg
      simp only [List.replicate_succ, SDec.decodes]
      have : s.decode dc m t0 p0 = (.done p0 (some .eof), s') := by unfold SDec.decode; rw [h1]; rfl
      rw [this]
      simp only [ih s' h2]
  | x :: xs, (j, v) :: vs, s, hg, hf => by
    obtain ⟨h1, h2⟩ := hf
    obtain ⟨s', hs, hg'⟩ := good_ok s hg
    obtain ⟨d1, d2, _, _⟩ := decode_ok (c := dc) (n := m) (t := x.t) (p := zero x.t) hs
    simp only [List.map_cons, List.cons_append, SDec.decodes]
    rw [d2 _ h1, d1, good_decodes k t0 p0 xs vs s' hg' h2]
  | [], _ :: _, _, _, hf => absurd hf id
  | _ :: _, [], _, _, hf => absurd hf id

/-- **C89** (partial in the same way) Values of any supported types, encoded one after the other by an `Encoder` with any layout,
come back one by one from a `Decoder` that is given a zero variable of the type for each, and every call after the last value
returns `io.EOF` and leaves its variable alone. -/
theorem C89_roundtrip_partial (ji : Bytes → Bytes → Bytes → Option Bytes) (dc : DCfg) (hl : LibOk dc.lib) (m : Nat) (e : Encoder) (he : PlainEncoder e)
    (xs : List Sent) (hx : ∀ x ∈ xs, x.Ok dc) : ∃ rs, e.run ji (sendAll xs) = some (e, rs) ∧ (∀ r ∈ rs, r.1 = none) ∧
    (FitsBuffer (writes rs) → ∀ k t p, (newDecoder ⟨[((writes rs).flatten, .eof)], .eof⟩).decodes dc m
      (xs.map (fun x => (x.t, zero x.t)) ++ List.replicate k (t, p)) =
        xs.map (fun x => .done (clip x.v) none) ++ List.replicate k (.done p (some .eof))) := by
  obtain ⟨rs, vs, h1, h2, h3, h4, h5⟩ := sent_run (ji := ji) hl m he xs hx
  refine ⟨rs, h1, h2, fun hs k t p => ?_⟩
  have := stream_lines vs h4
  rw [← h3] at this
  refine good_decodes k t p xs vs _ (good_new this rfl ?_) h5
  rcases fits_stream hs h3 h4 with hf | ⟨h1, h2⟩
  · exact .inl ⟨hf, fun h => absurd rfl h⟩
  · exact .inr ⟨h1, h2, fun p q e hp => absurd (List.append_eq_nil_iff.1 e.symm).1 hp⟩

/-! ### C29 again -/

/-- **C29** (partial: clean values, and a writer that takes everything; now with values that cannot be encoded and with an
Indenter) After any sequence of `Encode` calls, failed ones included, the encoder is what it was but for the level of its
Indenter, which is the same or deeper; so a later call returns what it would have at the start, and writes the
same document in the same style, only further to the right. -/
theorem C29_level_partial (ji : Bytes → Bytes → Bytes → Option Bytes) : ∀ (vs : List GV) (e : Encoder), e.err = none → 0 ≤ e.depth →
    (∀ v ∈ vs, Clean (e.cfg ji) v) → ∃ d rs, e.depth ≤ d ∧
      e.run ji (vs.map fun v => .encode v fun _ => none) = some ({ e with ind := e.ind.map fun i => (i.1, d) }, rs) ∧
      ∀ v, Clean (e.cfg ji) v → ∃ e0 e1 r ws0 ws1, e.encode ji v (fun _ => none) = .done e0 r ws0 ∧
        ({ e with ind := e.ind.map fun i => (i.1, d) } : Encoder).encode ji v (fun _ => none) = .done e1 r ws1 ∧
        ((∃ x, meaning (e.cfg ji) v = .doc x ∧ ws0 = [render (styleOf (e.cfg ji)) e.depth.toNat x ++ [0x0a]] ∧
          ∃ n, (e.ind.isSome → n = d.toNat) ∧ ws1 = [render (styleOf (e.cfg ji)) n x ++ [0x0a]]) ∨ ws0 = [] ∧ ws1 = []) := by
  have later : ∀ (e : Encoder) (d : Int), e.err = none → 0 ≤ e.depth → e.depth ≤ d → ∀ v, Clean (e.cfg ji) v →
      ∃ e0 e1 r ws0 ws1, e.encode ji v (fun _ => none) = .done e0 r ws0 ∧
        ({ e with ind := e.ind.map fun i => (i.1, d) } : Encoder).encode ji v (fun _ => none) = .done e1 r ws1 ∧
        ((∃ x, meaning (e.cfg ji) v = .doc x ∧ ws0 = [render (styleOf (e.cfg ji)) e.depth.toNat x ++ [0x0a]] ∧
          ∃ n, (e.ind.isSome → n = d.toNat) ∧ ws1 = [render (styleOf (e.cfg ji)) n x ++ [0x0a]]) ∨ ws0 = [] ∧ ws1 = []) := by
    intro e d h1 h2 h3 v hv
    have h4 : 0 ≤ ({ e with ind := e.ind.map fun i => (i.1, d) } : Encoder).depth := by
      simp only [Encoder.depth]; cases e.ind <;> simp; omega
    obtain ⟨d0, _, hx0⟩ := plain_encode h1 h2 hv (w := fun _ => none) (fun _ => rfl)
    obtain ⟨d1, _, hx1⟩ := plain_encode (e := { e with ind := e.ind.map fun i => (i.1, d) }) h1 h4
      (by rw [cfg_level]; exact hv) (w := fun _ => none) (fun _ => rfl)
    rw [cfg_level] at hx1
    rcases hx0 with ⟨x, m0, _, _, e0⟩ | ⟨x, m0, e0⟩ <;> rcases hx1 with ⟨y, m1, _, _, e1⟩ | ⟨y, m1, e1⟩
    · rw [m0] at m1; cases m1
      refine ⟨_, _, _, _, _, e0, e1, .inl ⟨x, m0, rfl, _, ?_, rfl⟩⟩
      intro hi
      cases hx : e.ind with
      | none => rw [hx] at hi; cases hi
      | some i => simp [Encoder.depth, hx]
    · rw [m0] at m1; cases m1
    · rw [m0] at m1; cases m1
    · rw [m0] at m1; cases m1
      exact ⟨_, _, _, _, _, e0, e1, .inr ⟨rfl, rfl⟩⟩
  have same : ∀ e : Encoder, ({ e with ind := e.ind.map fun i => (i.1, e.depth) } : Encoder) = e := by
    intro e
    have : (e.ind.map fun i => (i.1, e.depth)) = e.ind := by
      cases hi : e.ind with
      | none => rfl
      | some i => simp [Encoder.depth, hi]
    rw [this]
  intro vs
  induction vs with
  | nil => intro e h1 h2 _; exact ⟨e.depth, [], Int.le_refl _, by rw [same]; rfl, later e _ h1 h2 (Int.le_refl _)⟩
  | cons v vs ih =>
    intro e h1 h2 hv
    obtain ⟨d0, hd0, hx0⟩ := plain_encode h1 h2 (hv v (by simp)) (w := fun _ => none) (fun _ => rfl)
    have h4 : 0 ≤ ({ e with ind := e.ind.map fun i => (i.1, d0) } : Encoder).depth := by
      simp only [Encoder.depth]; cases e.ind <;> simp; omega
    obtain ⟨d, rs, hd, hr, _⟩ := ih { e with ind := e.ind.map fun i => (i.1, d0) } h1 h4
      (fun x hx => by rw [cfg_level]; exact hv x (by simp [hx]))
    have hee : (e.ind.map fun i => (i.1, d0)).map (fun i => (i.1, d)) = e.ind.map fun i => (i.1, d) := by cases e.ind <;> rfl
    simp only [hee] at hr
    by_cases hn : e.ind = none
    · refine ⟨e.depth, ?_⟩
      rw [hn] at hr hx0
      obtain ⟨r, ws, he⟩ : ∃ r ws, e.encode ji v (fun _ => none) = .done { e with ind := none } r ws := by
        rcases hx0 with ⟨x, _, _, _, h⟩ | ⟨x, _, h⟩ <;> exact ⟨_, _, h⟩
      refine ⟨(r, ws) :: rs, Int.le_refl _, ?_, later e _ h1 h2 (Int.le_refl _)⟩
      rw [same]
      simp only [List.map_cons, Encoder.run, Encoder.call, he]
      simp only [Option.map_none] at hr
      have heq : ({ e with ind := none } : Encoder) = e := by cases e; simp only at hn; subst hn; rfl
      rw [heq] at hr ⊢
      rw [hr]
    · have hdd : d0 ≤ d := by
        cases hi : e.ind with
        | none => exact absurd hi hn
        | some i => simp only [Encoder.depth, hi, Option.map_some, Option.getD_some] at hd; exact hd
      obtain ⟨r, ws, he⟩ : ∃ r ws, e.encode ji v (fun _ => none) = .done { e with ind := e.ind.map fun i => (i.1, d0) } r ws := by
        rcases hx0 with ⟨x, _, _, _, h⟩ | ⟨x, _, h⟩ <;> exact ⟨_, _, h⟩
      refine ⟨d, (r, ws) :: rs, by omega, ?_, later e _ h1 h2 (by omega)⟩
      simp only [List.map_cons, Encoder.run, Encoder.call, he, hr]

/-- A failed call leaves the level 1 higher; the next text is further to the right. -/
example : (({ newEncoder with ind := some (newIndenter [] [0x20], 0) } : Encoder).run (fun _ _ _ => none)
      [.encode (.slice [.unsupported]) (fun _ => none)]).map (fun x => x.1.depth) = some 1 ∧
    answers (newEncoder.set (.indent [] [0x20])) [.slice [.unsupported], .slice [.nil]] =
      some [(some .unsupportedType, []), (none, [bs! "[\n  null\n ]\n"])] := by decide +kernel

/-! ### Concrete cases -/

theorem texts_of {ws : List Bytes} {vs : List (Json × Bytes)} (h : ws = vs.map (fun x => x.2 ++ [0x0a])) : vs.map (·.2) = ws.map List.dropLast := by
  subst h; simp

/-- A failed call, a change of layout and two values: the `Decoder` finds the two. -/
example : ∃ e' rs, newEncoder.run (fun _ _ _ => none) [.encode (.slice [.int 1, .unsupported]) (fun _ => none), .encode (.slice [.int 1]) (fun _ => none),
      .set (.indent [] [0x20]), .encode (.slice [.nil]) (fun _ => none)] = some (e', rs) ∧ writes rs = [bs! "[1]\n", bs! "[\n null\n]\n"] ∧
    ((newDecoder ⟨[((writes rs).flatten, .eof)], .eof⟩).calls 3).1 = [.ok (bs! "[1]"), .ok (bs! "[\n null\n]"), .err .eof] := by
  obtain ⟨e', rs, vs, h1, h2, h3⟩ := C89_texts_partial (fun _ _ _ => none) newEncoder newEncoder_plain
      [.encode (.slice [.int 1, .unsupported]) (fun _ => none), .encode (.slice [.int 1]) (fun _ => none),
        .set (.indent [] [0x20]), .encode (.slice [.nil]) (fun _ => none)]
      (by simp [PlainCalls, PlainSetting, Clean, CleanL, ws_nil, ws_space])
  have h4 : (newEncoder.run (fun _ _ _ => none) [.encode (.slice [.int 1, .unsupported]) (fun _ => none), .encode (.slice [.int 1]) (fun _ => none),
    .set (.indent [] [0x20]), .encode (.slice [.nil]) (fun _ => none)]).map (fun x => writes x.2) = some [bs! "[1]\n", bs! "[\n null\n]\n"] := by decide +kernel
  rw [h1] at h4
  simp only [Option.map_some, Option.some.injEq] at h4
  refine ⟨e', rs, h1, h4, ?_⟩
  rw [h4] at h2 h3 ⊢
  have h5 := h3 (.inl (by decide)) 1
  have h6 := texts_of h2
  have h7 : vs.length = 2 := by have := congrArg List.length h2; simpa using this.symm
  have h8 : vs.map (fun x => RV.ok x.2) = (vs.map (·.2)).map RV.ok := by simp
  rw [h7, h8, h6] at h5
  exact h5

/-- An integer and a string, sent and received. -/
example (ji : Bytes → Bytes → Bytes → Option Bytes) : ∃ rs, newEncoder.run ji (sendAll [⟨.int .int, .int 12, .int 12⟩, ⟨.string, .string (bs! "é"), .string (bs! "é")⟩]) = some (newEncoder, rs) ∧
    (newDecoder ⟨[((writes rs).flatten, .eof)], .eof⟩).decodes { lib := noLib } 0 [(.int .int, .int 0), (.string, .string []), (.bool, .bool true)] =
      [.done (.int 12) none, .done (.string (bs! "é")) none, .done (.bool true) (some .eof)] := by
  obtain ⟨rs, h1, _, h3⟩ := C89_roundtrip_partial ji { lib := noLib } noLib_ok 0 newEncoder newEncoder_plain
    [⟨.int .int, .int 12, .int 12⟩, ⟨.string, .string (bs! "é"), .string (bs! "é")⟩] (by
      intro x hx
      simp only [List.mem_cons, List.not_mem_nil, or_false] at hx
      rcases hx with rfl | rfl
      · exact ⟨trivial, _, by simp [KindFits, FitsSigned], rfl, rfl⟩
      · exact ⟨trivial, _, coerced_iff.2 (by decide +kernel), rfl, rfl⟩)
  have hf : FitsBuffer (writes rs) := .inl ?_
  · have h5 := h3 hf 1 .bool (.bool true)
    simp only [List.map_cons, List.map_nil, List.replicate, List.cons_append, List.nil_append, zero, clip] at h5
    exact ⟨rs, h1, h5⟩
  have : (newEncoder.run ji (sendAll [⟨.int .int, .int 12, .int 12⟩, ⟨.string, .string (bs! "é"), .string (bs! "é")⟩])).map (fun x => writes x.2) = some [bs! "12\n", bs! "\"é\"\n"] := by
    with_unfolding_all rfl
  rw [h1] at this
  simp only [Option.map_some, Option.some.injEq] at this
  rw [this]
  decide

/-! ### Where it fails -/

/-- Full statement of C89: as `C89_roundtrip_partial`, for output of any length. -/
def C89_statement : Prop := ∀ (ji : Bytes → Bytes → Bytes → Option Bytes) (dc : DCfg) (m : Nat) (e : Encoder) (xs : List Sent), LibOk dc.lib →
  PlainEncoder e → (∀ x ∈ xs, x.Ok dc) → ∃ rs, e.run ji (sendAll xs) = some (e, rs) ∧
    (newDecoder ⟨[((writes rs).flatten, .eof)], .eof⟩).decodes dc m (xs.map fun x => (x.t, zero x.t)) = xs.map fun x => .done (clip x.v) none

theorem encLoop_as (html : Bool) : ∀ (n : Nat) (t : Bytes), encLoop html [] (List.replicate n 0x61 ++ t) = List.replicate n 0x61 ++ encLoop html [] t
  | 0, _ => rfl
  | n + 1, t => by
    rw [List.replicate_succ, List.cons_append, encLoop_plain (by cases html <;> decide), encLoop_as html n t, List.cons_append]

theorem jchars_as : ∀ n : Nat, JChars (List.replicate n 0x61)
  | 0 => .nil
  | n + 1 => by
    rw [List.replicate_succ]
    exact .plain _ _ (by decide) (by decide) (by decide) (jchars_as n)

/-- `"aaa..."` -/
def asText (n : Nat) : Bytes := 0x22 :: (List.replicate n 0x61 ++ [0x22])

theorem as_derives (n : Nat) : Derives (.value (.str (asText n))) (asText n) := .str _ (.mk _ (jchars_as n))

theorem as_encode (ji : Bytes → Bytes → Bytes → Option Bytes) (n : Nat) :
    newEncoder.encode ji (.string (List.replicate n 0x61)) (fun _ => none) = .done newEncoder none [asText n ++ [0x0a]] := by
  have h := encLoop_as true n []
  rw [List.append_nil] at h
  have e : enc (newEncoder.cfg ji) (.string (List.replicate n 0x61)) [] newEncoder.depth = .done (asText n) newEncoder.depth none := by
    have h2 : encLoop true [] [] = [] := by rw [encLoop]
    simp only [enc, encodeString, colored, encStr, Encoder.cfg, newEncoder, doEncodeString, h, asText, h2, List.nil_append, List.append_nil]
  unfold Encoder.encode
  rw [e]
  rfl

theorem coerced_as : ∀ n : Nat, Coerced (List.replicate n 0x61) (List.replicate n 0x61)
  | 0 => ⟨[], .nil, rfl⟩
  | n + 1 => by
    obtain ⟨rs, h1, h2⟩ := coerced_as n
    refine ⟨0x61 :: rs, ?_, ?_⟩
    · exact .rune 0x61 _ rs (by unfold Scalar; decide) h1
    · rw [List.replicate_succ]
      show _ = utf8 0x61 ++ utf8s rs
      rw [← h2]; rfl

/-- The decoder behind a long string: what is left of its first buffer. -/
theorem behind_as {n : Nat} {x y : Bytes} (hl : n + 3 + x.length = 32768) (hx : skipSpaces x = x) :
    ∃ s, (newDecoder ⟨[(asText n ++ [0x0a] ++ x ++ y, .eof)], .eof⟩).readValue = (.ok (asText n), s) ∧ s.WF ∧ s.remain = x ∧ s.reader = ⟨[(y, .eof)], .eof⟩ := by
  obtain ⟨h1, h2, h3, h4, h5, h6⟩ := first_fill (b := asText n ++ [0x0a] ++ x ++ y) (w := []) (x := asText n ++ [0x0a] ++ x) (y := y) (e := .eof) (by simp) ws_nil
    (by simp [asText]; omega)
  have hr : skipSpaces (asText n ++ [0x0a] ++ x) = asText n ++ (0x0a :: x) := by
    simp only [asText, List.append_assoc, List.cons_append]
    rfl
  rw [hr] at h2
  have hp := parseValue_complete (as_derives n) (r := 0x0a :: x) trivial
  rw [h6, readValue_ok (by rw [h2]; simp [asText]) (by rw [h2]; exact hp)]
  have ha := fun o => after_ok h1 h2 (o := o)
  have hx' : skipSpaces (0x0a :: x) = x := by
    have := skipSpaces_ws_append ws_newline x
    rw [hx] at this; exact this
  rw [hx'] at ha ⊢
  generalize (newDecoder ⟨[(asText n ++ [0x0a] ++ x ++ y, .eof)], .eof⟩).refill = s0 at *
  exact ⟨_, rfl, (ha _).1, (ha _).2, h3⟩

/-- A long string and a value behind it, sent and received: where the first buffer ends in the second value. -/
theorem second_decode {n : Nat} {x y : Bytes} (hl : n + 3 + x.length = 32768) (hx : skipSpaces x = x) (t : Ty) :
    ∃ s : SDec, s.WF ∧ s.remain = x ∧ s.reader = ⟨[(y, .eof)], .eof⟩ ∧
    ((newDecoder ⟨[(asText n ++ [0x0a] ++ x ++ y, .eof)], .eof⟩).decodes { lib := noLib } 0 [(.string, .string []), (t, zero t)])[1]? =
      some (s.decode { lib := noLib } 0 t (zero t)).1 := by
  obtain ⟨s, h1, h2, h3, h4⟩ := behind_as (y := y) hl hx
  refine ⟨s, h2, h3, h4, ?_⟩
  generalize newDecoder ⟨[(asText n ++ [0x0a] ++ x ++ y, .eof)], .eof⟩ = s0 at *
  have hd := (decode_ok (c := { lib := noLib }) (n := 0) (t := .string) (p := .string []) h1).1
  simp only [SDec.decodes, hd, List.getElem?_cons_succ, List.getElem?_cons_zero]

theorem sent_as (n : Nat) : Sent.Ok { lib := noLib } ⟨.string, .string (List.replicate n 0x61), .string (List.replicate n 0x61)⟩ :=
  ⟨trivial, _, coerced_as n, rfl, rfl⟩

theorem unmarshal_one : unmarshal { lib := noLib } 0 (.int .int) (bs! "1") (zero (.int .int)) = .done (.int 1) none := by
  obtain ⟨out, h1, h2⟩ := C38_marshal_partial { lib := noLib } noLib_ok 0 (t := .int .int) trivial (v := .int 1) (g := .int 1)
    ⟨_, by simp [KindFits, FitsSigned], rfl, rfl⟩
  have e : marshal (.int 1) = some (.ok (bs! "1")) := by with_unfolding_all rfl
  rw [e] at h1
  cases h1
  exact h2

/-- What is sent: a string of 32764 letters, and the integer 12. -/
def longAnd12 : List Sent := [⟨.string, .string (List.replicate 32764 0x61), .string (List.replicate 32764 0x61)⟩, ⟨.int .int, .int 12, .int 12⟩]

/-- **C89** fails: the integer 12, sent behind a long string, comes back as 1 without an error. -/
theorem C89_fails_number (ji : Bytes → Bytes → Bytes → Option Bytes) : (∀ x ∈ longAnd12, x.Ok { lib := noLib }) ∧
    ∃ rs, newEncoder.run ji (sendAll longAnd12) = some (newEncoder, rs) ∧
      ((newDecoder ⟨[((writes rs).flatten, .eof)], .eof⟩).decodes { lib := noLib } 0 (longAnd12.map fun x => (x.t, zero x.t)))[1]? =
        some (.done (.int 1) none) := by
  constructor
  · intro x hx
    simp only [longAnd12, List.mem_cons, List.not_mem_nil, or_false] at hx
    rcases hx with rfl | rfl
    · exact sent_as _
    · exact ⟨trivial, _, by simp [KindFits, FitsSigned], rfl, rfl⟩
  · have h2 : newEncoder.encode ji (.int 12) (fun _ => none) = .done newEncoder none [bs! "12\n"] := by with_unfolding_all rfl
    refine ⟨[(none, [asText 32764 ++ [0x0a]]), (none, [bs! "12\n"])], ?_, ?_⟩
    · simp only [longAnd12, sendAll, List.map_cons, List.map_nil, Encoder.run, Encoder.call, as_encode, h2]
    · obtain ⟨s, h3, h4, h5, h6⟩ := second_decode (n := 32764) (x := bs! "1") (y := bs! "2\n") rfl (by decide) (.int .int)
      have e : (writes [(none, [asText 32764 ++ [0x0a]]), (none, [bs! "12\n"])]).flatten = asText 32764 ++ [0x0a] ++ bs! "1" ++ bs! "2\n" := by
        simp only [writes, List.flatMap_cons, List.flatMap_nil, List.append_nil, List.flatten_cons, List.flatten_nil, List.append_assoc, List.cons_append, List.nil_append]
      rw [e]
      simp only [longAnd12, List.map_cons, List.map_nil]
      rw [show zero .string = .string [] from rfl]
      rw [h6]
      have hr := readValue_ok (s := s) (v := bs! "1") (r := []) (by rw [h4]; decide) (by rw [h4]; decide +kernel)
      exact congrArg some ((decode_ok hr).2.1 _ unmarshal_one)

theorem C89_fails : ¬ C89_statement := by
  intro h
  obtain ⟨ho, rs, h1, h2⟩ := C89_fails_number fun _ _ _ => none
  obtain ⟨rs', h3, h4⟩ := h (fun _ _ _ => none) { lib := noLib } 0 newEncoder longAnd12 noLib_ok newEncoder_plain ho
  rw [h1] at h3
  cases h3
  rw [h4] at h2
  simp only [longAnd12, List.map_cons, List.map_nil, List.getElem?_cons_succ, List.getElem?_cons_zero, clip] at h2
  cases h2

/-- What is sent: a string of 32759 letters, and the string `"<`. -/
def longAndLess : List Sent := [⟨.string, .string (List.replicate 32759 0x61), .string (List.replicate 32759 0x61)⟩, ⟨.string, .string (bs! "\"<"), .string (bs! "\"<")⟩]

/-- **C89** fails: the string `"<`, sent behind a long string, is taken for a syntax error. -/
theorem C89_fails_escape (ji : Bytes → Bytes → Bytes → Option Bytes) : (∀ x ∈ longAndLess, x.Ok { lib := noLib }) ∧
    ∃ rs, newEncoder.run ji (sendAll longAndLess) = some (newEncoder, rs) ∧
      ((newDecoder ⟨[((writes rs).flatten, .eof)], .eof⟩).decodes { lib := noLib } 0 (longAndLess.map fun x => (x.t, zero x.t)))[1]? =
        some (.done (.string []) (some .syntax)) := by
  constructor
  · intro x hx
    simp only [longAndLess, List.mem_cons, List.not_mem_nil, or_false] at hx
    rcases hx with rfl | rfl
    · exact sent_as _
    · exact ⟨trivial, _, coerced_iff.2 (by decide +kernel), rfl, rfl⟩
  · have h2 : newEncoder.encode ji (.string (bs! "\"<")) (fun _ => none) = .done newEncoder none [bs! "\"\\\"\\u003c\"\n"] := by with_unfolding_all rfl
    refine ⟨[(none, [asText 32759 ++ [0x0a]]), (none, [bs! "\"\\\"\\u003c\"\n"])], ?_, ?_⟩
    · simp only [longAndLess, sendAll, List.map_cons, List.map_nil, Encoder.run, Encoder.call, as_encode, h2]
    · obtain ⟨s, h3, h4, h5, h6⟩ := second_decode (n := 32759) (x := bs! "\"\\\"\\u0") (y := bs! "03c\"\n") rfl (by decide) .string
      have e : (writes [(none, [asText 32759 ++ [0x0a]]), (none, [bs! "\"\\\"\\u003c\"\n"])]).flatten = asText 32759 ++ [0x0a] ++ bs! "\"\\\"\\u0" ++ bs! "03c\"\n" := by
        simp only [writes, List.flatMap_cons, List.flatMap_nil, List.append_nil, List.flatten_cons, List.flatten_nil, List.append_assoc, List.cons_append, List.nil_append]
      rw [e]
      simp only [longAndLess, List.map_cons, List.map_nil]
      refine h6.trans ?_
      obtain ⟨r, hr, hp⟩ := parse_quoteU
      unfold SDec.decode
      rw [readValue_fail (r := r) (e := .syntax) (by rw [h4]; decide) (by rw [h4]; exact hp) hr]
      rfl

end JC.Props

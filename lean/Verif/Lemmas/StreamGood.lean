import Verif.Lemmas.Stream
import Verif.Lemmas.DecLoop
/-! What a `Decoder` does on a stream of values. -/
namespace JC
open Spec

/-! ### streams -/

theorem isSpace_of_ws {c : UInt8} (h : IsWs c) : isSpace c = true := by cases h <;> rfl
theorem ws_of_isSpace {c : UInt8} (h : isSpace c = true) : IsWs c := by
  have := skipSpaces_eq_nil (b := [c]) (by rw [skipSpaces_eq]; simp [h])
  exact this c (by simp)

theorem value_ne_nil {j : Json} {v : Bytes} (h : Derives (.value j) v) : v ≠ [] := by
  obtain ⟨c, t, rfl, _⟩ := derives_head h; simp

theorem stream_tail {vs : List (Json × Bytes)} {tl : Bytes} (ht : skipSpaces tl = tl) {c : UInt8} {b : Bytes} (hc : IsWs c)
    (h : Stream vs tl (c :: b)) : Stream vs tl b := by
  generalize hx : c :: b = x at h
  cases h with
  | nil w tl hw =>
    cases w with
    | nil =>
      simp at hx; subst hx
      have := skipSpaces_head (c :: b) c b ht
      rw [isSpace_of_ws hc] at this; cases this
    | cons d w =>
      injection hx with h1 h2
      subst h2
      exact .nil w tl (fun c hc => hw c (by simp [hc]))
  | cons w v j vs tl b' hw hv hb hs =>
    cases w with
    | nil =>
      have := skip_value hv b'
      rw [List.nil_append] at hx
      rw [← hx] at this
      have := skipSpaces_head (c :: b) c b this
      rw [isSpace_of_ws hc] at this; cases this
    | cons d w =>
      injection hx with h1 h2
      subst h2
      exact .cons w v j vs tl b' (fun c hc => hw c (by simp [hc])) hv hb hs

theorem stream_ws {vs : List (Json × Bytes)} {tl : Bytes} (ht : skipSpaces tl = tl) {w b : Bytes} (hw : Ws w)
    (h : Stream vs tl (w ++ b)) : Stream vs tl b := by
  induction w with
  | nil => exact h
  | cons c w ih => exact ih (fun c hc => hw c (by simp [hc])) (stream_tail ht (hw c (by simp)) h)

theorem stream_skip {vs : List (Json × Bytes)} {tl : Bytes} (ht : skipSpaces tl = tl) {x y : Bytes}
    (h : Stream vs tl (x ++ y)) : Stream vs tl (skipSpaces x ++ y) := by
  rw [← wsPrefix_append x, List.append_assoc] at h
  exact stream_ws ht (wsPrefix_ws x) h

theorem quoteThenU_suffix {p b : Bytes} (h : QuoteThenU b) : QuoteThenU (p ++ b) := by
  obtain ⟨x, y, z, rfl, h1⟩ := h
  exact ⟨p ++ x, y, z, by simp, h1⟩

theorem quoteThenU_skip {x y : Bytes} (h : QuoteThenU (skipSpaces x ++ y)) : QuoteThenU (x ++ y) := by
  have := quoteThenU_suffix (p := wsPrefix x) h
  rwa [← List.append_assoc, wsPrefix_append] at this

/-! ### readers that fail in the end only -/

/-- One piece of data, then the error `e` for ever. -/
def PlainR (e : Err) (r : Reader) : Prop := r.last = e ∧ (r.segs = [] ∨ ∃ d, r.segs = [(d, e)])

/-- The decoder takes `io.ErrUnexpectedEOF` of a reader for `io.EOF`. -/
def finErr (e : Err) : Err := if e = .unexpectedEOF then .eof else e

theorem readFull_plain {e : Err} {r : Reader} (h : PlainR e r) {n : Nat} (hn : 0 < n) :
    PlainR e (readFull n r).2.2 ∧ ((readFull n r).1 = [] → (readFull n r).2.1 = some e ∧ r.data = []) ∧
    (r.data.length ≤ n → (readFull n r).2.2.data = []) := by
  obtain ⟨h1, h2⟩ := h
  rcases h2 with h2 | ⟨d, h2⟩
  · have : readFull n r = ([], some r.last, r) := by unfold readFull; rw [h2]
    rw [this]
    refine ⟨⟨h1, .inl h2⟩, fun _ => ⟨by simp [h1], by simp [Reader.data, h2]⟩, fun _ => by simp [Reader.data, h2]⟩
  · unfold readFull
    rw [h2]
    simp only []
    split
    · rename_i hd
      refine ⟨⟨h1, .inr ⟨_, rfl⟩⟩, fun h => ?_, fun h => ?_⟩
      · simp at h
        rcases h with h | h
        · omega
        · subst h; simp at hd; omega
      · simp [Reader.data, h2] at h ⊢; omega
    · rename_i hd
      refine ⟨⟨h1, .inl rfl⟩, fun h => ?_, fun h => by simp [Reader.data]⟩
      simp at h
      subst h
      simp [Reader.data, h2]

/-! ### the state on a stream -/

structure Good (e : Err) (vs : List (Json × Bytes)) (tl : Bytes) (s : SDec) : Prop where
  wf : s.WF
  plain : PlainR e s.reader
  lead : skipSpaces s.remain = s.remain
  str : Stream vs tl (s.remain ++ s.reader.data)
  tail : skipSpaces tl = tl
  err : s.err = none ∨ s.err = some (finErr e) ∧ s.reader.data = []
  mode : ((s.reader.data = [] ∨ s.mem = none ∧ s.reader.data.length ≤ minBufferSize) ∧ (tl ≠ [] → parseValue tl = .fail [] .syntax)) ∨
    (∀ x ∈ vs, ¬ IsNum x.1) ∧ ¬ QuoteThenU (s.remain ++ s.reader.data) ∧ ∀ p q, tl = p ++ q → p ≠ [] → parseValue p = .fail [] .syntax

theorem good_refill {e : Err} {vs : List (Json × Bytes)} {tl : Bytes} {s : SDec} (h : Good e vs tl s) : Good e vs tl s.refill := by
  obtain ⟨h1, h2, h3, h4, h5, h6, h7⟩ := refill_spec h.wf
  obtain ⟨p1, p2, p3⟩ := readFull_plain h.plain h1
  have hd := readFull_data s.room s.reader
  refine ⟨h7, by rw [h3]; exact p1, by rw [h4, skipSpaces_idem], ?_, h.tail, ?_, ?_⟩
  · rw [h4, h3]
    apply stream_skip h.tail
    rw [List.append_assoc, ← hd]
    exact h.str
  · rw [h6, h3]
    by_cases hq : (readFull s.room s.reader).1 = []
    · right
      obtain ⟨q1, q2⟩ := p2 hq
      rw [if_neg (by simpa using hq), q1]
      refine ⟨?_, ?_⟩
      · simp [finErr]; split <;> rfl
      · rw [hd] at q2; exact (List.append_eq_nil_iff.1 q2).2
    · left; rw [if_pos hq]
  · rcases h.mode with ⟨ha, ht⟩ | ⟨hb, hc, ht⟩
    · left
      refine ⟨.inl ?_, ht⟩
      rw [h3]
      rcases ha with ha | ⟨ha, hl⟩
      · rw [ha] at hd; exact (List.append_eq_nil_iff.1 hd.symm).2
      · exact p3 (by rw [h2 ha]; exact hl)
    · right
      refine ⟨hb, fun hq => hc ?_, ht⟩
      rw [h4, h3] at hq
      have := quoteThenU_skip hq
      rwa [List.append_assoc, ← hd] at this

theorem append_cases {a b c d : Bytes} (h : a ++ b = c ++ d) : (∃ x, a = c ++ x ∧ d = x ++ b) ∨ ∃ y, y ≠ [] ∧ c = a ++ y ∧ b = y ++ d := by
  rcases List.append_eq_append_iff.1 h with ⟨x, h1, h2⟩ | ⟨x, h1, h2⟩
  · by_cases hx : x = []
    · subst hx; left; exact ⟨[], by simpa using h1.symm, by simpa using h2.symm⟩
    · right; exact ⟨x, hx, h1, h2⟩
  · left; exact ⟨x, h1, h2⟩

theorem good_ok {e : Err} {j : Json} {v : Bytes} {vs : List (Json × Bytes)} {tl : Bytes} :
    ∀ s : SDec, Good e ((j, v) :: vs) tl s → ∃ s', s.readValue = (.ok v, s') ∧ Good e vs tl s' := by
  intro s
  induction hk : s.need using Nat.strongRecOn generalizing s with
  | _ k ih =>
    subst hk
    intro h
    have hstr := h.str
    generalize hx : s.remain ++ s.reader.data = x at hstr
    cases hstr with
    | cons w v j vs tl b hw hv hb hs =>
      have again : s.reader.data ≠ [] → (s.remain = [] ∨ ∃ e, parseValue s.remain = .fail [] e) →
          ∃ s', s.readValue = (.ok v, s') ∧ Good e vs tl s' := by
        intro hd hp
        have he : s.err = none := by rcases h.err with he | ⟨_, he⟩; exact he; exact absurd he hd
        rw [readValue_step h.wf he hp]
        exact ih _ (need_refill h.wf he) _ rfl (good_refill h)
      by_cases hr : s.remain = []
      · refine again ?_ (.inl hr)
        intro hd
        rw [hr, hd] at hx
        simp at hx
        exact value_ne_nil hv hx.2.1
      · have hw0 : w = [] := by
          have h1 := skipSpaces_ext (b := s.remain) (by rw [h.lead]; exact hr) s.reader.data
          rw [h.lead, hx, List.append_assoc, skip_ws_value hw hv] at h1
          have := congrArg List.length h1
          simp only [List.length_append] at this
          exact List.length_eq_zero_iff.1 (by omega)
        subst hw0
        rw [List.nil_append] at hx
        rcases append_cases hx with ⟨y, h1, h2⟩ | ⟨y, hy, h1, h2⟩
        · have hstop : NumStop y := by
            intro c hc
            cases y with
            | nil => simp at hc
            | cons d y =>
              simp at hc; subst hc
              rcases hb with hb | ⟨c', t, hb, hc'⟩
              · rw [hb] at h2; simp at h2
              · rw [hb] at h2
                injection h2 with h2 _
                subst h2
                exact numStop_ws (w := [c']) (by intro c h; rw [List.mem_singleton.1 h]; exact hc') c' rfl
          have hp : parseValue s.remain = .ok v y := by rw [h1]; exact parseValue_complete hv (follow_of_numStop hstop)
          have ha := after_ok h.wf h1 (o := s.offset + (v.length + (skipSpacesN y).2))
          refine ⟨_, readValue_ok hr hp, ⟨ha.1, h.plain, by rw [ha.2, skipSpaces_idem], ?_, h.tail, h.err, ?_⟩⟩
          · rw [ha.2]
            apply stream_skip h.tail
            rw [← h2]; exact hs
          · rcases h.mode with ⟨hA, ht⟩ | ⟨hB, hC, ht⟩
            · left
              refine ⟨?_, ht⟩
              rcases hA with hA | ⟨hA, hl⟩
              · exact .inl hA
              · exact .inr ⟨hA, hl⟩
            · right
              refine ⟨fun x hx => hB x (by simp [hx]), fun hq => hC ?_, ht⟩
              rw [ha.2] at hq
              have := quoteThenU_suffix (p := v) (quoteThenU_skip hq)
              rwa [← List.append_assoc, ← h1] at this
        · rcases h.mode with ⟨hA, ht⟩ | ⟨hB, hC, ht⟩
          · exfalso
            rcases hA with hA | ⟨hA, hl⟩
            · rw [hA] at h2
              exact hy (List.append_eq_nil_iff.1 h2.symm).1
            · apply hr
              unfold SDec.remain
              rw [hA]; simp
          · refine again (by rw [h2]; simp [hy]) (.inr ?_)
            subst h1
            rcases parseValue_cut hv hy (fun hb => hC hb.quote) with h1 | ⟨⟨t, rfl⟩, _⟩
            · exact ⟨_, h1⟩
            · exact absurd trivial (hB (.num t, s.remain ++ y) (by simp))

/-- The error at the end of a stream that ends in `tl`. -/
def endErr (e : Err) (tl : Bytes) : Err := if tl ≠ [] ∧ finErr e = .eof then .unexpectedEOF else finErr e

theorem good_end {e : Err} {tl : Bytes} :
    ∀ s : SDec, Good e [] tl s → ∃ s', s.readValue = (.err (endErr e tl), s') ∧ Good e [] tl s' := by
  intro s
  induction hk : s.need using Nat.strongRecOn generalizing s with
  | _ k ih =>
    subst hk
    intro h
    have hstr := h.str
    generalize hx : s.remain ++ s.reader.data = x at hstr
    cases hstr with
    | nil w tl hw =>
      have hpre : s.remain ≠ [] → w = [] := by
        intro hr
        have h1 := skipSpaces_ext (b := s.remain) (by rw [h.lead]; exact hr) s.reader.data
        rw [h.lead, hx, skipSpaces_ws_append hw, h.tail] at h1
        have := congrArg List.length h1
        simp only [List.length_append] at this
        exact List.length_eq_zero_iff.1 (by omega)
      have hp : s.remain = [] ∨ ∃ e, parseValue s.remain = .fail [] e := by
        by_cases hr : s.remain = []
        · exact .inl hr
        · right
          have hw0 := hpre hr
          subst hw0
          rw [List.nil_append] at hx
          rcases h.mode with ⟨hA, ht⟩ | ⟨hB, hC, ht⟩
          · rcases hA with hA | ⟨hA, hl⟩
            · rw [hA, List.append_nil] at hx
              subst hx
              exact ⟨_, ht hr⟩
            · exfalso; apply hr; unfold SDec.remain; rw [hA]; simp
          · exact ⟨_, ht _ _ hx.symm hr⟩
      rcases h.err with he | ⟨he, hd⟩
      · rw [readValue_step h.wf he hp]
        exact ih _ (need_refill h.wf he) _ rfl (good_refill h)
      · refine ⟨s, ?_, h⟩
        rw [readValue_pending he hp]
        rw [hd, List.append_nil] at hx
        have : (s.remain ≠ []) = (tl ≠ []) := by
          rw [eq_iff_iff]
          constructor
          · intro hr; have := hpre hr; subst this; rw [List.nil_append] at hx; rwa [hx] at hr
          · intro ht hr; rw [hr] at hx; exact ht (List.append_eq_nil_iff.1 hx.symm).2
        unfold SDec.pending endErr
        simp only [this]

theorem good_calls {e : Err} {tl : Bytes} : ∀ (vs : List (Json × Bytes)) (k : Nat) (s : SDec), Good e vs tl s →
    (s.calls (vs.length + k)).1 = vs.map (fun x => RV.ok x.2) ++ List.replicate k (.err (endErr e tl))
  | [], 0, s, h => by simp [SDec.calls]
  | [], k + 1, s, h => by
    obtain ⟨s', h1, h2⟩ := good_end s h
    have := good_calls [] k s' h2
    simp only [List.length_nil, Nat.zero_add, List.map_nil, List.nil_append] at this ⊢
    simp only [SDec.calls, h1, this, List.replicate_succ]
  | (j, v) :: vs, k, s, h => by
    obtain ⟨s', h1, h2⟩ := good_ok s h
    have := good_calls vs k s' h2
    rw [show ((j, v) :: vs).length + k = vs.length + k + 1 from by simp; omega]
    simp only [SDec.calls, h1, this, List.map_cons, List.cons_append]

theorem good_new {e : Err} {vs : List (Json × Bytes)} {tl b : Bytes} (h : Stream vs tl b) (ht : skipSpaces tl = tl)
    (hm : (b.length ≤ minBufferSize ∧ (tl ≠ [] → parseValue tl = .fail [] .syntax)) ∨
      (∀ x ∈ vs, ¬ IsNum x.1) ∧ ¬ QuoteThenU b ∧ ∀ p q, tl = p ++ q → p ≠ [] → parseValue p = .fail [] .syntax) :
    Good e vs tl (newDecoder ⟨[(b, e)], e⟩) := by
  have hr : (newDecoder ⟨[(b, e)], e⟩).remain = [] := by simp [SDec.remain, newDecoder]
  have hd : (newDecoder ⟨[(b, e)], e⟩).reader.data = b := by simp [Reader.data, newDecoder]
  refine ⟨newDecoder_wf _, ⟨rfl, .inr ⟨_, rfl⟩⟩, by rw [hr]; rfl, by rw [hr, hd]; exact h, ht, .inl rfl, ?_⟩
  rw [hr, hd]
  rcases hm with ⟨h1, h2⟩ | h1
  · exact .inl ⟨.inr ⟨rfl, h1⟩, h2⟩
  · exact .inr h1

theorem truncated_parse {j : Json} {tl : Bytes} (h : Truncated j tl) (hq : ¬ QuoteThenU tl) :
    skipSpaces tl = tl ∧ parseValue tl = .fail [] .syntax ∧
    (¬ IsNum j → ∀ p q, tl = p ++ q → p ≠ [] → parseValue p = .fail [] .syntax) := by
  obtain ⟨h1, ⟨y, h2⟩, h3⟩ := h
  have hy : y ≠ [] := by rintro rfl; exact h3 ⟨j, by simpa using h2⟩
  have hbc : ∀ p q, tl = p ++ q → ¬ BadCut p := by
    rintro p q rfl hb
    exact hq hb.quote
  refine ⟨?_, ?_, ?_⟩
  · obtain ⟨c, t, e⟩ := List.exists_cons_of_ne_nil h1
    subst e
    have := skip_value h2 []
    simp only [List.cons_append] at this
    exact skipSpaces_cons_of_not (skipSpaces_head _ _ _ this)
  · rcases parseValue_cut h2 hy (hbc tl [] (by simp)) with h | ⟨_, h⟩
    · exact h
    · obtain ⟨_, j', hj'⟩ := parseValue_sound h
      exact absurd ⟨j', hj'⟩ h3
  · rintro hn p q rfl hp
    rw [List.append_assoc] at h2
    rcases parseValue_cut h2 (by simp [hy]) (hbc p q rfl) with h | ⟨⟨t, rfl⟩, _⟩
    · exact h
    · exact absurd trivial hn

end JC

import Verif.Lemmas.AliasStream
import Verif.Props.Stream
/-!
C67: What has been decoded stays as it is. Without the flags `DontCopyString`,
`DontCopyNumber` and `DontCopyRawMessage`, values share no memory with the input or with
the buffer of the `Decoder`; with them, they read the same until the `Decoder` reads on.
-/
namespace JC.Props
open Spec

/-- What holds between calls. -/
structure _root_.JC.ASess.Inv (f : AFlags) (x : ASess) : Prop where
  wf : x.dec.WF x.mem
  vars : ∀ v ∈ x.vars, x.mem.holds v ∧ Apart f v x.dec.buf

theorem stepA_inv {f : AFlags} {c : DCfg} {x : ASess} (h : x.Inv f) (call : Nat × ATy) : (x.step f c call).Inv f ∧
    AFrame x.dec.buf x.mem (x.step f c call).dec.buf (x.step f c call).mem ∧
    ∀ (j : Nat), j ≠ call.1 → (x.step f c call).vars[j]? = x.vars[j]? := by
  unfold ASess.step
  split
  · exact ⟨h, AFrame.refl _ _, fun _ _ => rfl⟩
  cases hv : x.vars[call.1]? with
  | none => exact ⟨h, AFrame.refl _ _, fun _ _ => rfl⟩
  | some p =>
    simp only []
    have hp := h.vars p (List.mem_of_getElem? hv)
    have := decode_frameA h.wf f c call.2 hp.1 hp.2
    generalize x.dec.decode f c call.2 p x.mem = A at this ⊢
    obtain ⟨r, s, m⟩ := A
    simp only [] at this
    obtain ⟨h1, h2, h3⟩ := this
    have old : ∀ v ∈ x.vars, m.holds v ∧ Apart f v s.buf := fun v hv =>
      ⟨fun y hy => holds_frame h2 ((h.vars v hv).1 y hy), fun y hy hf => apart_frame h2 ((h.vars v hv).1 y hy) ((h.vars v hv).2 y hy hf)⟩
    cases r with
    | crash k => exact ⟨⟨h1, old⟩, h2, fun _ _ => rfl⟩
    | done v e =>
      refine ⟨⟨h1, fun w hw => ?_⟩, h2, fun j hj => List.getElem?_set_ne (Ne.symm hj)⟩
      rcases List.mem_or_eq_of_mem_set hw with hw | hw
      · exact old w hw
      · subst hw; exact h3

theorem runA_inv {f : AFlags} {c : DCfg} : ∀ (calls : List (Nat × ATy)) {x : ASess}, x.Inv f → (x.run f c calls).Inv f ∧
    AFrame x.dec.buf x.mem (x.run f c calls).dec.buf (x.run f c calls).mem ∧
    ∀ (j : Nat), j ∉ calls.map Prod.fst → (x.run f c calls).vars[j]? = x.vars[j]?
  | [], x, h => ⟨h, AFrame.refl _ _, fun _ _ => rfl⟩
  | call :: calls, x, h => by
    obtain ⟨h1, h2, h3⟩ := stepA_inv (c := c) h call
    obtain ⟨g1, g2, g3⟩ := runA_inv (c := c) calls h1
    refine ⟨g1, h2.trans g2, fun j hj => ?_⟩
    rw [List.map_cons, List.mem_cons, not_or] at hj
    exact (g3 j hj.2).trans (h3 j hj.1)

theorem startA_inv {f : AFlags} {r : Reader} {m : AMem} {vars : List AV} (h : ∀ v ∈ vars, m.holds v) : (ASess.start r m vars).Inv f :=
  ⟨⟨fun i hi => by simp [ASess.start, newDecoderA] at hi, newDecoder_wf r⟩,
    fun v hv => ⟨h v hv, fun _ _ _ => .inr (by simp [ASess.start, newDecoderA])⟩⟩

/-- One call, seen without memory, when the destination is outside the buffer. -/
theorem step_view {f : AFlags} {c : DCfg} {x : ASess} (h : x.Inv f) (n : Nat) (call : Nat × ATy)
    (ha : ∀ p, x.vars[call.1]? = some p → ∀ y ∈ p.spans, y.2.len = 0 ∨ x.dec.buf ≠ some y.2.buf) (z : PSess)
    (hd : z.dec = x.dec.view x.mem) (hl : z.log = x.log) (hs : z.stop = x.stop) (hz : z.vars[call.1]? = x.vars[call.1]?.map (AV.read x.mem)) :
    (z.step c n (call.1, call.2.ty)).dec = (x.step f c call).dec.view (x.step f c call).mem ∧
    (z.step c n (call.1, call.2.ty)).log = (x.step f c call).log ∧ (z.step c n (call.1, call.2.ty)).stop = (x.step f c call).stop ∧
    (∀ (j : Nat), j ≠ call.1 → (z.step c n (call.1, call.2.ty)).vars[j]? = z.vars[j]?) ∧
    (x.stop = false → (z.step c n (call.1, call.2.ty)).stop = false →
      (z.step c n (call.1, call.2.ty)).vars[call.1]? = (x.step f c call).vars[call.1]?.map (AV.read (x.step f c call).mem)) ∧
    (z.step c n (call.1, call.2.ty)).vars.length = z.vars.length := by
  unfold ASess.step PSess.step
  rw [hs]
  split
  · exact ⟨hd, hl, hs, fun _ _ => rfl, by simp_all, rfl⟩
  rename_i hst
  rw [hz]
  cases hv : x.vars[call.1]? with
  | none =>
    rw [hv] at hz
    exact ⟨hd, hl, hs, fun _ _ => rfl, by simp_all, rfl⟩
  | some p =>
    simp only [Option.map_some]
    have hp := h.vars p (List.mem_of_getElem? hv)
    have := decode_viewA h.wf f c n call.2 hp.1 (ha p hv)
    rw [hd]
    generalize x.dec.decode f c call.2 p x.mem = A at this ⊢
    generalize (x.dec.view x.mem).decode c n call.2.ty (p.read x.mem) = B at this ⊢
    obtain ⟨r, s, m⟩ := A
    obtain ⟨r', s'⟩ := B
    simp only [] at this
    obtain ⟨h1, h2⟩ := this
    subst h1 h2
    cases r with
    | crash k => exact ⟨rfl, by simp [AURes.read, hl], rfl, fun _ _ => rfl, by simp [AURes.read], rfl⟩
    | done v e =>
      refine ⟨rfl, by simp [AURes.read, hl], rfl, fun j hj => List.getElem?_set_ne (Ne.symm hj), fun _ _ => ?_, List.length_set⟩
      have k1 : call.1 < x.vars.length := (List.getElem?_eq_some_iff.1 hv).1
      have k2 : call.1 < z.vars.length := by
        rw [hv] at hz
        exact (List.getElem?_eq_some_iff.1 hz).1
      simp only [AURes.read, List.getElem?_set_self k1, List.getElem?_set_self k2, Option.map_some]

/-- No flags. -/
def _root_.JC.AFlags.none : AFlags := ⟨false, false, false⟩

theorem none_of (k : AKind) : AFlags.none.of k = false := by cases k <;> rfl

theorem step_kept {c : DCfg} {x : ASess} (h : x.Inv .none) (n : Nat) (call : Nat × ATy) :
    (x.step .none c call).view = x.view.step c n (call.1, call.2.ty) := by
  have all : ∀ p ∈ x.vars, ∀ y ∈ p.spans, y.2.len = 0 ∨ x.dec.buf ≠ some y.2.buf := fun p hp y hy => (h.vars p hp).2 y hy (none_of _)
  obtain ⟨h1, h2, h3⟩ := stepA_inv (c := c) h call
  obtain ⟨g1, g2, g3, g4, g5, g6⟩ := step_view (c := c) h n call (fun p hp => all p (List.mem_of_getElem? hp)) x.view rfl rfl rfl (by simp [ASess.view])
  have read : ∀ p ∈ x.vars, p.read (x.step .none c call).mem = p.read x.mem := fun p hp =>
    AV.read_congr p fun y hy => read_frame h2 ((h.vars p hp).1 y hy) (all p hp y hy)
  have hvars : (x.view.step c n (call.1, call.2.ty)).vars = (x.step .none c call).vars.map (AV.read (x.step .none c call).mem) := by
    apply List.ext_getElem?
    intro j
    rw [List.getElem?_map]
    by_cases hj : j = call.1
    · subst hj
      by_cases hs : x.stop = false ∧ (x.view.step c n (call.1, call.2.ty)).stop = false
      · exact g5 hs.1 hs.2
      · have e1 : (x.step .none c call).vars = x.vars := by
          rw [g3] at hs
          revert hs
          unfold ASess.step
          split
          · intro _; rfl
          · rename_i hst
            cases hv : x.vars[call.1]? with
            | none => intro _; rfl
            | some p =>
              simp only []
              generalize x.dec.decode .none c call.2 p x.mem = A
              obtain ⟨r, s, m⟩ := A
              cases r with
              | crash k => intro _; rfl
              | done v e => intro hs; exact absurd ⟨by simpa using hst, rfl⟩ hs
        have e2 : (x.view.step c n (call.1, call.2.ty)).vars = x.view.vars := by
          revert hs
          unfold PSess.step
          split
          · intro _; rfl
          · rename_i hst
            cases hv : x.view.vars[call.1]? with
            | none => intro _; rfl
            | some p =>
              simp only []
              generalize x.view.dec.decode c n call.2.ty p = A
              obtain ⟨r, s⟩ := A
              cases r with
              | crash k => intro _; rfl
              | done v e => intro hs; exact absurd ⟨by simpa [ASess.view] using hst, rfl⟩ hs
        rw [e1, e2]
        simp only [ASess.view, List.getElem?_map]
        cases hv : x.vars[call.1]? with
        | none => rfl
        | some p => simp only [Option.map_some, read p (List.mem_of_getElem? hv)]
    · rw [g4 j hj, h3 j hj]
      simp only [ASess.view, List.getElem?_map]
      cases hv : x.vars[j]? with
      | none => rfl
      | some p => simp only [Option.map_some, read p (List.mem_of_getElem? hv)]
  generalize hA : x.view.step c n (call.1, call.2.ty) = A at *
  obtain ⟨a1, a2, a3, a4⟩ := A
  simp only [] at g1 g2 g3 hvars
  subst g1 g2 g3 hvars
  rfl

/-- C67: without the flags, the results of all calls, read at the end, are those of a
program whose variables hold values instead of places in the memory. The calls may use a
variable again. -/
theorem C67_kept (c : DCfg) (n : Nat) (r : Reader) (m : AMem) (vars : List AV) (h : ∀ v ∈ vars, m.holds v) (calls : List (Nat × ATy)) :
    ((ASess.start r m vars).run .none c calls).view =
      (PSess.start r (vars.map (AV.read m))).run c n (calls.map fun x => (x.1, x.2.ty)) := by
  suffices ∀ (calls : List (Nat × ATy)) (x : ASess), x.Inv .none →
      (x.run .none c calls).view = x.view.run c n (calls.map fun x => (x.1, x.2.ty)) from this calls _ (startA_inv h)
  intro calls
  induction calls with
  | nil => intro x _; rfl
  | cons call calls ih =>
    intro x hx
    have := ih _ (stepA_inv (c := c) hx call).1
    rw [step_kept hx n call] at this
    exact this

/-- C67, by kinds of texts: what is copied, because its flag is not set, reads the same
whatever is decoded later into other variables. -/
theorem C67_kinds (f : AFlags) (c : DCfg) (r : Reader) (m : AMem) (vars : List AV) (h : ∀ v ∈ vars, m.holds v)
    (calls later : List (Nat × ATy)) (k : Nat) (v : AV) (hv : ((ASess.start r m vars).run f c calls).vars[k]? = some v)
    (hk : k ∉ later.map Prod.fst) :
    ((ASess.start r m vars).run f c (calls ++ later)).vars[k]? = some v ∧
    ∀ x ∈ v.spans, f.of x.1 = false →
      ((ASess.start r m vars).run f c (calls ++ later)).mem.read x.2 = ((ASess.start r m vars).run f c calls).mem.read x.2 := by
  have e : (ASess.start r m vars).run f c (calls ++ later) = ((ASess.start r m vars).run f c calls).run f c later := by
    simp [ASess.run, List.foldl_append]
  rw [e]
  have hi := (runA_inv (c := c) calls (startA_inv (f := f) (r := r) h)).1
  obtain ⟨h1, h2, h3⟩ := runA_inv (c := c) later hi
  have hm := hi.vars v (List.mem_of_getElem? hv)
  exact ⟨(h3 k hk).trans hv, fun x hx hf => read_frame h2 (hm.1 x hx) (hm.2 x hx hf)⟩

/-- Two runs that use every variable once agree. -/
theorem run_once {f : AFlags} {c : DCfg} {n : Nat} : ∀ (calls : List (Nat × ATy)) (x : ASess) (z : PSess), x.Inv f →
    (calls.map Prod.fst).Nodup → z.dec = x.dec.view x.mem → z.log = x.log → z.stop = x.stop →
    (∀ call ∈ calls, z.vars[call.1]? = x.vars[call.1]?.map (AV.read x.mem) ∧
      ∀ p, x.vars[call.1]? = some p → ∀ y ∈ p.spans, y.2.len = 0 ∨ x.dec.buf ≠ some y.2.buf) →
    (z.run c n (calls.map fun x => (x.1, x.2.ty))).dec = (x.run f c calls).dec.view (x.run f c calls).mem ∧
    (z.run c n (calls.map fun x => (x.1, x.2.ty))).log = (x.run f c calls).log ∧
    (z.run c n (calls.map fun x => (x.1, x.2.ty))).stop = (x.run f c calls).stop ∧
    ∀ call, calls.getLast? = some call → (x.run f c calls).stop = false →
      (z.run c n (calls.map fun x => (x.1, x.2.ty))).vars[call.1]? =
        (x.run f c calls).vars[call.1]?.map (AV.read (x.run f c calls).mem)
  | [], x, z, hi, hn, hd, hl, hs, hv => ⟨hd, hl, hs, fun call h => by simp at h⟩
  | call :: calls, x, z, hi, hn, hd, hl, hs, hv => by
    rw [List.map_cons, List.nodup_cons] at hn
    obtain ⟨v1, v2⟩ := hv call (by simp)
    obtain ⟨h1, h2, h3⟩ := stepA_inv (c := c) hi call
    obtain ⟨g1, g2, g3, g4, g5, g6⟩ := step_view (c := c) hi n call v2 z hd hl hs v1
    have rest := run_once (c := c) (n := n) calls _ _ h1 hn.2 g1 g2 g3 (by
      intro d hdm
      have hne : d.1 ≠ call.1 := fun e => hn.1 (by rw [← e]; exact List.mem_map_of_mem hdm)
      obtain ⟨w1, w2⟩ := hv d (by simp [hdm])
      rw [g4 d.1 hne, h3 d.1 hne, w1]
      refine ⟨?_, fun p hp y hy => apart_frame h2 ((hi.vars p (List.mem_of_getElem? hp)).1 y hy) (w2 p hp y hy)⟩
      cases hq : x.vars[d.1]? with
      | none => rfl
      | some p =>
        simp only [Option.map_some]
        congr 1
        exact (AV.read_congr p fun y hy => read_frame h2 ((hi.vars p (List.mem_of_getElem? hq)).1 y hy) (w2 p hq y hy)).symm)
    refine ⟨rest.1, rest.2.1, rest.2.2.1, fun d hd1 hd2 => ?_⟩
    cases calls with
    | nil =>
      simp only [List.getLast?_singleton, Option.some.injEq] at hd1
      subst hd1
      refine g5 ?_ (g3.trans hd2)
      cases hx : x.stop with
      | false => rfl
      | true =>
        have : (x.run f c [call]).stop = true := by simp [ASess.run, ASess.step, hx]
        rw [this] at hd2; cases hd2
    | cons e calls =>
      rw [List.getLast?_cons_cons] at hd1
      exact rest.2.2.2 d hd1 hd2

/-- C67, with any flags: if every call has a variable of its own, all calls report what
they should, and the value of the last one, read after it, is what it should be. -/
theorem C67_same (f : AFlags) (c : DCfg) (n : Nat) (r : Reader) (m : AMem) (vars : List AV) (h : ∀ v ∈ vars, m.holds v)
    (calls : List (Nat × ATy)) (hn : (calls.map Prod.fst).Nodup) :
    ((ASess.start r m vars).run f c calls).log =
      ((PSess.start r (vars.map (AV.read m))).run c n (calls.map fun x => (x.1, x.2.ty))).log ∧
    ∀ k t, calls.getLast? = some (k, t) → ((ASess.start r m vars).run f c calls).stop = false →
      ((ASess.start r m vars).run f c calls).vars[k]?.map (AV.read ((ASess.start r m vars).run f c calls).mem) =
        ((PSess.start r (vars.map (AV.read m))).run c n (calls.map fun x => (x.1, x.2.ty))).vars[k]? := by
  have := run_once (c := c) (n := n) calls (ASess.start r m vars) (PSess.start r (vars.map (AV.read m))) (startA_inv (f := f) h) hn rfl rfl rfl
    (fun call _ => ⟨by simp [PSess.start, ASess.start], fun p hp y hy => .inr (by simp [ASess.start, newDecoderA])⟩)
  exact ⟨this.2.1.symm, fun k t hk hs => (this.2.2.2 (k, t) hk hs).symm⟩

/-! ### Between two reads -/

theorem refill_less {s : ASt} {m : AMem} (h : s.WF m) : (s.refill m).1.reader.data.length ≤ s.reader.data.length ∧
    ((s.refill m).1.reader.data.length < s.reader.data.length ∨ (s.refill m).1.err ≠ none) := by
  obtain ⟨r1, r2, r3⟩ := refill_view h
  obtain ⟨h1, h2, h3, h4, h5, h6, h7⟩ := refill_spec h.view
  rw [← r1] at h3 h6
  change (s.refill m).1.reader = _ at h3
  change (s.refill m).1.err = _ at h6
  have e : (s.view m).reader = s.reader := rfl
  rw [e] at h3 h6
  have hd := congrArg List.length (readFull_data (s.view m).room s.reader)
  rw [List.length_append] at hd
  have he := readFull_err h1 (r := s.reader)
  rw [h3, h6]
  generalize readFull (s.view m).room s.reader = q at *
  by_cases hq : q.1 = []
  · refine ⟨by omega, .inr ?_⟩
    rw [if_neg (by simpa using hq)]
    split
    · simp
    · exact he hq
  · have : q.1.length ≠ 0 := by simpa using hq
    exact ⟨by omega, .inl (by omega)⟩

theorem readLoop_less : ∀ (n : Nat) (s : ASt) (m : AMem), s.WF m →
    (readLoopA n s m).2.1.reader.data.length ≤ s.reader.data.length ∧
    ((readLoopA n s m).2.2 = m ∧ (readLoopA n s m).2.1.reader = s.reader ∧ (readLoopA n s m).2.1.err = s.err ∨
      s.err = none ∧ ((readLoopA n s m).2.1.reader.data.length < s.reader.data.length ∨ (readLoopA n s m).2.1.err ≠ none))
  | 0, s, m, _ => ⟨Nat.le_refl _, .inl ⟨rfl, rfl, rfl⟩⟩
  | n + 1, s, m, h => by
    have more : ∀ x : ARV × ASt × AMem, (x = match s.err with | some e => (s.pending m e, s, m) | none => readLoopA n (s.refill m).1 (s.refill m).2) →
        x.2.1.reader.data.length ≤ s.reader.data.length ∧ (x.2.2 = m ∧ x.2.1.reader = s.reader ∧ x.2.1.err = s.err ∨
          s.err = none ∧ (x.2.1.reader.data.length < s.reader.data.length ∨ x.2.1.err ≠ none)) := by
      intro x hx
      cases he : s.err with
      | some e => rw [he] at hx; subst hx; exact ⟨Nat.le_refl _, .inl ⟨rfl, rfl, he⟩⟩
      | none =>
        rw [he] at hx
        have ih := readLoop_less n _ _ (refill_view h).2.1
        have := refill_less h
        subst hx
        simp only [] at ih ⊢
        generalize readLoopA n (s.refill m).1 (s.refill m).2 = q at ih ⊢
        refine ⟨by omega, .inr ⟨trivial, ?_⟩⟩
        rcases ih.2 with ⟨_, _, g3⟩ | ⟨g1, g2⟩
        · rcases this.2 with g | g
          · exact .inl (by omega)
          · exact .inr (by rw [g3]; exact g)
        · rcases g2 with g2 | g2
          · exact .inl (by omega)
          · exact .inr g2
    rw [readLoopA]
    simp only []
    split
    · split
      · exact ⟨Nat.le_refl _, .inl ⟨rfl, rfl, rfl⟩⟩
      · split
        · exact ⟨Nat.le_refl _, .inl ⟨rfl, rfl, rfl⟩⟩
        · exact more _ rfl
    · exact more _ rfl

theorem decode_still {s : ASt} {m : AMem} (h : s.WF m) (f : AFlags) (c : DCfg) (t : ATy) {p : AV} (hp : m.holds p)
    (hr : (s.decode f c t p m).2.1.reader = s.reader) (he : (s.decode f c t p m).2.1.err = s.err) : m <+: (s.decode f c t p m).2.2 := by
  obtain ⟨v1, v2, v3, v4⟩ := readLoop_view (s.reader.data.length + 2) s m h
  have less := readLoop_less (s.reader.data.length + 2) s m h
  unfold ASt.decode ASt.readValue at *
  generalize readLoopA (s.reader.data.length + 2) s m = x at *
  obtain ⟨x, s1, m1⟩ := x
  simp only [] at v1 v2 v3 v4 less hr he ⊢
  have hp1 : m1.holds p := fun x hx => holds_frame v3 (hp x hx)
  have fin : s1.reader = s.reader → s1.err = s.err → m1 = m := by
    intro h1 h2
    rcases less.2 with g | ⟨g1, g2⟩
    · exact g.1
    · rw [h1, h2, g1] at g2
      simp at g2
  generalize (readLoop (s.reader.data.length + 2) (s.view m)).1 = y at v4
  cases v4 with
  | err e => simp only [] at hr he ⊢; rw [fin hr he]; exact List.prefix_refl _
  | @ok sl v hb hs hv =>
    simp only [] at hr he ⊢
    have lie : AllLie m1 (fun _ _ => True) p.spans := by
      intro x hx
      rcases hp1 x hx with h1 | h1
      · exact .inl h1
      · exact .inr ⟨trivial, h1⟩
    have free : Free f m1 (fun _ _ => True) sl.buf := ⟨fun _ _ _ => trivial, fun _ => trivial, fun _ => trivial, fun _ => trivial⟩
    have hsim := parseInto_sim (decN_sim (f := f) (c := c) 0 t) m1 sl p _ free hs lie
    generalize parseIntoA (decA f c t) m1 sl p = A at hsim hr he ⊢
    generalize parseInto (decN c 0 t.ty) (m1.read sl) (p.read m1) = B at hsim
    cases hsim with
    | crash c => simp only [] at hr he ⊢; rw [fin hr he]; exact List.prefix_refl _
    | ok g1 g2 g3 => simp only [] at hr he ⊢; rw [← fin hr he]; exact g1
    | err g1 g2 g3 => simp only [] at hr he ⊢; rw [← fin hr he]; exact g1

/-- C67, with any flags: a call that does not turn to the reader leaves all other variables
as they read. -/
theorem C67_until_read (f : AFlags) (c : DCfg) (r : Reader) (m : AMem) (vars : List AV) (h : ∀ v ∈ vars, m.holds v)
    (calls : List (Nat × ATy)) (call : Nat × ATy) (x y : ASess) (hx : x = (ASess.start r m vars).run f c calls) (hy : y = x.step f c call)
    (hr : y.dec.reader = x.dec.reader) (he : y.dec.err = x.dec.err) (k : Nat) (hk : k ≠ call.1) :
    y.vars[k]?.map (AV.read y.mem) = x.vars[k]?.map (AV.read x.mem) := by
  have hi : x.Inv f := by rw [hx]; exact (runA_inv (c := c) calls (startA_inv (f := f) (r := r) h)).1
  rw [hy, (stepA_inv hi call).2.2 k hk]
  have pre : x.mem <+: y.mem := by
    rw [hy] at hr he ⊢
    unfold ASess.step at *
    split
    · exact List.prefix_refl _
    rename_i hs
    rw [if_neg hs] at hr he
    cases hv : x.vars[call.1]? with
    | none => exact List.prefix_refl _
    | some p =>
      rw [hv] at hr he
      simp only [] at hr he ⊢
      have := decode_still hi.wf f c call.2 (hi.vars p (List.mem_of_getElem? hv)).1
      generalize x.dec.decode f c call.2 p x.mem = A at *
      obtain ⟨a, s, m⟩ := A
      cases a with
      | done v e => exact this hr he
      | crash k => exact this hr he
  rw [hy] at pre
  cases hv : x.vars[k]? with
  | none => rfl
  | some p =>
    simp only [Option.map_some]
    congr 1
    exact AV.read_congr p fun y hy => read_mono pre ((hi.vars p (List.mem_of_getElem? hv)).1 y hy)

/-! ### The input of `Parse` and `Unmarshal` -/

theorem read_set_ne {m : AMem} {i : Nat} {b : Bytes} {s : Span} (h : s.len = 0 ∨ s.buf ≠ i) : AMem.read (m.set i b) s = m.read s := by
  rcases h with h | h
  · rw [read_zero h, read_zero h]
  · simp only [AMem.read]
    rw [getD_set, if_neg (by rintro ⟨h1, _⟩; exact h h1.symm)]

/-- Parsing from a span: what it gives, and where its texts are. -/
theorem parse_sim (f : AFlags) (c : DCfg) (n : Nat) (t : ATy) (m : AMem) (sl : Span) (p : AV) (hs : m.has sl) (hb : sl.buf < m.length) (hp : m.holds p)
    (ha : ∀ x ∈ p.spans, x.2.len = 0 ∨ x.2.buf ≠ sl.buf) :
    RSim m (fun k i => f.of k = true ∨ i ≠ sl.buf) (parseIntoA (decA f c t) m sl p) (parseInto (decN c n t.ty) (m.read sl) (p.read m)) := by
  refine parseInto_sim (decN_sim n t) m sl p _ ⟨fun k i hi => .inr (by omega), fun hf => .inl hf, fun hf => .inl hf, fun hf => .inl hf⟩ hs ?_
  intro x hx
  rcases hp x hx with h1 | h1
  · exact .inl h1
  · rcases ha x hx with h2 | h2
    · exact .inl h2
    · exact .inr ⟨.inr h2, h1⟩

/-- The destination and the memory after `Parse`. -/
def _root_.JC.ARes.dest : ARes → Option (AV × AMem)
  | .ok v _ m => some (v, m)
  | .err v _ _ m => some (v, m)
  | .crash _ => none

/-- C67 for `Parse`: what is copied, because its flag is not set, does not change when the
input is overwritten. -/
theorem C67_parse (f : AFlags) (c : DCfg) (t : ATy) (m : AMem) (sl : Span) (p v : AV) (m' : AMem) (hs : m.has sl) (hb : sl.buf < m.length)
    (hp : m.holds p) (ha : ∀ x ∈ p.spans, x.2.len = 0 ∨ x.2.buf ≠ sl.buf) (h : (parseIntoA (decA f c t) m sl p).dest = some (v, m')) (b : Bytes) :
    ∀ x ∈ v.spans, f.of x.1 = false → AMem.read (m'.set sl.buf b) x.2 = m'.read x.2 := by
  have sim := parse_sim f c 0 t m sl p hs hb hp ha
  generalize parseIntoA (decA f c t) m sl p = A at sim h
  generalize parseInto (decN c 0 t.ty) (m.read sl) (p.read m) = B at sim
  intro x hx hf
  apply read_set_ne
  have fin : AllLie m' (fun k i => f.of k = true ∨ i ≠ sl.buf) v.spans := by
    cases sim with
    | crash k => cases h
    | ok g1 g2 g3 => cases h; exact g2
    | err g1 g2 g3 => cases h; exact g2
  rcases fin x hx with h1 | ⟨h1, _⟩
  · exact .inl h1
  · rw [hf] at h1
    exact .inr (by simpa using h1)

/-- C67 for `Unmarshal`: whatever is written to the input afterwards, the result reads as
what was decoded. -/
theorem C67_unmarshal (c : DCfg) (n : Nat) (t : ATy) (m : AMem) (sl : Span) (p : AV) (hs : m.has sl) (hb : sl.buf < m.length)
    (hp : m.holds p) (ha : ∀ x ∈ p.spans, x.2.len = 0 ∨ x.2.buf ≠ sl.buf) (b : Bytes) :
    (unmarshalA c t m sl p).1.read ((unmarshalA c t m sl p).2.set sl.buf b) = unmarshal c n t.ty (m.read sl) (p.read m) := by
  have sim := parse_sim .none c n t m sl p hs hb hp ha
  unfold unmarshalA unmarshal
  change RSim _ _ (parseIntoA (decA ⟨false, false, false⟩ c t) m sl p) _ at sim
  generalize parseIntoA (decA ⟨false, false, false⟩ c t) m sl p = A at sim
  generalize parseInto (decN c n t.ty) (m.read sl) (p.read m) = B at sim
  have fin : ∀ {v : AV} {m' : AMem}, AllLie m' (fun k i => AFlags.none.of k = true ∨ i ≠ sl.buf) v.spans → v.read (m'.set sl.buf b) = v.read m' := by
    intro v m' hv
    refine AV.read_congr v fun x hx => read_set_ne ?_
    rcases hv x hx with h1 | ⟨h1, _⟩
    · exact .inl h1
    · rw [none_of] at h1
      exact .inr (by simpa using h1)
  cases sim with
  | crash k => rfl
  | ok g1 g2 g3 => simp only [AURes.read, fin g2, g3]
  | err g1 g2 g3 => simp only [AURes.read, fin g2, g3]

/-! ### Writing to a result -/

/-- C67: writing to a text that is copied, or appending to it, as a program may with a
`RawMessage`, does not change what the `Decoder` still has to deliver. -/
theorem C67_write (f : AFlags) (c : DCfg) (r : Reader) (m : AMem) (vars : List AV) (h : ∀ v ∈ vars, m.holds v)
    (calls : List (Nat × ATy)) (x : ASess) (hx : x = (ASess.start r m vars).run f c calls) (v : AV) (hv : v ∈ x.vars)
    (k : AKind) (s : Span) (hs : (k, s) ∈ v.spans) (hf : f.of k = false) (hl : s.len ≠ 0) (b : Bytes) :
    x.dec.view (x.mem.write s b) = x.dec.view x.mem ∧ x.dec.view (x.mem.append s b).2 = x.dec.view x.mem := by
  have hi : x.Inv f := by rw [hx]; exact (runA_inv (c := c) calls (startA_inv (f := f) (r := r) h)).1
  have ha : x.dec.buf ≠ some s.buf := ((hi.vars v hv).2 _ hs hf).resolve_left hl
  have set : ∀ y, x.dec.view (x.mem.set s.buf y) = x.dec.view x.mem := by
    intro y
    unfold ASt.view
    cases hb : x.dec.buf with
    | none => rfl
    | some i =>
      simp only [Option.map_some]
      rw [getD_set, if_neg]
      rintro ⟨e, _⟩
      exact ha (by rw [hb, e])
  refine ⟨set _, ?_⟩
  unfold AMem.append
  split
  · exact set _
  · unfold AMem.alloc ASt.view
    cases hb : x.dec.buf with
    | none => rfl
    | some i =>
      simp only [Option.map_some]
      rw [getD_prefix (List.prefix_append _ _) (hi.wf.buf i hb)]

/-! ### With the flags -/

/-- The first fill. -/
theorem fillA_first (r : Reader) (m : AMem) {d : Bytes} {e : Option Err} {r' : Reader} (hq : readFull minBufferSize r = (d, e, r')) :
    (newDecoderA r).refill m = (⟨r', some m.length, d.length, d.length - (skipSpaces d).length, (skipSpacesN d).2,
      if d ≠ [] then none else if e = some .unexpectedEOF then some .eof else e⟩, m ++ [d ++ List.replicate (minBufferSize - d.length) 0]) := by
  have hd : d.length ≤ minBufferSize := by
    have := readFull_length (n := minBufferSize) (r := r)
    rwa [hq] at this
  have hf : (newDecoderA r).frontA m = (m.length, m ++ [List.replicate minBufferSize 0]) := rfl
  have hg : growA (m ++ [List.replicate minBufferSize 0]) m.length 0 = (m.length, m ++ [List.replicate minBufferSize 0]) := by
    unfold growA
    have h1 : (m ++ [List.replicate minBufferSize (0 : UInt8)]).getD m.length [] = List.replicate minBufferSize 0 := by simp
    rw [h1, List.length_replicate, if_neg (by decide)]
  have hr : (newDecoderA r).remain m = [] := rfl
  unfold ASt.refill
  simp only []
  rw [hr, hf]
  simp only [List.length_nil]
  rw [hg]
  simp only []
  have h1 : (m ++ [List.replicate minBufferSize (0 : UInt8)]).getD m.length [] = List.replicate minBufferSize 0 := by simp
  rw [h1, List.length_replicate, Nat.sub_zero]
  have h2 : (newDecoderA r).reader = r := rfl
  rw [h2, hq]
  simp only [Nat.zero_add, List.take_zero, List.nil_append, List.drop_replicate]
  have h3 : (m ++ [List.replicate minBufferSize (0 : UInt8)]).set m.length (d ++ List.replicate (minBufferSize - d.length) 0) =
      m ++ [d ++ List.replicate (minBufferSize - d.length) 0] := by
    rw [List.set_append_right _ _ (Nat.le_refl _)]
    simp
  rw [h3]
  simp [newDecoderA, skipSpaces]

/-- A later fill of the same buffer, when nothing remains. -/
theorem fillA_again (s : ASt) (m : AMem) {i : Nat} (hb : s.buf = some i) (hi : i < m.length) (hr : s.remain m = [])
    (hl : (m.getD i []).length = minBufferSize) {d : Bytes} {e : Option Err} {r' : Reader} (hq : readFull minBufferSize s.reader = (d, e, r')) :
    s.refill m = (⟨r', some i, d.length, d.length - (skipSpaces d).length, s.offset + (skipSpacesN d).2,
      if d ≠ [] then none else if e = some .unexpectedEOF then some .eof else e⟩, m.set i (d ++ (m.getD i []).drop d.length)) := by
  have hf : s.frontA m = (i, m) := by
    unfold ASt.frontA
    rw [hb, hr]
    simp only [List.length_nil, List.drop_zero, List.nil_append]
    congr 1
    apply List.ext_getElem (by simp)
    intro k hk _
    rw [List.getElem_set]
    split
    · rename_i h; subst h; simp [hi]
    · rfl
  have hg : growA m i 0 = (i, m) := by
    unfold growA
    rw [hl, if_neg (by decide)]
  unfold ASt.refill
  simp only []
  rw [hr, hf]
  simp only [List.length_nil]
  rw [hg]
  simp only []
  rw [hl, Nat.sub_zero, hq]
  simp only [Nat.zero_add, List.take_zero, List.nil_append]
  rw [getD_set, if_pos ⟨rfl, hi⟩, List.take_left' rfl]
  rfl

theorem readValueA_fill {s s1 : ASt} {m m1 : AMem} {v r : Bytes} (hr : s.remain m = []) (he : s.err = none) (hf : s.refill m = (s1, m1))
    (hn : s1.remain m1 ≠ []) (hp : parseValue (s1.remain m1) = .ok v r) :
    s.readValue m = (.ok ⟨s1.buf.getD 0, s1.lo, v.length⟩,
      { s1 with lo := s1.len - (skipSpaces r).length, offset := s1.offset + (v.length + (skipSpacesN r).2) }, m1) := by
  unfold ASt.readValue
  rw [readLoopA, hr, he, hf]
  simp only [ne_eq, not_true, if_false]
  rw [readLoopA, hp]
  simp only []
  rw [if_pos hn]
  rfl

theorem readValueA_ok {s : ASt} {m : AMem} {v r : Bytes} (hn : s.remain m ≠ []) (hp : parseValue (s.remain m) = .ok v r) :
    s.readValue m = (.ok ⟨s.buf.getD 0, s.lo, v.length⟩,
      { s with lo := s.len - (skipSpaces r).length, offset := s.offset + (v.length + (skipSpacesN r).2) }, m) := by
  unfold ASt.readValue
  rw [readLoopA, hp]
  simp only []
  rw [if_pos hn]
  rfl

theorem stringA_plain {f : AFlags} {c : DCfg} {m : AMem} {sl : Span} {p : AV} {x y : UInt8} (hf : f.dontCopyString = true)
    (h : m.read sl = [0x22, x, y, 0x22]) (hs : sl.len = 4) (hu : parseStringUnquote [0x22, x, y, 0x22] [] = .ok [x, y] [] false) :
    parseIntoA (decA f c .string) m sl p = .ok (.string ⟨sl.buf, sl.off + 1, 2⟩) [] m := by
  have hk : skipSpaces (m.read sl) = [0x22, x, y, 0x22] := by rw [h]; rfl
  have ht : sl.tail [0x22, x, y, 0x22] = sl := by
    cases sl; simp only [] at hs; subst hs; simp [Span.tail]
  unfold parseIntoA
  rw [hk, ht]
  simp only [decA, decodeStringA]
  rw [h, hu]
  simp [hasNullPrefix, unquotedAt, hf, Span.at, skipSpaces, skipSpacesN]

theorem stepA_string {f : AFlags} {c : DCfg} {X : ASess} {k : Nat} {p : AV} {x y : UInt8} (hf : f.dontCopyString = true) (hx : X.stop = false)
    (hp : X.vars[k]? = some p) {i o : Nat} {s : ASt} {m : AMem} (hv : X.dec.readValue X.mem = (.ok ⟨i, o, 4⟩, s, m))
    (h : m.read ⟨i, o, 4⟩ = [0x22, x, y, 0x22]) (hu : parseStringUnquote [0x22, x, y, 0x22] [] = .ok [x, y] [] false) :
    X.step f c (k, .string) = ⟨s, m, X.vars.set k (.string ⟨i, o + 1, 2⟩), X.log ++ [.done none], false⟩ := by
  unfold ASess.step
  rw [hx, if_neg (by simp)]
  simp only []
  rw [hp]
  simp only [ASt.decode]
  rw [hv]
  simp only []
  rw [stringA_plain hf h rfl hu]

/-- Two strings in a stream, one at the end of the first fill and one behind it. -/
def twoStrings (w : Bytes) : Reader := ⟨[(bs! "\"ab\"" ++ w ++ bs! "\"cd\"", .eof)], .eof⟩

/-- C67 needs the copies: with `DontCopyString` the next call overwrites the string. The stream is
`"ab"`, 32764 spaces and `"cd"`. -/
theorem C67_sharp_string (c : DCfg) : ∃ (r : Reader) (x y : ASess),
    x = (ASess.start r [] [.string .nil, .string .nil]).run ⟨true, false, false⟩ c [(0, .string)] ∧
    y = (ASess.start r [] [.string .nil, .string .nil]).run ⟨true, false, false⟩ c [(0, .string), (1, .string)] ∧
    x.vars.map (AV.read x.mem) = [.string (bs! "ab"), .string []] ∧
    y.vars.map (AV.read y.mem) = [.string (bs! "cd"), .string (bs! "cd")] := by
  obtain ⟨w, hw, hl⟩ := spaces 32764
  have hdl : (bs! "\"ab\"" ++ w).length = minBufferSize := by simp [hl, minBufferSize]
  have hsp : skipSpaces (bs! "\"ab\"" ++ w) = bs! "\"ab\"" ++ w := rfl
  have f1 := fillA_first (twoStrings w) [] (d := bs! "\"ab\"" ++ w) (e := none) (r' := ⟨[(bs! "\"cd\"", .eof)], .eof⟩) (by
    unfold twoStrings
    rw [readFull_one (by rw [List.length_append, hdl]; omega), ← hdl, List.take_left, List.drop_left])
  rw [hdl, hsp, hdl, if_pos (by simp), Nat.sub_self, List.replicate_zero, List.append_nil, List.nil_append] at f1
  have hrem : ∀ R o, ASt.remain ⟨R, some 0, minBufferSize, 0, o, none⟩ [bs! "\"ab\"" ++ w] = bs! "\"ab\"" ++ w := by
    intro R o
    simp only [ASt.remain, List.getD_cons_zero, List.drop_zero, ← hdl, List.take_length]
  have hpar : parseValue (bs! "\"ab\"" ++ w) = .ok (bs! "\"ab\"") w := by
    exact parseValue_complete (j := .str _) (.str _ (.mk (bs! "ab") (.plain _ _ (by decide) (by decide) (by decide) (.plain _ _ (by decide) (by decide) (by decide) .nil)))) trivial
  have v1 := readValueA_fill (s := newDecoderA (twoStrings w)) (m := []) (v := bs! "\"ab\"") (r := w) rfl rfl f1
    (by rw [List.length_nil, hrem]; simp) (by rw [List.length_nil, hrem, hpar])
  rw [skipSpaces_ws hw] at v1
  have s1 := stepA_string (f := ⟨true, false, false⟩) (c := c) (X := ASess.start (twoStrings w) [] [.string .nil, .string .nil]) (k := 0)
    (p := .string .nil) (x := 0x61) (y := 0x62) rfl rfl rfl v1 rfl (by decide +kernel)
  have f2 := fillA_again ⟨⟨[(bs! "\"cd\"", .eof)], .eof⟩, some 0, minBufferSize, minBufferSize, (skipSpacesN (bs! "\"ab\"" ++ w)).2 + (4 + (skipSpacesN w).2), none⟩
    [bs! "\"ab\"" ++ w] rfl (by simp) (by simp [ASt.remain, ← hdl]) (by simpa using hdl) (d := bs! "\"cd\"") (e := some .unexpectedEOF) (r' := ⟨[], .eof⟩) rfl
  have v2 := readValueA_fill (v := bs! "\"cd\"") (r := []) (by simp [ASt.remain, ← hdl]) rfl f2 (by
      change bs! "\"cd\"" ≠ []; decide) (by
      change parseValue (bs! "\"cd\"") = _; decide +kernel)
  have s2 := stepA_string (f := ⟨true, false, false⟩) (c := c) (X := (ASess.start (twoStrings w) [] [.string .nil, .string .nil]).step ⟨true, false, false⟩ c (0, .string)) (k := 1)
    (p := .string .nil) (x := 0x63) (y := 0x64) rfl (by rw [s1]) (by rw [s1]; rfl) (by rw [s1]; exact v2) rfl (by decide +kernel)
  refine ⟨twoStrings w, _, _, rfl, rfl, ?_, ?_⟩
  · simp only [ASess.run, List.foldl, s1]
    rfl
  · simp only [ASess.run, List.foldl]
    rw [s2, s1]
    rfl

theorem stepA_raw {f : AFlags} {c : DCfg} {X : ASess} {k : Nat} {p : AV} (hf : f.dontCopyRaw = true) (hx : X.stop = false)
    (hp : X.vars[k]? = some p) {i o n : Nat} {s : ASt} {m : AMem} (hv : X.dec.readValue X.mem = (.ok ⟨i, o, n⟩, s, m)) {b : Bytes}
    (h : m.read ⟨i, o, n⟩ = b) (hn : b.length = n) (hk : skipSpaces b = b) (hu : parseValue b = .ok b []) :
    X.step f c (k, .raw) = ⟨s, m, X.vars.set k (.raw ⟨i, o, n⟩), X.log ++ [.done none], false⟩ := by
  unfold ASess.step
  rw [hx, if_neg (by simp)]
  simp only []
  rw [hp]
  simp only [ASt.decode]
  rw [hv]
  simp only []
  have ht : Span.tail ⟨i, o, n⟩ b = ⟨i, o, n⟩ := by simp [Span.tail, hn]
  have : parseIntoA (decA f c .raw) m ⟨i, o, n⟩ p = .ok (.raw ⟨i, o, n⟩) [] m := by
    unfold parseIntoA
    rw [h, hk, ht]
    simp only [decA, decodeRawA]
    rw [h, hu]
    simp [hf, Span.at, hn, skipSpaces, skipSpacesN]
  rw [this]

/-- C67 needs the copies: with `DontCopyRawMessage` appending to a decoded message overwrites what
the `Decoder` delivers next. The stream is `[1] [2]`; the program appends ` [3]` to the
first message. -/
theorem C67_sharp_append (c : DCfg) : ∃ (r : Reader) (x : ASess) (s : Span),
    x = (ASess.start r [] [.flat .rawNil rfl]).run ⟨false, false, true⟩ c [(0, .raw)] ∧ x.vars = [.raw s] ∧ x.mem.read s = bs! "[1]" ∧
    (x.dec.view x.mem).remain = bs! "[2]" ∧ (x.dec.view (x.mem.append s (bs! " [3]")).2).remain = bs! "[3]" := by
  have f1 := fillA_first ⟨[(bs! "[1] [2]", .eof)], .eof⟩ [] (d := bs! "[1] [2]") (e := some .unexpectedEOF) (r' := ⟨[], .eof⟩) rfl
  have v1 := readValueA_fill (s := newDecoderA ⟨[(bs! "[1] [2]", .eof)], .eof⟩) (m := []) (v := bs! "[1]") (r := bs! " [2]") rfl rfl f1
    (by change bs! "[1] [2]" ≠ []; decide) (by change parseValue (bs! "[1] [2]") = _; decide +kernel)
  have s1 := stepA_raw (f := ⟨false, false, true⟩) (c := c) (X := ASess.start ⟨[(bs! "[1] [2]", .eof)], .eof⟩ [] [.flat .rawNil rfl]) (k := 0)
    (p := .flat .rawNil rfl) rfl rfl rfl v1 (b := bs! "[1]") rfl rfl rfl (by decide +kernel)
  refine ⟨⟨[(bs! "[1] [2]", .eof)], .eof⟩, _, ⟨0, 0, 3⟩, rfl, ?_, ?_, ?_, ?_⟩
  · simp only [ASess.run, List.foldl, s1]; rfl
  · simp only [ASess.run, List.foldl, s1]; rfl
  · simp only [ASess.run, List.foldl, s1]; rfl
  · simp only [ASess.run, List.foldl, s1, AMem.append]
    generalize List.replicate _ (0 : UInt8) = z
    rw [if_pos (by simp)]
    rfl

/-! ### Examples -/

/-- A struct with a string and a raw message. -/
example (c : DCfg) : (unmarshalA c (.struct [(bs! "a", .string), (bs! "b", .raw)]) [bs! "{\"a\":\"xy\",\"b\":[0]}"] ⟨0, 0, 18⟩
    (.struct [.string .nil, .flat .rawNil rfl])).1.read [bs! "nothing", bs! "xy", bs! "[0]"] =
    .done (.struct [.string (bs! "xy"), .raw (bs! "[0]")]) none := by
  with_unfolding_all rfl

/-- With the flags, the same struct refers to the input. -/
example (c : DCfg) : (parseIntoA (decA ⟨true, true, true⟩ c (.struct [(bs! "a", .string), (bs! "b", .raw)])) [bs! "{\"a\":\"xy\",\"b\":[0]}"] ⟨0, 0, 18⟩
    (.struct [.string .nil, .flat .rawNil rfl])).dest = some (.struct [.string ⟨0, 6, 2⟩, .raw ⟨0, 14, 3⟩], [bs! "{\"a\":\"xy\",\"b\":[0]}"]) := by
  with_unfolding_all rfl

/-- A string with an escape is copied in any case. -/
example (c : DCfg) : (parseIntoA (decA ⟨true, true, true⟩ c .string) [bs! "\"a\\n\""] ⟨0, 0, 5⟩ (.string .nil)).dest =
    some (.string ⟨1, 0, 2⟩, [bs! "\"a\\n\"", bs! "a\n"]) := by
  with_unfolding_all rfl

/-- Decoding twice into one variable, and once into another. -/
example (c : DCfg) (n : Nat) (r : Reader) : ((ASess.start r [bs! "old"] [.string ⟨0, 0, 3⟩, .flat .rawNil rfl]).run .none c [(0, .string), (1, .raw), (0, .string)]).view =
    (PSess.start r [.string (bs! "old"), .rawNil]).run c n [(0, .string), (1, .raw), (0, .string)] :=
  C67_kept c n r [bs! "old"] [.string ⟨0, 0, 3⟩, .flat .rawNil rfl] (by
    intro v hv x hx
    simp only [List.mem_cons, List.not_mem_nil, or_false] at hv
    rcases hv with rfl | rfl
    · simp only [AV.spans, List.mem_singleton] at hx
      subst hx
      exact .inr ⟨by decide, by decide⟩
    · simp [AV.spans] at hx) [(0, .string), (1, .raw), (0, .string)]

end JC.Props

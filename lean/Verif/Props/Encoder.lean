import Verif.Model.Encoder
import Verif.Props.Encode
/-!
Properties C28 to C30: the `Encoder`.
-/
namespace JC.Props
open JC Spec

/-! ### C28 -/

/-- **C28** An `Encode` call that does not panic makes one `Write` and returns no
error, or makes none and returns an error. What it writes is what `Append` appends to
any buffer for the same value and settings, and a newline. -/
theorem C28_all_or_nothing (ji : Bytes → Bytes → Bytes → Option Bytes) (e e' : Encoder) (v : GV) (w : Bytes → Option Err)
    (ret : Option Err) (ws : List Bytes) (h : e.encode ji v w = .done e' ret ws) :
    (ret = none ∧ ∃ t d, ws = [t ++ [0x0a]] ∧ ∀ b, enc (e.cfg ji) v b e.depth = .done (b ++ t) d none) ∨
    (∃ x, ret = some x ∧ ws = [] ∧ (e.err = some x ∨ ∀ b, ∃ b' d, enc (e.cfg ji) v b e.depth = .done b' d (some x))) := by
  unfold Encoder.encode at h
  cases he : e.err with
  | some x => simp only [he] at h; cases h; exact .inr ⟨x, rfl, rfl, .inl rfl⟩
  | none =>
    simp only [he] at h
    rcases C26_append_only (e.cfg ji) v e.depth with hp | ⟨t, d, er, hd⟩
    · simp only [hp] at h; cases h
    · simp only [hd [], List.nil_append] at h
      cases er with
      | some x =>
        cases h
        exact .inr ⟨x, rfl, rfl, .inr fun b => ⟨_, _, hd b⟩⟩
      | none =>
        simp only [] at h
        cases hw : w (t ++ [0x0a]) <;> simp only [hw] at h <;> cases h <;>
          exact .inl ⟨rfl, t, d, rfl, hd⟩

mutual
/-- Compact text of a document has no control bytes. -/
theorem render_ge (d : Nat) : ∀ x : Doc, DocOk x → ∀ c ∈ render ⟨none, none⟩ d x, 0x20 ≤ c
  | .leaf r t => by
    intro h c hc
    exact scalarTok_ge h c hc
  | .arr xs => by
    intro h c hc
    have ih := renderElems_ge (d + 1) true xs h c
    simp only [render, paint, newline, List.mem_append, List.mem_cons, List.not_mem_nil, or_false, ite_self, false_or] at hc
    rcases hc with rfl | hc | rfl
    · decide
    · exact ih hc
    · decide
  | .obj ms => by
    intro h c hc
    have ih := renderMembers_ge (d + 1) true ms h c
    simp only [render, paint, newline, List.mem_append, List.mem_cons, List.not_mem_nil, or_false, ite_self, false_or] at hc
    rcases hc with rfl | hc | rfl
    · decide
    · exact ih hc
    · decide
  | .bare nl => by
    intro _ c hc
    simp only [render, paint, newline, margin, ite_self, List.mem_append, List.mem_cons, List.not_mem_nil, or_false, false_or] at hc
    rcases hc with rfl | rfl <;> decide
theorem renderElems_ge (d : Nat) (first : Bool) : ∀ xs : List Doc, DocOkL xs → ∀ c ∈ renderElems ⟨none, none⟩ d first xs, 0x20 ≤ c
  | [] => by intro _ c hc; simp [renderElems] at hc
  | x :: xs => by
    intro h c hc
    have ih := render_ge d x h.1 c
    have ih2 := renderElems_ge d false xs h.2 c
    simp only [renderElems, paint, newline, List.mem_append, List.not_mem_nil, false_or] at hc
    rcases hc with hc | hc | hc
    · split at hc
      · simp at hc
      · simp only [List.mem_cons, List.not_mem_nil, or_false] at hc; subst hc; decide
    · exact ih hc
    · exact ih2 hc
theorem renderMembers_ge (d : Nat) (first : Bool) : ∀ ms : List (Role × Bytes × Doc), DocOkM ms →
    ∀ c ∈ renderMembers ⟨none, none⟩ d first ms, 0x20 ≤ c
  | [] => by intro _ c hc; simp [renderMembers] at hc
  | (r, k, x) :: ms => by
    intro h c hc
    have ih := render_ge d x h.2.1 c
    have ih2 := renderMembers_ge d false ms h.2.2 c
    have ik := jstring_ge h.1 c
    simp only [renderMembers, paint, newline, gap, List.mem_append, List.not_mem_nil, false_or, List.mem_cons, or_false,
      Option.isSome, Bool.false_eq_true, if_false] at hc
    rcases hc with hc | hc | rfl | hc | hc
    · split at hc
      · simp at hc
      · simp only [List.mem_cons, List.not_mem_nil, or_false] at hc; subst hc; decide
    · exact ik hc
    · decide
    · exact ih hc
    · exact ih2 hc
end

/-- **C28** (partial: clean values) Without colors and Indenter, what is written is one line:
a JSON text without control bytes and a newline. -/
theorem C28_line_partial (ji : Bytes → Bytes → Bytes → Option Bytes) (e e' : Encoder) (v : GV) (w : Bytes → Option Err)
    (ws : List Bytes) (hv : Clean (e.cfg ji) v) (hc : e.clrs = none) (hi : e.ind = none)
    (h : e.encode ji v w = .done e' none ws) :
    ∃ t, ws = [t ++ [0x0a]] ∧ IsJson t ∧ ∀ c ∈ t, 0x20 ≤ c := by
  rcases C28_all_or_nothing ji e e' v w none ws h with ⟨_, t, d, hw, hb⟩ | ⟨x, hx, _⟩
  · have hd0 : e.depth = (0 : Nat) := by simp [Encoder.depth, hi]
    have hs := hb []
    rw [hd0] at hs
    obtain ⟨x, _, hx, ho, _⟩ := clean_success hv hs
    have hst : styleOf (e.cfg ji) = ⟨none, none⟩ := by simp [styleOf, Encoder.cfg, hc, hi]
    have hj := C25_valid_json_partial hv hc (by intro i h'; simp [Encoder.cfg, hi] at h') hs
    obtain ⟨t', e1, hj⟩ := hj
    simp only [List.nil_append] at e1 ho
    subst e1
    refine ⟨t, hw, hj, ?_⟩
    rw [ho, hst]
    exact render_ge 0 x hx
  · cases hx

example (w : Bytes → Option Err) : ∃ e', newEncoder.encode (fun _ _ _ => none) (.slice [.int 1, .nil]) w =
    .done e' none [bs! "[1,null]\n"] := by
  have h : enc (newEncoder.cfg fun _ _ _ => none) (.slice [.int 1, .nil]) [] newEncoder.depth =
      .done (bs! "[1,null]") 0 none := by decide +kernel
  cases hw : w (bs! "[1,null]\n") with
  | none => exact ⟨newEncoder, by simp only [Encoder.encode, h, List.cons_append, List.nil_append, hw]; rfl⟩
  | some x => exact ⟨{ newEncoder with err := some x }, by simp only [Encoder.encode, h, List.cons_append, List.nil_append, hw]; rfl⟩

/-! ### C29 -/

/-- One successful `Encode` of a clean value leaves the encoder as it was. -/
theorem encode_same {ji : Bytes → Bytes → Bytes → Option Bytes} {e e' : Encoder} {v : GV} {w : Bytes → Option Err}
    {ws : List Bytes} (hv : Clean (e.cfg ji) v) (hd : 0 ≤ e.depth) (h : e.encode ji v w = .done e' none ws) (he' : e'.err = none) :
    e' = e := by
  unfold Encoder.encode at h
  cases he : e.err with
  | some x => simp only [he] at h; cases h
  | none =>
    simp only [he] at h
    cases ho : enc (e.cfg ji) v [] e.depth with
    | panic => simp only [ho] at h; cases h
    | done b d er =>
      cases er with
      | some x => simp only [ho] at h; cases h
      | none =>
        have hn : e.depth = (e.depth.toNat : Int) := by omega
        rw [hn] at ho
        have hdd := C56_balanced_partial hv ho
        rw [← hn] at ho hdd
        simp only [ho, hdd] at h
        have : (e.ind.map fun i => (i.1, e.depth)) = e.ind := by
          cases hi : e.ind with
          | none => rfl
          | some i => simp [Encoder.depth, hi]
        simp only [this] at h
        split at h <;> cases h
        · cases he'
        · cases e; simp only at he; subst he; rfl

/-- **C29** (partial: clean values that are encoded without error) After any sequence of `Encode` calls
the encoder is what it was before, so that every further call writes and
returns what it would have at the start. -/
theorem C29_history_partial (ji : Bytes → Bytes → Bytes → Option Bytes) (e e' : Encoder) (hd : 0 ≤ e.depth) :
    ∀ (vs : List (GV × (Bytes → Option Err))) (rs : List (Option Err × List Bytes)), (∀ v ∈ vs, Clean (e.cfg ji) v.1) →
      e.run ji (vs.map fun v => .encode v.1 v.2) = some (e', rs) → (∀ r ∈ rs, r.1 = none) → e'.err = none → e' = e := by
  intro vs
  induction vs with
  | nil => intro rs _ h _ _; simp only [List.map_nil, Encoder.run] at h; cases h; rfl
  | cons v vs ih =>
    intro rs hv h hr he'
    simp only [List.map_cons, Encoder.run, Encoder.call] at h
    cases h1 : e.encode ji v.1 v.2 with
    | panic => simp only [h1] at h; cases h
    | done e1 ret ws =>
      simp only [h1] at h
      cases h2 : Encoder.run ji e1 (vs.map fun v => .encode v.1 v.2) with
      | none => simp only [h2] at h; cases h
      | some p =>
        obtain ⟨e2, rs2⟩ := p
        simp only [h2] at h
        cases h
        have hret : ret = none := hr (ret, ws) (by simp)
        subst hret
        cases h3 : e1.err with
        | none =>
          have := encode_same (hv v (by simp)) hd h1 h3
          subst this
          exact ih rs2 (fun x hx => hv x (by simp [hx])) h2 (fun x hx => hr x (by simp [hx])) he'
        | some x =>
          -- a write failed: the next call would return the error
          cases vs with
          | nil => simp only [List.map_nil, Encoder.run] at h2; cases h2; rw [h3] at he'; cases he'
          | cons v2 vs2 =>
            simp only [List.map_cons, Encoder.run, Encoder.call, Encoder.encode, h3] at h2
            split at h2
            · cases h2
            · cases h2
              have := hr (some x, []) (by simp)
              cases this

/-- **C29** (partial: no Indenter) Without an Indenter the same holds for all values
and whether or not they were encoded successfully. -/
theorem C29_compact_partial (ji : Bytes → Bytes → Bytes → Option Bytes) (e e' : Encoder) (hi : e.ind = none) :
    ∀ (vs : List (GV × (Bytes → Option Err))) (rs : List (Option Err × List Bytes)),
      e.run ji (vs.map fun v => .encode v.1 v.2) = some (e', rs) → e'.err = none → e' = e := by
  have step : ∀ (v : GV) (w : Bytes → Option Err) e1 ret ws, e.encode ji v w = .done e1 ret ws → e1 = e ∨ ∃ x, e1.err = some x := by
    intro v w e1 ret ws h
    unfold Encoder.encode at h
    cases he : e.err with
    | some x => simp only [he] at h; cases h; exact .inl rfl
    | none =>
      simp only [he, hi] at h
      cases ho : enc (e.cfg ji) v [] e.depth with
      | panic => simp only [ho] at h; cases h
      | done b d er =>
        have hee : ({ e with err := none, ind := none } : Encoder) = e := by
          cases e; simp only at he hi; subst he hi; rfl
        cases er with
        | some x => simp only [ho, Option.map] at h; cases h; left; exact hee
        | none =>
          simp only [ho, Option.map] at h
          split at h <;> cases h
          · exact .inr ⟨_, rfl⟩
          · left; exact hee
  have stuck : ∀ (vs : List (GV × (Bytes → Option Err))) (e1 e2 : Encoder) rs x, e1.err = some x →
      e1.run ji (vs.map fun v => .encode v.1 v.2) = some (e2, rs) → e2 = e1 := by
    intro vs
    induction vs with
    | nil => intro e1 e2 rs x _ h; simp only [List.map_nil, Encoder.run] at h; cases h; rfl
    | cons v vs ih =>
      intro e1 e2 rs x h1 h
      simp only [List.map_cons, Encoder.run, Encoder.call, Encoder.encode, h1] at h
      split at h
      · cases h
      · cases h; exact ih _ _ _ x h1 (by assumption)
  intro vs
  induction vs with
  | nil => intro rs h _; simp only [List.map_nil, Encoder.run] at h; cases h; rfl
  | cons v vs ih =>
    intro rs h he'
    simp only [List.map_cons, Encoder.run, Encoder.call] at h
    cases h1 : e.encode ji v.1 v.2 with
    | panic => simp only [h1] at h; cases h
    | done e1 ret ws =>
      simp only [h1] at h
      cases h2 : Encoder.run ji e1 (vs.map fun v => .encode v.1 v.2) with
      | none => simp only [h2] at h; cases h
      | some p =>
        obtain ⟨e2, rs2⟩ := p
        simp only [h2] at h
        cases h
        rcases step _ _ _ _ _ h1 with rfl | ⟨x, hx⟩
        · exact ih _ h2 he'
        · have := stuck _ _ _ _ x hx h2
          rw [this, hx] at he'; cases he'

/-- The answers of a run, for comparing runs. -/
def answers (e : Encoder) (vs : List GV) : Option (List (Option Err × List Bytes)) :=
  (e.run (fun _ _ _ => none) (vs.map fun v => .encode v fun _ => none)).map (·.2)

/-- **C29** fails with an Indenter: after a failed call, later output is indented one level too deep. -/
theorem C29_fails : answers (newEncoder.set (.indent [] (bs! " "))) [.slice [.int 1]] = some [(none, [bs! "[\n 1\n]\n"])] ∧
    answers (newEncoder.set (.indent [] (bs! " "))) [.slice [.unsupported], .slice [.int 1]] =
      some [(some .unsupportedType, []), (none, [bs! "[\n  1\n ]\n"])] := by decide +kernel

/-! ### C30 -/

/-- Full statement of C30's first half. -/
def C30_statement : Prop := ∀ (ji : Bytes → Bytes → Bytes → Option Bytes) (e : Encoder) (v : GV) (w : Bytes → Option Err)
  (e' : Encoder) (ret : Option Err) (b : Bytes) (x : Err), e.encode ji v w = .done e' ret [b] → w b = some x → ret = some x

/-- **C30** fails: the call during which the writer fails returns nil. -/
theorem C30_fails : ¬ C30_statement := by
  intro h
  have h1 : newEncoder.encode (fun _ _ _ => none) .nil (fun _ => some (.other 1)) =
    .done { newEncoder with err := some (.other 1) } none [bs! "null\n"] := rfl
  have := h _ _ _ _ _ _ _ (.other 1) h1 rfl
  cases this

/-- **C30** (partial: from the next call on) Once a write has failed, every later `Encode`
returns that error and writes nothing, whatever is set or encoded in between. -/
theorem C30_sticky_partial (ji : Bytes → Bytes → Bytes → Option Bytes) (e e' : Encoder) (v : GV) (w : Bytes → Option Err)
    (ret : Option Err) (b : Bytes) (x : Err) (h : e.encode ji v w = .done e' ret [b]) (hw : w b = some x)
    (cs : List EncCall) : ∃ e'' rs, e'.run ji cs = some (e'', rs) ∧
      rs = cs.map fun c => match c with | .set _ => (none, []) | .encode _ _ => (some x, []) := by
  have he' : e'.err = some x := by
    unfold Encoder.encode at h
    cases he : e.err with
    | some x => simp only [he] at h; cases h
    | none =>
      simp only [he] at h
      cases ho : enc (e.cfg ji) v [] e.depth with
      | panic => simp only [ho] at h; cases h
      | done b d er =>
        cases er with
        | some x => simp only [ho] at h; cases h
        | none =>
          simp only [ho] at h
          split at h
          · cases h; rename_i hx; rw [hw] at hx; cases hx; rfl
          · cases h; rename_i hx; rw [hw] at hx; cases hx
  clear h
  induction cs generalizing e' with
  | nil => exact ⟨e', [], rfl, rfl⟩
  | cons c cs ih =>
    cases c with
    | set s =>
      have : (e'.set s).err = some x := by cases s <;> exact he'
      obtain ⟨e2, rs, h1, h2⟩ := ih (e'.set s) this
      exact ⟨e2, _, by simp only [Encoder.run, Encoder.call, h1]; rfl, by rw [List.map_cons, ← h2]⟩
    | encode v2 w2 =>
      obtain ⟨e2, rs, h1, h2⟩ := ih e' he'
      exact ⟨e2, _, by simp only [Encoder.run, Encoder.call, Encoder.encode, he', h1]; rfl, by rw [List.map_cons, ← h2]⟩

example : (newEncoder.run (fun _ _ _ => none) [.encode .nil (fun _ => some (.other 7)), .set (.sortMapKeys false),
    .encode .nil (fun _ => none)]).map (·.2) = some [(none, [bs! "null\n"]), (none, []), (some (.other 7), [])] := by
  decide +kernel

/-- **C24** (partial: clean values) `SetIndent` with a prefix or an indent switches the layout on, with
exactly that prefix and indent and from nesting level 0; with neither, output is compact. -/
theorem C24_setIndent_partial (ji : Bytes → Bytes → Bytes → Option Bytes) (e e' : Encoder) (pre indent : Bytes) (v : GV)
    (w : Bytes → Option Err) (ws : List Bytes) (hv : Clean ((e.set (.indent pre indent)).cfg ji) v)
    (h : (e.set (.indent pre indent)).encode ji v w = .done e' none ws) :
    ∃ x, meaning ((e.set (.indent pre indent)).cfg ji) v = .doc x ∧
      ws = [render ⟨e.clrs, if pre = [] ∧ indent = [] then none else some (pre, indent)⟩ 0 x ++ [0x0a]] := by
  rcases C28_all_or_nothing ji _ e' v w none ws h with ⟨_, t, d, hw, hb⟩ | ⟨x, hx, _⟩
  · have hs := hb []
    have hd0 : (e.set (.indent pre indent)).depth = (0 : Nat) := rfl
    rw [hd0] at hs
    obtain ⟨x, hm, hx, ho, _⟩ := clean_success hv hs
    refine ⟨x, hm, ?_⟩
    simp only [List.nil_append] at ho
    have hst : styleOf ((e.set (.indent pre indent)).cfg ji) =
        ⟨e.clrs, if pre = [] ∧ indent = [] then none else some (pre, indent)⟩ := by
      simp [styleOf, Encoder.cfg, Encoder.set, newIndenter]
    rw [hw, ho, hst]
  · cases hx

example : ∃ e', (newEncoder.set (.indent (bs! ">") [])).encode (fun _ _ _ => none) (.slice [.int 1]) (fun _ => none) =
    .done e' none [bs! "[\n>1\n>]\n"] := by
  have h : enc ((newEncoder.set (.indent (bs! ">") [])).cfg fun _ _ _ => none) (.slice [.int 1]) []
      (newEncoder.set (.indent (bs! ">") [])).depth = .done (bs! "[\n>1\n>]") 0 none := by decide +kernel
  exact ⟨_, by simp only [Encoder.encode, h, List.cons_append, List.nil_append]; rfl⟩

end JC.Props

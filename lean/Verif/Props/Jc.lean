import Verif.Model.Jc
import Verif.Props.RoundTrip
import Verif.Props.Terminal
/-!
Property C46: what the command `jc` writes, and when it writes color sequences.
-/
namespace JC.Props
open JC Spec

mutual
theorem tree_noQuoted {c : DCfg} : ∀ (g : GV) (v : DV), SameTree c g v → NoQuoted g
  | .slice xs, _, h => by
    simp only [SameTree] at h
    obtain ⟨vs, h, _⟩ := h
    simp only [NoQuoted]
    exact trees_noQuoted xs vs h
  | .mapSI es, _, h => by
    simp only [SameTree] at h
    obtain ⟨_, _, _, h, _⟩ := h
    simp only [NoQuoted]
    exact entries_noQuoted es h
  | .iface g _, v, h => by simp only [SameTree] at h; simp only [NoQuoted]; exact tree_noQuoted g v h
  | .ptr g, v, h => by simp only [SameTree] at h; simp only [NoQuoted]; exact tree_noQuoted g v h
  | .array xs, v, h => by simp [SameTree] at h
  | .map xs, v, h => by simp [SameTree] at h
  | .struct xs, v, h => by simp [SameTree] at h
  | .quoted g, v, h => by simp [SameTree] at h
  | .emb g _, v, h => by simp [SameTree] at h
  | .nil, _, _ | .bool _, _, _ | .int _, _, _ | .uint _, _, _ | .float _, _, _ | .string _, _, _ | .number _, _, _ | .bytes _, _, _ | .bytesNil, _, _
  | .sliceNil, _, _ | .mapNil, _, _ | .ptrNil, _, _ | .time _ _, _, _ | .mapRaw _, _, _ | .raw _, _, _ | .rawNil, _, _
  | .jsonM _ _, _, _ | .textM _ _, _, _ | .embNil _, _, _ | .unsupported, _, _ => by simp [NoQuoted]
theorem trees_noQuoted {c : DCfg} : ∀ (gs : List GV) (vs : List DV), SameTrees c gs vs → NoQuotedL gs
  | [], _, _ => by simp [NoQuotedL]
  | g :: gs, vs, h => by
    simp only [SameTrees] at h
    obtain ⟨v, vs', _, h1, h2⟩ := h
    exact ⟨tree_noQuoted g v h1, trees_noQuoted gs vs' h2⟩
theorem entries_noQuoted {c : DCfg} : ∀ (es : List (Bytes × GV)), HaveTrees c es → NoQuotedS es
  | [], _ => by simp [NoQuotedS]
  | (k, g) :: es, h => by
    simp only [HaveTrees] at h
    obtain ⟨⟨v, h1⟩, h2⟩ := h
    exact ⟨tree_noQuoted g v h1, entries_noQuoted es h2⟩
end

theorem jcEncoder_err (f : JcFlags) (env : Environ) (out : Writer) : (jcEncoder f env out).err = none := by
  unfold jcEncoder; split <;> split <;> rfl

theorem jcEncoder_depth (f : JcFlags) (env : Environ) (out : Writer) : (jcEncoder f env out).depth = 0 := by
  unfold jcEncoder; split <;> split <;> rfl

theorem jcEncoder_ind (f : JcFlags) (env : Environ) (out : Writer) (ji) : WsLayout ((jcEncoder f env out).cfg ji) ∧ NoEscLayout ((jcEncoder f env out).cfg ji) := by
  have : ∀ i, ((jcEncoder f env out).cfg ji).ind = some i → i.pre = [] ∧ i.indent = bs! "  " := by
    intro i
    unfold jcEncoder
    split <;> split <;> simp [Encoder.cfg, Encoder.set, newEncoder, newIndenter] <;> rintro rfl <;> simp
  refine ⟨fun i h => ?_, fun i h => ?_⟩
  · rw [(this i h).1, (this i h).2]
    refine ⟨ws_nil, ?_⟩
    intro c hc
    simp at hc
    subst hc
    exact .space
  · rw [(this i h).1, (this i h).2]
    decide

theorem jcEncoder_clrs (f : JcFlags) (env : Environ) (out : Writer) :
    (jcEncoder f env out).clrs = if f.colorize = true ∧ isColorTerminal env out = true then some defaultColors else none := by
  unfold jcEncoder
  by_cases h : f.colorize = true ∧ isColorTerminal env out = true
  · rw [if_pos h, if_pos (c := (f.colorize && isColorTerminal env out) = true) (by simpa using h)]; simp only []; split <;> rfl
  · rw [if_neg h, if_neg (c := (f.colorize && isColorTerminal env out) = true) (by simpa using h)]; simp only []; split <;> rfl

theorem defaultColors_sgr : ColorsSgr defaultColors := by
  have h : ∀ ps : Bytes, (∀ c ∈ ps, SgrParam c) → Sgr ([0x1b] ++ (0x5b :: (ps ++ [0x6d]))) := fun ps h => .seq ps h
  exact ⟨h (bs! "2") (by decide), h (bs! "1") (by decide), h (bs! "36") (by decide), h (bs! "32") (by decide), h (bs! "34;1") (by decide),
    h (bs! "2") (by decide), h (bs! "32;2") (by decide), .none, .none, .none, .none, .none, h (bs! "32") (by decide)⟩

/-- What the command does once the input is read and the output is open. -/
theorem jc_run (f : JcFlags) (w : World) (hf : FloatsReturn w.lib) {b : Bytes} {v : DV} {sink : Sink} {out : Writer}
    (hb : jcInput f w = some b) (hv : unmarshal { lib := w.lib } 0 .iface b .ifaceNil = .done v none) (ho : jcOutput f w = some (sink, out)) :
    ∃ x y, jcMain f w = .done none (some sink) [x ++ [0x0a]] ∧ 0x1b ∉ y ∧ unmarshal { lib := w.lib } 0 .iface (y ++ [0x0a]) .ifaceNil = .done v none ∧
      stripAnsi .out (x ++ [0x0a]) = y ++ [0x0a] ∧ (¬ (f.colorize = true ∧ isColorTerminal w.env out = true) → x = y) := by
  obtain ⟨j, hj, hd⟩ := (C35_generic _ 0 b .ifaceNil ifaceNil_noPtr v).1 hv
  have hs : SameTree { lib := w.lib } (.ptr (toGV v .iface)) v := by
    simp only [SameTree]
    exact denotes_same hf j v hd (jtext_ok hj)
  generalize hg : GV.ptr (toGV v .iface) = g at hs
  have hl := jcEncoder_ind f w.env out w.jsonIndent
  have hcl := jcEncoder_clrs f w.env out
  have he := jcEncoder_err f w.env out
  have hdp := jcEncoder_depth f w.env out
  generalize hen : jcEncoder f w.env out = e at *
  obtain ⟨d, h1, h2, h3⟩ := tree_shows (e.cfg w.jsonIndent).plain _ g v hs
  have hdoc := enc_does (e.cfg w.jsonIndent).plain g
  rw [h1] at hdoc
  have hy := hdoc [] 0 0 (fun _ => rfl)
  have hws : WsLayout (e.cfg w.jsonIndent).plain := hl.1
  have hne : NoEscLayout (e.cfg w.jsonIndent).plain := hl.2
  have hder := render_derives (wsStyle_of (c := (e.cfg w.jsonIndent).plain) rfl hws) 0 d h2
  have hesc := render_noEsc (st := styleOf (e.cfg w.jsonIndent).plain) rfl (noEsc_of hne) 0 d h2
  rw [List.nil_append] at hy
  generalize render (styleOf (e.cfg w.jsonIndent).plain) 0 d = y at *
  have hback : unmarshal { lib := w.lib } 0 .iface (y ++ [0x0a]) .ifaceNil = .done v none := by
    rw [C35_generic _ _ _ _ ifaceNil_noPtr]
    exact ⟨jsonOf d, ⟨[], y, [0x0a], by simp, ws_nil, by intro c hc; simp at hc; subst hc; exact .lf, hder⟩, h3⟩
  have hesc' : 0x1b ∉ y ++ [0x0a] := by simpa using hesc
  have hrun : ∀ x, enc (e.cfg w.jsonIndent) g [] 0 = .done x 0 none → jcMain f w = .done none (some sink) [x ++ [0x0a]] := by
    intro x hx
    unfold jcMain
    rw [hb]; simp only []
    rw [hv]; simp only []
    rw [ho]; simp only []
    rw [hen, hg]
    unfold Encoder.encode
    rw [he]; simp only []
    rw [hdp, hx]; simp only []
    cases w.write (x ++ [0x0a]) <;> rfl
  have hcases : enc (e.cfg w.jsonIndent) g [] 0 = .done y 0 none ∧ ¬ (f.colorize = true ∧ isColorTerminal w.env out = true) ∨
      (f.colorize = true ∧ isColorTerminal w.env out = true) ∧ (e.cfg w.jsonIndent) = (e.cfg w.jsonIndent).tint defaultColors := by
    by_cases hc : f.colorize = true ∧ isColorTerminal w.env out = true
    · rw [if_pos hc] at hcl
      exact .inr ⟨hc, by simp [Cfg.tint, Encoder.cfg, hcl]⟩
    · rw [if_neg hc] at hcl
      refine .inl ⟨?_, hc⟩
      have : (e.cfg w.jsonIndent) = (e.cfg w.jsonIndent).plain := by simp [Cfg.plain, Encoder.cfg, hcl]
      rw [this]; exact hy
  rcases hcases with ⟨hx, hc⟩ | ⟨hc, ht⟩
  · exact ⟨y, y, hrun y hx, hesc, hback, painted_strip (Painted.refl _) hesc', fun _ => rfl⟩
  · have hsim := sim_enc (c := e.cfg w.jsonIndent) defaultColors_sgr g (tree_noQuoted g v hs) [] [] 0
    rw [← ht, show enc (e.cfg w.jsonIndent).plain g [] 0 = .done y 0 none from hy] at hsim
    generalize hx : enc (e.cfg w.jsonIndent) g [] 0 = o at hsim
    generalize ho2 : Out.done y 0 none = o2 at hsim
    cases hsim with
    | panic => cases ho2
    | done x y' d' e' hp =>
      cases ho2
      exact ⟨x, y', hrun x (by simpa using hx), by simpa using hesc, by simpa using hback, painted_strip (hp.same _) (by simpa using hesc'), fun h => absurd hc h⟩

/-- Every run that gets as far as the output. -/
theorem jc_inv {f : JcFlags} {w : World} {err : Option Err} {sink : Sink} {ws : List Bytes} (h : jcMain f w = .done err (some sink) ws) :
    ∃ b v out, jcInput f w = some b ∧ unmarshal { lib := w.lib } 0 .iface b .ifaceNil = .done v none ∧ jcOutput f w = some (sink, out) := by
  unfold jcMain at h
  cases hb : jcInput f w with
  | none => rw [hb] at h; simp at h
  | some b =>
    rw [hb] at h; simp only [] at h
    cases hv : unmarshal { lib := w.lib } 0 .iface b .ifaceNil with
    | crash _ => rw [hv] at h; cases h
    | done v e =>
      rw [hv] at h
      cases e with
      | some e => simp at h
      | none =>
        simp only [] at h
        cases ho : jcOutput f w with
        | none => rw [ho] at h; simp at h
        | some so =>
          obtain ⟨s, out⟩ := so
          rw [ho] at h; simp only [] at h
          split at h
          · cases h
          · cases h
            exact ⟨b, v, out, rfl, hv, rfl⟩

/-- **C46** (with `-c=false`, or an output that is no color terminal in the sense of C45) Nothing
that is written contains ESC. -/
theorem C46_plain (f : JcFlags) (w : World) (hf : FloatsReturn w.lib) {err : Option Err} {sink : Sink} {ws : List Bytes} {out : Writer}
    (h : jcMain f w = .done err (some sink) ws) (ho : jcOutput f w = some (sink, out))
    (hc : f.colorize = false ∨ ColorTerminal w.env IsTty out false) : ∀ x ∈ ws, 0x1b ∉ x := by
  obtain ⟨b, v, _, h1, h2, _⟩ := jc_inv h
  obtain ⟨x, y, h4, h5, _, _, h6⟩ := jc_run f w hf h1 h2 ho
  rw [h] at h4
  cases h4
  have : x = y := h6 (by
    rintro ⟨ha, hb⟩
    rcases hc with hc | hc
    · rw [hc] at ha; cases ha
    · rw [(C45_precedence w.env out false).2 hc] at hb; cases hb)
  subst this
  intro z hz
  simp at hz
  subst hz
  simpa using h5

/-- **C46** Without `-o` the output is standard output; it is plain with `-c=false` or if standard output is no
color terminal. -/
theorem C46_stdout (f : JcFlags) (w : World) (hf : FloatsReturn w.lib) {err : Option Err} {sink : Sink} {ws : List Bytes}
    (h : jcMain f w = .done err (some sink) ws) (ho : f.outputFile = []) :
    sink = .stdout ∧ ((f.colorize = false ∨ ColorTerminal w.env IsTty w.stdout false) → ∀ x ∈ ws, 0x1b ∉ x) := by
  obtain ⟨b, v, out, h1, h2, h3⟩ := jc_inv h
  have h4 := h3
  unfold jcOutput at h4
  rw [if_neg (by simp [ho])] at h4
  cases h4
  exact ⟨rfl, fun hc => C46_plain f w hf h h3 hc⟩

/-- **C46** With `-o` nothing is written to standard output: the output is the file named. -/
theorem C46_sink (f : JcFlags) (w : World) {err : Option Err} {sink : Sink} {ws : List Bytes}
    (h : jcMain f w = .done err (some sink) ws) (ho : f.outputFile ≠ []) : sink = .file f.outputFile := by
  obtain ⟨b, v, out, h1, h2, h3⟩ := jc_inv h
  unfold jcOutput at h3
  rw [if_pos ho] at h3
  cases hc : w.create f.outputFile with
  | none => rw [hc] at h3; cases h3
  | some o => rw [hc] at h3; simp at h3; exact h3.1.symm

/-- Full statement of C46 for output files: no color sequence is ever written to them. -/
def C46_statement : Prop := ∀ (f : JcFlags) (w : World) (err : Option Err) (path : Bytes) (ws : List Bytes), FloatsReturn w.lib →
  jcMain f w = .done err (some (.file path)) ws → ∀ x ∈ ws, 0x1b ∉ x

/-- **C46** (partial: `FORCE_COLOR` not set, or overruled by `NO_COLOR`, and the file is not itself a
terminal) No color sequence is written to an output file. -/
theorem C46_file_partial (f : JcFlags) (w : World) (hf : FloatsReturn w.lib) {err : Option Err} {path : Bytes} {ws : List Bytes}
    (h : jcMain f w = .done err (some (.file path)) ws) {out : Writer} (ho : w.create path = some out) (ht : ¬ IsTty out)
    (hforce : NonEmpty w.env (bs! "NO_COLOR") ∨ ¬ NonEmpty w.env (bs! "FORCE_COLOR")) : ∀ x ∈ ws, 0x1b ∉ x := by
  obtain ⟨b, v, out', _, _, h3⟩ := jc_inv h
  have : out' = out := by
    unfold jcOutput at h3
    split at h3
    · cases hc : w.create f.outputFile with
      | none => rw [hc] at h3; cases h3
      | some o => rw [hc] at h3; simp at h3; obtain ⟨rfl, rfl⟩ := h3; rw [ho] at hc; cases hc; rfl
    · simp at h3
  subst this
  refine C46_plain f w hf h h3 (.inr ?_)
  by_cases hn : NonEmpty w.env (bs! "NO_COLOR")
  · exact .noColor hn
  · have hforce := hforce.resolve_left hn
    by_cases hd : w.env (bs! "TERM") = some (bs! "dumb")
    · exact .dumb hn hforce hd
    · exact .no hn hforce hd ht

/-- A run with `FORCE_COLOR=1` and `-o out.json`. -/
def forcedWorld : World where
  env := fun n => if n = bs! "FORCE_COLOR" then some (bs! "1") else none
  stdin := .data (some (bs! "true"))
  readFile := fun _ => none
  create := fun _ => some (.file false none)
  stdout := .file false none
  write := fun _ => none
  lib := noLib

theorem forcedWorld_writes : jcMain { outputFile := bs! "out.json" } forcedWorld =
    .done none (some (.file (bs! "out.json"))) [bs! "\x1b[1mtrue\x1b[0m\n"] := by with_unfolding_all rfl

/-- **C46** fails: with `FORCE_COLOR` set the command writes color sequences to a regular file. -/
theorem C46_fails_force : ¬ C46_statement := by
  intro h
  have := h _ _ _ _ _ (by intro s f _ h; cases h) forcedWorld_writes _ List.mem_cons_self
  exact this (by decide)

/-- **C46** Whatever the flags and the environment: if the command succeeds, it has read a JSON text, and
what it wrote is, without color sequences, a JSON text followed by a line feed that `Unmarshal`
reads as the same tree. -/
theorem C46_data (f : JcFlags) (w : World) (hf : FloatsReturn w.lib) {err : Option Err} {sink : Sink} {ws : List Bytes}
    (h : jcMain f w = .done err (some sink) ws) :
    ∃ b v x, jcInput f w = some b ∧ unmarshal { lib := w.lib } 0 .iface b .ifaceNil = .done v none ∧ ws = [x] ∧
      unmarshal { lib := w.lib } 0 .iface (stripAnsi .out x) .ifaceNil = .done v none ∧ 0x1b ∉ stripAnsi .out x ∧ err = none := by
  obtain ⟨b, v, out, h1, h2, h3⟩ := jc_inv h
  obtain ⟨x, y, h4, h5, h6, h7, _⟩ := jc_run f w hf h1 h2 h3
  rw [h] at h4
  cases h4
  exact ⟨b, v, _, h1, h2, rfl, by rw [h7]; exact h6, by rw [h7]; simpa using h5, rfl⟩

/-- **C46** Input that is not a JSON text is reported, and nothing is opened or written. -/
theorem C46_invalid (f : JcFlags) (w : World) {b : Bytes} (hb : jcInput f w = some b) (hn : ¬ ∃ j, JText j b) :
    ∃ e, jcMain f w = .done (some e) none [] := by
  cases hv : unmarshal { lib := w.lib } 0 .iface b .ifaceNil with
  | crash x =>
    obtain ⟨v, e, h⟩ := unmarshal_done (c := { lib := w.lib }) (n := 0) (t := .iface) (b := b) (p := .ifaceNil) (Q := fun _ => True) (by simp [Held])
    rw [hv] at h; cases h
  | done v e =>
    cases e with
    | none => exact absurd ((C35_generic _ 0 b .ifaceNil ifaceNil_noPtr v).1 hv) (fun ⟨j, hj, _⟩ => hn ⟨j, hj⟩)
    | some e =>
      refine ⟨e, ?_⟩
      unfold jcMain
      rw [hb]; simp only []
      rw [hv]

/-- **C46** Without an input file and without data on standard input (a terminal, for instance) the command ends with an error; nothing is opened or written. -/
theorem C46_no_input (f : JcFlags) (w : World) (hf : f.inputFile = []) (hs : ∀ b, w.stdin ≠ .data (some b)) :
    ∃ e, jcMain f w = .done (some e) none [] := by
  refine ⟨.other 100, ?_⟩
  unfold jcMain jcInput
  rw [if_neg (by simp [hf])]
  cases h : w.stdin with
  | statFails => rfl
  | charDevice => rfl
  | data s =>
    cases s with
    | none => rfl
    | some b => exact absurd h (hs b)

/-- **C46** The data written was read from the input file if one is named, and else from standard input. -/
theorem C46_source (f : JcFlags) (w : World) (hf : FloatsReturn w.lib) {err : Option Err} {sink : Sink} {ws : List Bytes}
    (h : jcMain f w = .done err (some sink) ws) :
    ∃ b j, (f.inputFile ≠ [] ∧ w.readFile f.inputFile = some b ∨ f.inputFile = [] ∧ w.stdin = .data (some b)) ∧ JText j b := by
  obtain ⟨b, v, x, h1, h2, _⟩ := C46_data f w hf h
  obtain ⟨j, hj, _⟩ := (C35_generic _ 0 b .ifaceNil ifaceNil_noPtr v).1 h2
  refine ⟨b, j, ?_, hj⟩
  unfold jcInput at h1
  split at h1
  · next hi => exact .inl ⟨hi, h1⟩
  · next hi =>
    refine .inr ⟨by simpa using hi, ?_⟩
    cases hs : w.stdin with
    | statFails => rw [hs] at h1; cases h1
    | charDevice => rw [hs] at h1; cases h1
    | data s => rw [hs] at h1; simp only [] at h1; rw [h1]

/-- A terminal as standard input is an error, and no input if a file is named. -/
example : jcMain {} { forcedWorld with stdin := .charDevice } = .done (some (.other 100)) none [] ∧
    jcMain { inputFile := bs! "i", pretty := false } { forcedWorld with env := fun _ => none, stdin := .charDevice, readFile := fun _ => some (bs! " null") } =
      .done none (some .stdout) [bs! "null\n"] := ⟨by with_unfolding_all rfl, by with_unfolding_all rfl⟩

/-- Finding: a failed write is not reported; the command ends without an error (see C30). -/
theorem C46_write_error_lost : jcMain {} { forcedWorld with write := fun _ => some (.other 5) } =
    .done none (some .stdout) [bs! "\x1b[1mtrue\x1b[0m\n"] := by with_unfolding_all rfl

/-- Concrete case: pretty-printed plain output to a pipe. -/
example : jcMain {} { forcedWorld with env := fun _ => none, stdin := .data (some (bs! " [true,null]")) } =
    .done none (some .stdout) [bs! "[\n  true,\n  null\n]\n"] := by with_unfolding_all rfl

/-- Concrete case: `NO_COLOR` overrules `FORCE_COLOR`. -/
example : jcMain { pretty := false, outputFile := bs! "o" } { forcedWorld with env := fun _ => some (bs! "1"), stdin := .data (some (bs! "{\"a\" : false}")) } =
    .done none (some (.file (bs! "o"))) [bs! "{\"a\":false}\n"] := by with_unfolding_all rfl

end JC.Props

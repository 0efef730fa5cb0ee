import Verif.Lemmas.Segs
/-!
Properties C19 to C26 and C56: what the encoder writes.

Throughout, `enc c v b n` is `Append` with configuration `c` (flags, colors,
Indenter) for value `v`, buffer `b` and an Indenter at nesting level `n`.
`Clean c v` (`Spec/Clean.lean`) excludes the inputs on which the code is known
to misbehave; each exclusion has a counterexample theorem below.
-/
namespace JC.Props
open JC Spec

/-! ### C26 -/

/-- **C26** `Append` returns the buffer it was given followed by bytes that do
not depend on that buffer, with and without error. -/
theorem C26_append_only (c : Cfg) (v : GV) (d : Int) :
    (∀ b, enc c v b d = .panic) ∨ ∃ out d' e, ∀ b, enc c v b d = .done (b ++ out) d' e := by
  have key : ∀ b, enc c v b d = (enc c v [] d).prepend b := by
    intro b; have := loc_enc c v b [] d; rwa [List.append_nil] at this
  cases h : enc c v [] d with
  | panic => left; intro b; rw [key, h]; rfl
  | done out d' e => right; exact ⟨out, d', e, fun b => by rw [key, h]; rfl⟩

example : enc {} (.slice [.int 1, .unsupported]) (bs! "x") 0 = .done (bs! "x") 0 (some .unsupportedType) ∧
    enc {} (.slice [.int 1, .bool true]) (bs! "x") 0 = .done (bs! "x[1,true]") 0 none := by decide +kernel

/-! ### C25 -/

/-- A style without colors and with a whitespace layout. -/
theorem wsStyle_of {c : Cfg} (hc : c.clrs = none) (hw : WsLayout c) : WsStyle (styleOf c) := by
  refine ⟨hc, ?_⟩
  intro p i e
  simp only [styleOf] at e
  cases hi : c.ind with
  | none => rw [hi] at e; cases e
  | some j =>
    rw [hi] at e
    simp only [] at e
    split at e
    · cases e
    · cases e; exact hw j hi

/-- Full statement of C25. -/
def C25_statement : Prop := ∀ (c : Cfg) (v : GV) (b out : Bytes) (n : Nat) (d : Int), c.clrs = none → WsLayout c →
  enc c v b n = .done out d none → ∃ t, out = b ++ t ∧ IsJson t

/-- **C25** (partial: clean values) Encoding that succeeds writes JSON. -/
theorem C25_valid_json_partial {c : Cfg} {v : GV} (h : Clean c v) (hc : c.clrs = none) (hw : WsLayout c)
    {b out : Bytes} {n : Nat} {d : Int} (hs : enc c v b n = .done out d none) : ∃ t, out = b ++ t ∧ IsJson t := by
  obtain ⟨x, _, hx, e, _⟩ := clean_success h hs
  refine ⟨_, e, jsonOf x, [], render (styleOf c) n x, [], by simp, ws_nil, ws_nil, ?_⟩
  exact render_derives (wsStyle_of hc hw) n x hx

/-- ... and a clean value never makes the encoder panic. -/
theorem C25_no_panic_partial {c : Cfg} {v : GV} (h : Clean c v) (b : Bytes) (n : Nat) : enc c v b n ≠ .panic := by
  have hd := enc_does c v
  have hf := clean_fine c v h
  generalize meaning c v = m at *
  cases m with
  | doc x => rw [hd b n n (fun _ => rfl)]; simp
  | err e => obtain ⟨b', d', e1, _⟩ := hd b n n (fun _ => rfl); rw [e1]; simp
  | wild => exact absurd hf id

theorem notJson_1abc : ¬ IsJson (bs! "1abc") := by
  rw [← C01_valid_iff]; decide +kernel

/-- **C25** fails: a `Number` that starts with a number is written as it is. -/
theorem C25_fails_number : ¬ C25_statement := by
  intro h
  obtain ⟨t, e, ht⟩ := h {} (.number (bs! "1abc")) [] (bs! "1abc") 0 0 rfl (by intro i hi; cases hi) (by decide +kernel)
  exact notJson_1abc (by simpa using e ▸ ht)

/-- **C25** fails: a nil embedded pointer after a member leaves a stray comma. -/
theorem C25_fails_embedded : ∃ out, enc {} (.struct [(⟨bs! "A", false⟩, .int 1), (⟨bs! "B", false⟩, .embNil false),
      (⟨bs! "C", false⟩, .int 2)]) [] 0 = .done out 0 none ∧ ¬ IsJson out := by
  refine ⟨bs! "{\"A\":1,,\"C\":2}", by decide +kernel, ?_⟩
  rw [← C01_valid_iff]; decide +kernel

/-- **C25** fails: without sorting, errors in a `map[string]RawMessage` are dropped. -/
theorem C25_fails_rawmap : ∃ out, enc { sortMapKeys := false } (.mapRaw [(bs! "a", some (bs! "x"))]) [] 0 = .done out 0 none ∧
    ¬ IsJson out := by
  refine ⟨bs! "{\"a\":}", by decide +kernel, ?_⟩
  rw [← C01_valid_iff]; decide +kernel

/-- **C25** fails: a nil interface as `TextMarshaler` map key gives the key `null`. -/
theorem C25_fails_nilkey : ∃ out, enc {} (.map [(.text .isNil, .int 1)]) [] 0 = .done out 0 none ∧ ¬ IsJson out := by
  refine ⟨bs! "{null:1}", by decide +kernel, ?_⟩
  rw [← C01_valid_iff]; decide +kernel

example : Clean {} (.struct [(⟨bs! "A", true⟩, .embNil true), (⟨bs! "B", false⟩, .quoted (.int 1)), (⟨bs! "C", false⟩, .raw (bs! "[1]"))]) ∧
    enc {} (.struct [(⟨bs! "A", true⟩, .embNil true), (⟨bs! "B", false⟩, .quoted (.int 1)), (⟨bs! "C", false⟩, .raw (bs! "[1]"))]) [] 0 =
      .done (bs! "{\"B\":\"1\",\"C\":[1]}") 0 none := by
  constructor
  · simp [Clean, CleanF, isRollback, isEmpty, Stringable, CleanRaw]
  · decide +kernel

/-! ### C56 -/

/-- **C56** (partial: clean values, on success) The Indenter is left at the
nesting level it was found at. -/
theorem C56_balanced_partial {c : Cfg} {v : GV} (h : Clean c v) {b out : Bytes} {n : Nat} {d : Int}
    (hs : enc c v b n = .done out d none) : d = n := (clean_success h hs).choose_spec.2.2.2

/-- **C56** fails on errors: the nesting level is not restored. -/
theorem C56_fails_error : enc { ind := some (newIndenter [] (bs! " ")) } (.slice [.unsupported]) [] 0 =
    .done [] 1 (some .unsupportedType) := by decide +kernel

/-- **C56** fails on success for a trusted message that is not JSON. -/
theorem C56_fails_trusted : ∃ out, enc { ind := some (newIndenter [] (bs! " ")), trustRaw := true } (.raw (bs! "[")) [] 0 =
    .done out 1 none := ⟨bs! "[", by decide +kernel⟩

example : Clean { ind := some (newIndenter [] (bs! " ")) } (.slice [.slice [.int 1], .mapSI [(bs! "a", .nil)]]) ∧
    enc { ind := some (newIndenter [] (bs! " ")) } (.slice [.slice [.int 1], .mapSI [(bs! "a", .nil)]]) [] 0 =
    .done (bs! "[\n [\n  1\n ],\n {\n  \"a\": null\n }\n]") 0 none := by
  constructor
  · simp [Clean, CleanL, CleanS]
  · decide +kernel

/-! ### C19 -/

/-- Full statement of C19. -/
def C19_statement : Prop := ∀ (c : Cfg) (cl : Colors) (v : GV) (n : Nat) (x y : Bytes) (d1 d2 : Int), ColorsSgr cl →
  0x1b ∉ y → enc { c with clrs := some cl } v [] n = .done x d1 none → enc { c with clrs := none } v [] n = .done y d2 none →
  stripAnsi .out x = y

/-- **C19** (partial: no `,string` fields and no integer map keys) With and
without colors, encoding ends the same way (same error, same nesting level, or a
panic), and removing the color sequences from the colored output gives the
plain output, provided that itself contains no ESC. -/
theorem C19_transparent_partial (c : Cfg) {cl : Colors} (hcl : ColorsSgr cl) {v : GV} (hv : NoQuoted v) (d : Int) :
    (enc { c with clrs := some cl } v [] d = .panic ∧ enc { c with clrs := none } v [] d = .panic) ∨
    ∃ x y d' e, enc { c with clrs := some cl } v [] d = .done x d' e ∧ enc { c with clrs := none } v [] d = .done y d' e ∧
      (0x1b ∉ y → stripAnsi .out x = y) := by
  have h := sim_enc (c := c) hcl v hv [] [] d
  generalize enc { c with clrs := some cl } v [] d = o1 at *
  generalize enc { c with clrs := none } v [] d = o2 at *
  cases h with
  | panic => exact .inl ⟨rfl, rfl⟩
  | done x y d e hp => exact .inr ⟨x, y, d, e, rfl, rfl, fun hy => by simpa using painted_strip hp hy⟩

/-- **C19** (partial) For clean values and an indent without ESC the plain output never contains
ESC, so the condition holds. -/
theorem C19_transparent_clean_partial (c : Cfg) {cl : Colors} (hcl : ColorsSgr cl) {v : GV} (hv : NoQuoted v)
    (hclean : Clean { c with clrs := none } v) (hl : NoEscLayout c) (n : Nat) {x : Bytes} {d : Int}
    (hx : enc { c with clrs := some cl } v [] n = .done x d none) :
    enc { c with clrs := none } v [] n = .done (stripAnsi .out x) d none := by
  rcases C19_transparent_partial c hcl hv n with ⟨h, _⟩ | ⟨x', y, d', e, h1, h2, h3⟩
  · rw [h] at hx; cases hx
  · rw [h1] at hx
    cases hx
    obtain ⟨xx, _, hok, e, _⟩ := clean_success hclean h2
    have hy : 0x1b ∉ y := by
      rw [e]; simp only [List.nil_append]
      exact render_noEsc rfl (noEsc_of (c := { c with clrs := none }) hl) n xx hok
    rw [h2, h3 hy]

/-- **C19** fails for a field with the `string` option: the color codes end up inside the JSON string. -/
theorem C19_fails_string_option : ¬ C19_statement := by
  intro h
  have e := h {} { number := [0x1b, 0x5b, 0x33, 0x36, 0x6d] } (.quoted (.int 1)) 0 (bs! "\"\\u001b[36m1\\u001b[0m\"") (bs! "\"1\"") 0 0 (by
    refine ⟨.none, .none, .seq [0x33, 0x36] (by decide), .none, .none, .none, .none, .none, .none, .none, .none, .none, .none⟩)
    (by decide) (by decide +kernel) (by decide +kernel)
  exact absurd e (by decide +kernel)

/-- **C19** fails for integer map keys: with colors they have escape codes in them. -/
theorem C19_fails_int_key : enc { clrs := some { } } (.map [(.int 1, .nil)]) [] 0 =
    .done ([0x7b] ++ reset ++ bs! "\"1\\u001b[0m\"" ++ [0x3a] ++ reset ++ bs! "null" ++ reset ++ [0x7d] ++ reset) 0 none := by decide +kernel

example : ∃ x, enc { clrs := some defaultColors } (.slice [.int 1, .bytesNil]) [] 0 = .done x 0 none ∧ 0x1b ∈ x ∧
    stripAnsi .out x = bs! "[1,null]" :=
  ⟨[0x5b] ++ reset ++ (bs! "\x1b[36m1") ++ reset ++ [0x2c] ++ reset ++ (bs! "\x1b[2m\x1b[2mnull") ++ reset ++ reset ++ [0x5d] ++ reset,
    by decide +kernel, by decide +kernel, by decide +kernel⟩

/-! ### C20 -/

/-- Full statement of C20. -/
def C20_statement : Prop := ∀ (c : Cfg) (cl : Colors) (v : GV) (n : Nat) (out : Bytes) (d : Int), c.clrs = some cl → ColorsSgr cl →
  NoEscLayout c → enc c v [] n = .done out d none → termOk .out [] false out = true

/-- **C20** (partial: clean values) Colorized output is a sequence of
color-token-reset segments and uncolored bytes without ESC. -/
theorem C20_segments_partial {c : Cfg} {cl : Colors} (hc : c.clrs = some cl) {v : GV} (h : Clean c v) (hl : NoEscLayout c)
    {b out : Bytes} {n : Nat} {d : Int} (hs : enc c v b n = .done out d none) : ∃ t, out = b ++ t ∧ Segs cl t := by
  obtain ⟨x, _, hx, e, _⟩ := clean_success h hs
  refine ⟨_, e, ?_⟩
  have := render_segs (st := styleOf c) hc (noEsc_of hl) n x hx [] .nil
  rwa [List.append_nil] at this

/-- **C20** (partial: clean values) A terminal fed with the output has no color
active at any line feed nor at the end. -/
theorem C20_reset_partial {c : Cfg} {cl : Colors} (hc : c.clrs = some cl) (hcl : ColorsSgr cl) {v : GV} (h : Clean c v) (hl : NoEscLayout c)
    {out : Bytes} {n : Nat} {d : Int} (hs : enc c v [] n = .done out d none) : termOk .out [] false out = true := by
  obtain ⟨t, e, ht⟩ := C20_segments_partial hc h hl hs
  rw [e]; exact segs_term hcl ht

/-- **C20** fails for a `Number` with a line feed after its digits: the color is active at the end of that line. -/
theorem C20_fails_number : ¬ C20_statement := by
  intro h
  have e := h { clrs := some { number := [0x1b, 0x5b, 0x33, 0x36, 0x6d] } } _ (.number (bs! "1\n")) 0 (bs! "\x1b[36m1\n\x1b[0m") 0 rfl
    ⟨.none, .none, .seq [0x33, 0x36] (by decide), .none, .none, .none, .none, .none, .none, .none, .none, .none, .none⟩
    (fun _ e => by cases e) (by decide +kernel)
  exact absurd e (by decide +kernel)

/-- **C20** fails for a trusted message that is not JSON, which is written as it is: a color in it stays active. -/
theorem C20_fails_trusted : enc { clrs := some {}, trustRaw := true, escapeHTML := false } (.raw (bs! "x\x1b[31m")) [] 0 =
      .done (bs! "x\x1b[31m") 0 none ∧ termOk .out [] false (bs! "x\x1b[31m") = false := by decide +kernel

example : termOk .out [] false (bs! "\x1b[36m1\x1b[0m\n") = true ∧ termOk .out [] false (bs! "\x1b[36m1") = false ∧
    termOk .out [] false (bs! "\x1b[36m1\n\x1b[0m") = false := by decide +kernel

/-! ### C21 -/

/-- **C21** The encoder writes the rendering (`Spec/Render.lean`) of the document
that the value denotes (`Spec/Meaning.lean`), where every token is in the color of its role. -/
theorem C21_rendering_partial {c : Cfg} {v : GV} {x : Doc} (h : meaning c v = .doc x) (b : Bytes) (n : Nat) :
    enc c v b n = .done (b ++ render (styleOf c) n x) n none := by
  have hd := enc_does c v
  rw [h] at hd
  exact hd b n n (fun _ => rfl)

/-- **C21** Where the document says `null`, the output has `Null`, the text and a reset, and so on for
each role; punctuation without a color of its own takes `Punc`. -/
theorem C21_roles (cl : Colors) (lay : Option (Bytes × Bytes)) (t : Bytes) :
    paint ⟨some cl, lay⟩ .null t = cl.null ++ t ++ reset ∧ paint ⟨some cl, lay⟩ .bool t = cl.bool ++ t ++ reset ∧
    paint ⟨some cl, lay⟩ .number t = cl.number ++ t ++ reset ∧ paint ⟨some cl, lay⟩ .string t = cl.string ++ t ++ reset ∧
    paint ⟨some cl, lay⟩ .key t = cl.key ++ t ++ reset ∧ paint ⟨some cl, lay⟩ .bytes t = cl.bytes ++ t ++ reset ∧
    paint ⟨some cl, lay⟩ .time t = cl.time ++ t ++ reset ∧ paint ⟨some cl, lay⟩ .text t = cl.textMarshaler ++ t ++ reset ∧
    (cl.comma = [] → paint ⟨some cl, lay⟩ .comma t = cl.punc ++ t ++ reset) ∧
    (cl.comma ≠ [] → paint ⟨some cl, lay⟩ .comma t = cl.comma ++ t ++ reset) := by
  refine ⟨rfl, rfl, rfl, rfl, rfl, rfl, rfl, rfl, ?_, ?_⟩
  · intro h; simp [paint, colorOf, h]
  · intro h; simp [paint, colorOf, h]

/-- **C21** fails: in a RawMessage, a value after an empty object is colored as a key. -/
theorem C21_fails_raw : enc { clrs := some { key := bs! "K", string := bs! "S" } } (.raw (bs! "[{},\"x\"]")) [] 0 =
    .done ([0x5b] ++ reset ++ [0x7b] ++ reset ++ [0x7d] ++ reset ++ [0x2c] ++ reset ++ bs! "K\"x\"" ++ reset ++ [0x5d] ++ reset) 0 none := by
  decide +kernel

/-- **C21** fails: keys that are `TextMarshaler`s get the color of `TextMarshaler`s. -/
theorem C21_fails_text_key : enc { clrs := some { key := bs! "K", textMarshaler := bs! "T" } } (.map [(.text (.ok (bs! "a")), .nil)]) [] 0 =
    .done ([0x7b] ++ reset ++ bs! "T\"a\"" ++ reset ++ [0x3a] ++ reset ++ bs! "null" ++ reset ++ [0x7d] ++ reset) 0 none := by
  decide +kernel

/-! ### C22 -/

/-- **C22** (partial: clean values; nil Colors) Without colors there is no ESC in the output. -/
theorem C22_nil_colors_partial {c : Cfg} (hc : c.clrs = none) {v : GV} (h : Clean c v) (hl : NoEscLayout c)
    {out : Bytes} {n : Nat} {d : Int} (hs : enc c v [] n = .done out d none) : 0x1b ∉ out := by
  obtain ⟨x, _, hx, e, _⟩ := clean_success h hs
  rw [e]
  exact render_noEsc hc (noEsc_of hl) n x hx

/-- **C22** fails: with the zero `Colors{}` every token is followed by a reset sequence. -/
theorem C22_fails_zero_colors : enc { clrs := some {} } .nil [] 0 = .done (bs! "null\x1b[0m") 0 none := by decide +kernel

/-- **C22** fails for a `Number` with garbage after its digits. -/
theorem C22_fails_number : enc {} (.number (bs! "1\x1b[31m")) [] 0 = .done (bs! "1\x1b[31m") 0 none := by decide +kernel

/-! ### C23 -/

/-- Full statement of C23. -/
def C23_statement : Prop := ∀ (c : Cfg) (v : GV) (n : Nat) (out : Bytes) (d : Int), c.clrs = none → WsLayout c →
  enc c v [] n = .done out d none → enc { c with ind := none } v [] 0 = .done (stripWs false false out) 0 none

/-- **C23** (partial: clean values) Removing insignificant whitespace from
indented output gives the compact output for the same value. -/
theorem C23_indent_transparent_partial {c : Cfg} {v : GV} (h : Clean c v) (hc : c.clrs = none) (hw : WsLayout c)
    {out : Bytes} {n : Nat} {d : Int} (hs : enc c v [] n = .done out d none) :
    enc { c with ind := none } v [] 0 = .done (stripWs false false out) 0 none := by
  obtain ⟨x, hm, hx, e, _⟩ := clean_success h hs
  have hm' : meaning { c with ind := none } v = .doc x := by
    rw [← hm]; exact meaning_congr (c := { c with ind := none }) (c' := c) rfl rfl rfl rfl v
  have hst : styleOf { c with ind := none } = ⟨none, none⟩ := by simp [styleOf, hc]
  have h0 := C21_rendering_partial hm' [] 0
  rw [hst, render_compact] at h0
  have hd := render_derives (wsStyle_of hc hw) n x hx
  have := stripWs_text (j := jsonOf x) (b := render (styleOf c) n x) ⟨[], render (styleOf c) n x, [], by simp, ws_nil, ws_nil, hd⟩
  rw [e, List.nil_append, this]
  exact h0

/-- ... and errors, too, do not depend on the indentation. -/
theorem C23_errors_partial {c : Cfg} {v : GV} (h : Clean c v) {out : Bytes} {n : Nat} {d : Int} {e : Err}
    (hs : enc c v [] n = .done out d (some e)) : ∃ out' d', enc { c with ind := none } v [] 0 = .done out' d' (some e) := by
  have hm' : meaning { c with ind := none } v = meaning c v := meaning_congr (c := { c with ind := none }) (c' := c) rfl rfl rfl rfl v
  have hd := enc_does c v
  have hd' := enc_does { c with ind := none } v
  have hf := clean_fine c v h
  rw [hm'] at hd'
  generalize meaning c v = m at *
  cases m with
  | doc x => have := hd [] n n (fun _ => rfl); rw [hs] at this; cases this
  | err e' =>
    obtain ⟨b', d', e1, _⟩ := hd [] n n (fun _ => rfl)
    rw [hs] at e1; cases e1
    obtain ⟨b', d', e1, _⟩ := hd' [] 0 0 (fun _ => rfl)
    exact ⟨b', d', e1⟩
  | wild => exact absurd hf id

/-- **C23** fails for a `Number` with a space after its digits: the space is in the compact output, too. -/
theorem C23_fails_number : ¬ C23_statement := by
  intro h
  have e := h {} (.number (bs! "1 ")) 0 (bs! "1 ") 0 rfl (fun _ e => by cases e) (by decide +kernel)
  exact absurd e (by decide +kernel)

example : stripWs false false (bs! "[\n [\n  1\n ],\n {\n  \"a b\": null\n }\n]") = bs! "[[1],{\"a b\":null}]" := by decide +kernel

/-! ### C24 -/

/-- **C24** (partial: clean values) Layout of indented output: the output is the document of
the value written with a line break, prefix and one indent per nesting level
before each element, member and closer of a non-empty container, and one space after each colon
(`render`). -/
theorem C24_layout_partial {c : Cfg} {pre indent : Bytes} (hi : c.ind = some ⟨false, pre, indent⟩) {v : GV} (h : Clean c v)
    {out : Bytes} {n : Nat} {d : Int} (hs : enc c v [] n = .done out d none) :
    ∃ x, meaning c v = .doc x ∧ out = render ⟨c.clrs, some (pre, indent)⟩ n x := by
  obtain ⟨x, hm, _, e, _⟩ := clean_success h hs
  refine ⟨x, hm, ?_⟩
  have : styleOf c = ⟨c.clrs, some (pre, indent)⟩ := by simp [styleOf, hi]
  rw [e, this]; rfl

/-- **C24** What `render` does with arrays and objects. -/
theorem C24_render (pre indent : Bytes) (n : Nat) (x y : Doc) (k : Bytes) :
    let st : Style := ⟨none, some (pre, indent)⟩
    let line := fun m => 0x0a :: (pre ++ (List.replicate m indent).flatten)
    render st n (.arr []) = [0x5b, 0x5d] ∧ render st n (.obj []) = [0x7b, 0x7d] ∧
    render st n (.arr [x, y]) = 0x5b :: (line (n + 1) ++ render st (n + 1) x ++ 0x2c :: (line (n + 1) ++ render st (n + 1) y ++
      line n ++ [0x5d])) ∧
    render st n (.obj [(.key, k, x)]) = 0x7b :: (line (n + 1) ++ k ++ 0x3a :: 0x20 :: (render st (n + 1) x ++ line n ++ [0x7d])) := by
  simp [render, renderElems, renderMembers, paint, newline, margin, gap]

/-- **C24** fails for structs: without fields, prefix and indents are written between the braces. -/
theorem C24_fails_empty_struct : enc { ind := some (newIndenter (bs! ">") (bs! " ")) } (.struct []) [] 0 =
    .done (bs! "{>}") 0 none := by decide +kernel

/-- ... and with all fields omitted there is a line break. -/
theorem C24_fails_omitted : enc { ind := some (newIndenter (bs! ">") (bs! " ")) } (.struct [(⟨bs! "a", true⟩, .int 0)]) [] 0 =
    .done (bs! "{\n>}") 0 none := by decide +kernel

end JC.Props

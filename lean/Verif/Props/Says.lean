import Verif.Lemmas.Says
/-!
Property C78: the text that the encoder writes says what the value holds, and a value that can be
said is written.

`Says sorted v j` (`Spec/Says.lean`) relates a value to the documents that represent it. It knows
nothing of escapes, buffers and formatting: strings are compared by what their literals mean
(`Spec/Strings.lean`), integers by their value, members of maps up to the order required.
-/
namespace JC.Props
open JC Spec

/-- Full statement of C78: without colors, the encoder succeeds exactly for values that a document
can represent, and what it writes is such a document. -/
def C78_statement : Prop := ∀ (c : Cfg) (v : GV) (b : Bytes) (n : Nat), c.clrs = none → WsLayout c →
  (∀ out d, enc c v b n = .done out d none → ∃ t j, out = b ++ t ∧ JText j t ∧ Says c.sortMapKeys v j) ∧
  ((∃ j, Says c.sortMapKeys v j) → ∃ out d, enc c v b n = .done out d none)

/-- **C78** (partial: values that are `Clean` and `Tidy`) What is written says what the value holds. -/
theorem C78_says_partial {c : Cfg} {v : GV} (h : Clean c v) (ht : Tidy c v) (hc : c.clrs = none) (hw : WsLayout c)
    {b out : Bytes} {n : Nat} {d : Int} (hs : enc c v b n = .done out d none) :
    ∃ t j, out = b ++ t ∧ JText j t ∧ Says c.sortMapKeys v j := by
  obtain ⟨x, hm, hx, e, _⟩ := clean_success h hs
  refine ⟨_, jsonOf x, e, ⟨[], render (styleOf c) n x, [], by simp, ws_nil, ws_nil, ?_⟩, value_says hc v h ht hm⟩
  exact render_derives (wsStyle_of hc hw) n x hx

/-- **C78** (partial: as above) Encoding succeeds exactly for the values that some document represents. -/
theorem C78_succeeds_partial {c : Cfg} {v : GV} (h : Clean c v) (ht : Tidy c v) (hc : c.clrs = none) (b : Bytes) (n : Nat) :
    (∃ out d, enc c v b n = .done out d none) ↔ ∃ j, Says c.sortMapKeys v j := by
  constructor
  · rintro ⟨out, d, hs⟩
    obtain ⟨x, hm, _⟩ := clean_success h hs
    exact ⟨_, value_says hc v h ht hm⟩
  · rintro ⟨j, hj⟩
    obtain ⟨x, hx⟩ := value_doc v h ht hj
    exact ⟨_, _, C21_rendering_partial hx b n⟩

/-- **C78** (partial: as above) ... and a value that no document represents is an error, not a panic. -/
theorem C78_error_partial {c : Cfg} {v : GV} (h : Clean c v) (ht : Tidy c v) (hc : c.clrs = none) (b : Bytes) (n : Nat)
    (hno : ¬ ∃ j, Says c.sortMapKeys v j) : ∃ out d e, enc c v b n = .done out d (some e) := by
  cases he : enc c v b n with
  | panic => exact absurd he (C25_no_panic_partial h b n)
  | done out d e =>
    cases e with
    | none => exact absurd ((C78_succeeds_partial h ht hc b n).1 ⟨out, d, he⟩) hno
    | some e => exact ⟨out, d, e, rfl⟩

/-- **C78** (partial: as above) Reading the text back into an empty interface gives what the document denotes. -/
theorem C78_generic_partial {c : Cfg} {v : GV} (h : Clean c v) (ht : Tidy c v) (hc : c.clrs = none) (hw : WsLayout c)
    {out : Bytes} {n : Nat} {d : Int} (hs : enc c v [] n = .done out d none) (dc : DCfg) (fuel : Nat) (w : DV)
    (hu : unmarshal dc fuel .iface out .ifaceNil = .done w none) : ∃ j, Says c.sortMapKeys v j ∧ Denotes dc j w := by
  obtain ⟨t, j, e, hj, hv⟩ := C78_says_partial h ht hc hw hs
  rw [List.nil_append] at e
  subst e
  obtain ⟨j', hj', hd⟩ := (C35_generic dc fuel out .ifaceNil (by intro p; simp) w).1 hu
  cases jtext_unique hj hj'
  exact ⟨j, hv, hd⟩

/-- **C78** fails for a raw message with trailing data: it is no document, but its first value is written, -/
theorem C78_fails_raw : ¬ C78_statement := by
  intro h
  obtain ⟨t, j, _, _, hs⟩ := (h {} (.raw (bs! "1 x")) [] 0 rfl (by intro i hi; cases hi)).1 (bs! "1") 0 (by decide +kernel)
  cases hs with
  | raw _ j' _ hj _ =>
    have : ¬ IsJson (bs! "1 x") := by rw [← C01_valid_iff]; decide +kernel
    exact this ⟨j', hj⟩

/-- ... for an `omitempty` field that holds a nil pointer in an interface: it is not empty, yet left out, -/
theorem C78_fails_omitempty : enc {} (.struct [(⟨bs! "A", true⟩, .iface .ptrNil true)]) [] 0 = .done (bs! "{}") 0 none ∧
    ¬ Says true (.struct [(⟨bs! "A", true⟩, .iface .ptrNil true)]) (.obj []) := by
  refine ⟨by decide +kernel, ?_⟩
  intro h
  cases h with
  | struct _ _ hf =>
    cases hf with
    | left _ _ _ _ _ he _ => exact he
    | behind _ _ _ _ hr _ => cases hr

/-- ... and for a field behind a nil embedded pointer after a member: a document could leave it out, but what is
written is none. -/
theorem C78_fails_embedded : let v : GV := .struct [(⟨bs! "A", false⟩, .int 1), (⟨bs! "B", false⟩, .embNil false)]
    (∃ j, Says true v j) ∧ ∃ out, enc {} v [] 0 = .done out 0 none ∧ ¬ IsJson out := by
  intro v
  refine ⟨⟨_, .struct _ _ (.member _ _ _ _ _ _ (by simp) rfl (spells_quote true _) (.int 1 _ (decimal_iff.2 rfl))
    (.behind _ _ _ _ rfl .nil))⟩, bs! "{\"A\":1,}", by decide +kernel, ?_⟩
  rw [← C01_valid_iff]; decide +kernel

/-- A struct with an omitted field, a quoted number, a map to be sorted and a raw message. -/
example : let v : GV := .struct [(⟨bs! "A", true⟩, .int 0), (⟨bs! "B", false⟩, .quoted (.int (-7))),
      (⟨bs! "C", false⟩, .map [(.int 2, .bool true), (.int 10, .bytes [0xff])]), (⟨bs! "D", false⟩, .raw (bs! "[1, \"<\"]"))]
    enc {} v [] 0 = .done (bs! "{\"B\":\"-7\",\"C\":{\"10\":\"/w==\",\"2\":true},\"D\":[1,\"\\u003c\"]}") 0 none ∧
    ∃ t j, bs! "{\"B\":\"-7\",\"C\":{\"10\":\"/w==\",\"2\":true},\"D\":[1,\"\\u003c\"]}" = [] ++ t ∧ JText j t ∧ Says true v j := by
  intro v
  have e : enc {} v [] 0 = .done (bs! "{\"B\":\"-7\",\"C\":{\"10\":\"/w==\",\"2\":true},\"D\":[1,\"\\u003c\"]}") 0 none := by decide +kernel
  refine ⟨e, C78_says_partial (c := {}) ?_ ?_ rfl (by intro i hi; cases hi) (n := 0) e⟩
  · simp [v, Clean, CleanF, CleanE, CleanKey, isRollback, isEmpty, Stringable, CleanRaw]
  · simp only [v, Tidy, TidyF, TidyE, TidyRaw, OwnMemory, StrictRaw]
    refine ⟨fun _ => .inl trivial, trivial, by simp, trivial, by simp, ⟨trivial, trivial, trivial⟩, by simp, ?_, trivial⟩
    intro _
    refine .inl ⟨(C01_valid_iff _).1 (by decide +kernel), ?_⟩
    intro x t e
    injection e with e _
    subst e
    intro h; cases h

end JC.Props

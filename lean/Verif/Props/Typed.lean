import Verif.Lemmas.Typed
/-!
Property C38: variables of composite types survive marshalling and unmarshalling.
-/
namespace JC.Props
open JC Spec

/-- **C38** Full statement: whatever the encoder sees in a variable of a supported type (`Seen`; no raw
messages and no `Unmarshaler`s) is written, and unmarshalling what was written into a zero variable of
the type gives an equal variable. Refuted by `C38_fails_nil_pointee` and `C38_fails_utf8`; see
`C38_roundtrip_partial`. -/
def C38_statement : Prop := ∀ (dc : DCfg) (n : Nat) (t : Ty) (v : DV) (g : GV), LibOk dc.lib → t.tree → Seen dc (fun _ => True) (fun _ => True) t v g →
  ∃ out, marshal g = some (.ok out) ∧ unmarshal dc n t out (zero t) = .done (clip v) none

/-- **C38** (partial: strings and map keys are UTF-8, and no pointer leads to a nil value) Encoding a
variable succeeds, and unmarshalling what was written into a zero variable of its type gives an equal
variable. Any layout of whitespace, with or without HTML escaping and key sorting, map entries
in any order. -/
theorem C38_roundtrip_partial (c : Cfg) (hc : c.clrs = none) (hw : WsLayout c) (dc : DCfg) (hl : LibOk dc.lib) (m n : Nat) {t : Ty} (ht : t.tree) {v : DV} {g : GV}
    (h : Seen dc (fun s => Coerced s s) (fun w => isNilDV w = false) t v g) :
    ∃ out, enc c g [] n = .done out n none ∧ unmarshal dc m t out (zero t) = .done (clip v) none := by
  have key : ∀ dyn dynJ, decJN dc m t = decJ dc dyn dynJ t → ∃ x, meaning c g = .doc x ∧ DocOk x ∧ decJN dc m t (jsonOf x) (zero t) = some (clip v) := by
    intro dyn dynJ e
    obtain ⟨x, h1, h2, h3, _⟩ := seen_back hc dc dyn dynJ t v g h
    exact ⟨x, h1, h2, by rw [e]; exact h3⟩
  obtain ⟨x, h1, h2, h3⟩ : ∃ x, meaning c g = .doc x ∧ DocOk x ∧ decJN dc m t (jsonOf x) (zero t) = some (clip v) := by
    cases m with
    | zero => exact key _ _ rfl
    | succ m => exact key _ _ rfl
  have hd := enc_does c g
  rw [h1] at hd
  refine ⟨_, hd [] n n (fun _ => rfl), ?_⟩
  refine (unmarshal_tree hl ht ⟨[], render (styleOf c) n x, [], by simp, ws_nil, ws_nil, ?_⟩ (held_zero _ _ _) _).2 h3
  exact render_derives (wsStyle_of hc hw) n x h2

/-- **C38** The same for `Marshal` and `Unmarshal`. -/
theorem C38_marshal_partial (dc : DCfg) (hl : LibOk dc.lib) (m : Nat) {t : Ty} (ht : t.tree) {v : DV} {g : GV}
    (h : Seen dc (fun s => Coerced s s) (fun w => isNilDV w = false) t v g) :
    ∃ out, marshal g = some (.ok out) ∧ unmarshal dc m t out (zero t) = .done (clip v) none := by
  obtain ⟨out, h1, h2⟩ := C38_roundtrip_partial {} rfl (by intro i h; cases h) dc hl m 0 ht h
  refine ⟨out, ?_, h2⟩
  unfold marshal
  rw [show enc {} g [] 0 = .done out _ none from h1]

/-- Different variables are written differently: the encoder loses nothing but memory beyond the length of slices. -/
theorem C38_injective_partial (c : Cfg) (hc : c.clrs = none) (hw : WsLayout c) (dc : DCfg) (hl : LibOk dc.lib) (n : Nat) {t : Ty} (ht : t.tree) {v v' : DV} {g g' : GV}
    (h : Seen dc (fun s => Coerced s s) (fun w => isNilDV w = false) t v g) (h' : Seen dc (fun s => Coerced s s) (fun w => isNilDV w = false) t v' g')
    (e : enc c g [] n = enc c g' [] n) : clip v = clip v' := by
  obtain ⟨out, h1, h2⟩ := C38_roundtrip_partial c hc hw dc hl 0 n ht h
  obtain ⟨out', h1', h2'⟩ := C38_roundtrip_partial c hc hw dc hl 0 n ht h'
  rw [e, h1'] at h1
  injection h1 with h1
  subst h1
  rw [h2] at h2'
  injection h2'

theorem seen_statement : C38_statement → ∀ {t : Ty} {v : DV} {g : GV}, t.tree → Seen { lib := noLib } (fun _ => True) (fun _ => True) t v g →
    ∃ out, marshal g = some (.ok out) ∧ unmarshal { lib := noLib } 0 t out (zero t) = .done (clip v) none :=
  fun h => h _ _ _ _ _ noLib_ok

/-- A pointer to a nil slice comes back as a nil pointer. (`encoding/json` does the same.) -/
theorem C38_fails_nil_pointee : ¬ C38_statement := by
  intro h
  obtain ⟨out, h1, h2⟩ := seen_statement h (t := .ptr (.slice .bool)) (v := .ptr .sliceNil) (g := .ptr .sliceNil) trivial
    (.inr ⟨_, _, rfl, rfl, trivial, .inl ⟨rfl, rfl⟩⟩)
  have e : marshal (.ptr .sliceNil) = some (.ok (bs! "null")) := rfl
  rw [e] at h1
  cases h1
  have e2 : unmarshal { lib := noLib } 0 (.ptr (.slice .bool)) (bs! "null") (zero (.ptr (.slice .bool))) = .done .ptrNil none := rfl
  rw [e2] at h2
  injection h2 with h2
  cases h2

/-- Bytes of a string that are not UTF-8 come back as U+FFFD. (`encoding/json` does the same.) -/
theorem C38_fails_utf8 : ¬ C38_statement := by
  intro h
  obtain ⟨out, h1, h2⟩ := seen_statement h (t := .string) (v := .string [0xff]) (g := .string [0xff]) trivial ⟨_, trivial, rfl, rfl⟩
  have e : marshal (.string [0xff]) = some (.ok (bs! "\"\\ufffd\"")) := by with_unfolding_all rfl
  rw [e] at h1
  cases h1
  have e2 : unmarshal { lib := noLib } 0 .string (bs! "\"\\ufffd\"") (zero .string) = .done (.string (bs! "\uFFFD")) none := by with_unfolding_all rfl
  rw [e2] at h2
  injection h2 with h2
  revert h2
  simp [clip]

/-- Why `Seen` asks fields with `omitempty` to be non-empty or zero: an empty slice is dropped and comes back nil. -/
example : marshal (.struct [(⟨bs! "a", true⟩, .slice [])]) = some (.ok (bs! "{}")) ∧
    unmarshal { lib := noLib } 0 (.struct [(bs! "a", .slice .bool)]) (bs! "{}") (zero (.struct [(bs! "a", .slice .bool)])) = .done (.struct [.sliceNil]) none :=
  ⟨rfl, rfl⟩

/-- The zero `json.Number` is written as `0` and comes back as that: `Seen` asks for a number. -/
example : marshal (.number []) = some (.ok (bs! "0")) ∧ unmarshal { lib := noLib } 0 .number (bs! "0") (zero .number) = .done (.number (bs! "0")) none :=
  ⟨rfl, rfl⟩

/-- Concrete case: `struct { A []int8 "a,omitempty"; M map[int]*string "m"; Z [2]bool "z" }` with an omitted nil slice, a map
seen in the other order, and spare capacity in a byte slice. -/
example : ∃ out, marshal (.struct [(⟨bs! "a", true⟩, .sliceNil), (⟨bs! "m", false⟩, .map [(.int 7, .ptrNil), (.int (-3), .ptr (.string (bs! "<é>")))]),
      (⟨bs! "z", false⟩, .array [.bool true, .bool false]), (⟨bs! "b", false⟩, .bytes [1, 2])]) = some (.ok out) ∧
    unmarshal { lib := noLib } 0 (.struct [(bs! "a", .slice (.int .int8)), (bs! "m", .map (.int .int) (.ptr .string)), (bs! "z", .array 2 .bool), (bs! "b", .bytes)]) out
      (zero (.struct [(bs! "a", .slice (.int .int8)), (bs! "m", .map (.int .int) (.ptr .string)), (bs! "z", .array 2 .bool), (bs! "b", .bytes)])) =
      .done (.struct [.sliceNil, .map [(.int (-3), .ptr (.string (bs! "<é>"))), (.int 7, .ptrNil)], .array [.bool true, .bool false], .bytes [1, 2] []]) none := by
  refine C38_marshal_partial _ noLib_ok 0 (v := .struct [.sliceNil, .map [(.int (-3), .ptr (.string (bs! "<é>"))), (.int 7, .ptrNil)], .array [.bool true, .bool false], .bytes [1, 2] [9]])
    (by simp [Ty.tree, treeF]) ?_
  refine ⟨_, _, rfl, rfl, by decide +kernel, ?_, ?_⟩
  · simp only [List.mem_cons, List.not_mem_nil, or_false, forall_eq_or_imp, forall_eq, coerced_iff]
    decide +kernel
  · refine ⟨_, _, _, _, _, rfl, rfl, rfl, fun _ _ => rfl, .inl ⟨rfl, rfl⟩, ?_⟩
    refine ⟨_, _, _, _, _, rfl, rfl, rfl, (fun h => by cases h), ?_, ?_⟩
    · refine .inr ⟨_, _, [(.int (-3), .ptr (.string (bs! "<é>"))), (.int 7, .ptrNil)], rfl, rfl, by decide +kernel, .swap _ _ _, ?_⟩
      refine ⟨⟨⟨by simp [KindFits, FitsSigned], rfl⟩, .inr ⟨_, _, rfl, rfl, rfl, _, coerced_iff.2 (by decide +kernel), rfl, rfl⟩⟩,
        ⟨⟨by simp [KindFits, FitsSigned], rfl⟩, .inl ⟨rfl, rfl⟩⟩, trivial⟩
    · refine ⟨_, _, _, _, _, rfl, rfl, rfl, (fun h => by cases h), ⟨_, _, rfl, rfl, rfl, ⟨_, rfl, rfl⟩, ⟨_, rfl, rfl⟩, trivial⟩, ?_⟩
      exact ⟨_, _, _, _, _, rfl, rfl, rfl, (fun h => by cases h), .inr ⟨_, _, rfl, rfl⟩, rfl, rfl⟩

/-- Concrete case: an interface and fields with the `string` option. -/
example : ∃ out, marshal (.struct [(⟨bs! "n", false⟩, .quoted (.int (-40))), (⟨bs! "s", false⟩, .quoted (.string (bs! "\""))), (⟨bs! "x", true⟩, .iface (.bool true) false)]) = some (.ok out) ∧
    unmarshal { lib := noLib } 0 (.struct [(bs! "n", .quotedInt (.int .int8)), (bs! "s", .quoted .string), (bs! "x", .iface)]) out
      (zero (.struct [(bs! "n", .quotedInt (.int .int8)), (bs! "s", .quoted .string), (bs! "x", .iface)])) =
      .done (.struct [.int (-40), .string (bs! "\""), .iface .bool (.bool true)]) none := by
  refine C38_marshal_partial _ noLib_ok 0 (v := .struct [.int (-40), .string (bs! "\""), .iface .bool (.bool true)]) (by simp [Ty.tree, treeF]) ?_
  refine ⟨_, _, rfl, rfl, by decide +kernel, ?_, ?_⟩
  · simp only [List.mem_cons, List.not_mem_nil, or_false, forall_eq_or_imp, forall_eq, coerced_iff]
    decide +kernel
  · refine ⟨_, _, _, _, _, rfl, rfl, rfl, (fun h => by cases h), ⟨_, by simp [KindFits, FitsSigned], rfl, rfl⟩, ?_⟩
    refine ⟨_, _, _, _, _, rfl, rfl, rfl, (fun h => by cases h), ⟨_, coerced_iff.2 (by decide +kernel), rfl, rfl⟩, ?_⟩
    exact ⟨_, _, _, _, _, rfl, rfl, rfl, (fun _ h => by cases h), ⟨by simp [SameTree], .inr ⟨by simp, _, rfl⟩⟩, rfl, rfl⟩

end JC.Props

import Verif.Lemmas.Indent
import Verif.Lemmas.Segs
import Verif.Props.Encoder
import Verif.Props.Raw
import Verif.Props.Token
/-!
Properties C63 (`MarshalIndent`) and C64 (trusted raw messages that are not JSON).
-/
namespace JC
open Spec

/-- `Indent` of a JSON text. -/
theorem goIndent_text {j : Json} {s w1 v w2 pre indent : Bytes} (e : s = w1 ++ v ++ w2) (h1 : Ws w1) (h2 : Ws w2)
    (hj : Derives (.value j) v) :
    goIndent s pre indent = if deep j > maxNesting then none else some (render (lay pre indent) 0 (docOf false j) ++ w2) := by
  have hs : skipSpaces s = v ++ w2 := by
    rw [e, List.append_assoc, skipSpaces_ws_append h1]
    obtain ⟨c, t, rfl, hc, _⟩ := derives_value_head hj
    exact skipSpaces_cons_of_not hc
  have hp : parseValue (v ++ w2) = .ok v w2 := parseValue_complete hj (follow_of_numStop (numStop_ws h2))
  unfold goIndent
  rw [hs, hp]
  simp only [skipSpaces_ws h2, ne_eq, not_true_eq_false, if_false, nesting_value hj, indentBytes_value hj]

/-- `Indent` rejects what is not JSON. -/
theorem goIndent_bad {s pre indent : Bytes} (h : ¬ IsJson s) : goIndent s pre indent = none := by
  unfold goIndent
  split
  · rfl
  · rename_i v r hp
    split
    · rfl
    · rename_i hr
      obtain ⟨e, j, hj⟩ := parseValue_sound hp
      exfalso
      apply h
      refine ⟨j, wsPrefix s, v, r, ?_, wsPrefix_ws s, skipSpaces_eq_nil (by simpa using hr), hj⟩
      rw [List.append_assoc, ← e, wsPrefix_append]

theorem render_scalar (pre indent : Bytes) (d : Nat) (t : Bytes) : render (lay pre indent) d (docOf false (scalarJson t)) = t := by
  unfold scalarJson
  repeat' split
  all_goals simp_all [docOf, render, paint, copyStr]

mutual
theorem render_docOf {pre indent : Bytes} (d : Nat) : ∀ x, NoBare x →
    render (lay pre indent) d (docOf false (jsonOf x)) = render (lay pre indent) d x
  | .leaf r t, _ => by simp only [jsonOf, render_scalar, render, paint]
  | .arr xs, h => by
    have := renderElems_docOf (pre := pre) (indent := indent) (d + 1) true xs (by simpa [NoBare] using h)
    cases xs <;> simp_all [jsonOf, jsonOfL, docOf, docOfL, render, paint]
  | .obj xs, h => by
    have := renderMembers_docOf (pre := pre) (indent := indent) (d + 1) true xs (by simpa [NoBare] using h)
    cases xs <;> simp_all [jsonOf, jsonOfM, docOf, docOfM, render, paint]
  | .bare _, h => absurd h (by simp [NoBare])
theorem renderElems_docOf {pre indent : Bytes} (d : Nat) (first : Bool) : ∀ xs, NoBareL xs →
    renderElems (lay pre indent) d first (docOfL false (jsonOfL xs)) = renderElems (lay pre indent) d first xs
  | [], _ => rfl
  | x :: xs, h => by
    simp only [NoBareL] at h
    simp only [jsonOfL, docOfL, renderElems, render_docOf d x h.1, renderElems_docOf d false xs h.2]
theorem renderMembers_docOf {pre indent : Bytes} (d : Nat) (first : Bool) : ∀ xs, NoBareM xs →
    renderMembers (lay pre indent) d first (docOfM false (jsonOfM xs)) = renderMembers (lay pre indent) d first xs
  | [], _ => rfl
  | (r, k, x) :: xs, h => by
    simp only [NoBareM] at h
    simp only [jsonOfM, docOfM, renderMembers, render_docOf d x h.1, renderMembers_docOf d false xs h.2]
    simp [paint, copyStr]
end

/-- What `Marshal` returns for a clean value. -/
theorem marshal_clean {v : GV} (h : Clean {} v) : (∃ x, meaning {} v = .doc x ∧ DocOk x ∧
      marshal v = some (.ok (compact (jsonOf x)))) ∨ ∃ e, meaning {} v = .err e ∧ marshal v = some (.error e) := by
  have hd := enc_does {} v
  have hf := clean_fine {} v h
  have ho := meaning_ok {} v h
  cases hm : meaning {} v with
  | doc x =>
    refine .inl ⟨x, rfl, ho x hm, ?_⟩
    have := Props.C21_rendering_partial hm [] 0
    unfold marshal
    rw [show (0 : Int) = ((0 : Nat) : Int) from rfl, this]
    simp only [List.nil_append]
    rw [show styleOf {} = ⟨none, none⟩ from rfl, render_compact]
  | err e =>
    rw [hm] at hd
    obtain ⟨b', d', e1, _⟩ := hd [] 0 0 (fun _ => rfl)
    refine .inr ⟨e, rfl, ?_⟩
    unfold marshal
    rw [e1]
  | wild => rw [hm] at hf; exact absurd hf id

/-- ... and `MarshalIndent`. -/
theorem marshalIndent_doc {v : GV} {x : Doc} (hx : DocOk x) (hm : marshal v = some (.ok (compact (jsonOf x)))) (pre indent : Bytes) :
    marshalIndent v pre indent = some (if deep (jsonOf x) > maxNesting then (compact (jsonOf x), some .syntax)
      else (render (lay pre indent) 0 (docOf false (jsonOf x)), none)) := by
  have hj : Derives (.value (jsonOf x)) (compact (jsonOf x)) := by
    rw [← render_compact 0 x]
    exact render_derives (st := ⟨none, none⟩) ⟨rfl, by intro p i h; cases h⟩ 0 x hx
  have := goIndent_text (s := compact (jsonOf x)) (w1 := []) (w2 := []) (pre := pre) (indent := indent) (by simp) ws_nil ws_nil hj
  unfold marshalIndent
  simp only [hm, this]
  by_cases hd : deep (jsonOf x) > maxNesting
  · simp only [if_pos hd]
  · simp only [if_neg hd, List.append_nil]

end JC

namespace JC.Props
open Spec

/-! ### C63 -/

/-- **C63** as stated: `MarshalIndent` returns what an `Encoder` with the same prefix and indent
writes, without the final line feed, and fails with the same error. -/
def C63_statement : Prop := ∀ (v : GV) (pre indent : Bytes) (e : Encoder) (ret : Option Err) (ws : List Bytes),
  (newEncoder.set (.indent pre indent)).encode goIndent v (fun _ => none) = .done e ret ws →
  ∃ b, marshalIndent v pre indent = some (b, ret) ∧ (ret = none → ws = [b ++ [0x0a]])

/-- **C63** (partial: clean values) `MarshalIndent` fails with the error of `Marshal`, or because
the value is nested too deeply; otherwise it returns the tree that `Marshal` writes, laid out with
prefix and indent: containers without content are `[]` and `{}`. -/
theorem C63_layout_partial {v : GV} (h : Clean {} v) (pre indent : Bytes) :
    (∃ e, marshal v = some (.error e) ∧ marshalIndent v pre indent = some ([], some e)) ∨
    ∃ j, marshal v = some (.ok (compact j)) ∧ Derives (.value j) (compact j) ∧ marshalIndent v pre indent =
      some (if deep j > 10000 then (compact j, some .syntax) else (render ⟨none, some (pre, indent)⟩ 0 (docOf false j), none)) := by
  rcases marshal_clean h with ⟨x, hm, hx, e⟩ | ⟨e, _, he⟩
  · refine .inr ⟨jsonOf x, e, ?_, marshalIndent_doc hx e pre indent⟩
    rw [← render_compact 0 x]
    exact render_derives (st := ⟨none, none⟩) ⟨rfl, by intro p i h; cases h⟩ 0 x hx
  · exact .inl ⟨e, he, by simp only [marshalIndent, he]⟩

/-- **C63** (partial: clean values, some prefix or indent, no struct without members, not too deep)
`MarshalIndent` and an `Encoder` agree.

Missing from the full statement: see the four theorems below. -/
theorem C63_encoder_partial {v : GV} (h : Clean {} v) {pre indent : Bytes} (hp : pre ≠ [] ∨ indent ≠ [])
    (hx : ∀ x, meaning {} v = .doc x → NoBare x ∧ deep (jsonOf x) ≤ 10000) {e : Encoder} {ret : Option Err} {ws : List Bytes}
    (he : (newEncoder.set (.indent pre indent)).encode goIndent v (fun _ => none) = .done e ret ws) :
    ∃ b, marshalIndent v pre indent = some (b, ret) ∧ (ret = none → ws = [b ++ [0x0a]]) := by
  let c := (newEncoder.set (.indent pre indent)).cfg goIndent
  have hm' : meaning c v = meaning {} v := meaning_congr (c := c) (c' := {}) rfl rfl rfl rfl v
  have hst : styleOf c = lay pre indent := by
    have : ¬ (pre = [] ∧ indent = []) := by
      rintro ⟨h1, h2⟩; rcases hp with hp | hp
      · exact hp h1
      · exact hp h2
    simp [c, styleOf, Encoder.cfg, Encoder.set, newIndenter, newEncoder, this]
  unfold Encoder.encode at he
  simp only [Encoder.set, newEncoder] at he
  rcases marshal_clean h with ⟨x, hm, hok, e1⟩ | ⟨er, hm, he1⟩
  · have hr := C21_rendering_partial (hm'.trans hm) [] 0
    rw [hst] at hr
    have hd : enc ((newEncoder.set (.indent pre indent)).cfg goIndent) v [] (newEncoder.set (.indent pre indent)).depth = _ := hr
    simp only [Encoder.set, newEncoder] at hd
    rw [hd] at he
    simp only [List.nil_append] at he
    cases he
    have := marshalIndent_doc hok e1 pre indent
    rw [if_neg (by have := (hx x hm).2; unfold maxNesting; omega), render_docOf 0 x (hx x hm).1] at this
    exact ⟨_, this, fun _ => rfl⟩
  · have hd := enc_does c v
    rw [hm', hm] at hd
    obtain ⟨b', d', e1, _⟩ := hd [] 0 0 (fun _ => rfl)
    have e1 : enc ((newEncoder.set (.indent pre indent)).cfg goIndent) v [] (newEncoder.set (.indent pre indent)).depth = _ := e1
    simp only [Encoder.set, newEncoder] at e1
    rw [e1] at he
    cases he
    exact ⟨[], by simp only [marshalIndent, he1], fun h => by cases h⟩

/-- **C63** fails: with empty prefix and indent the `Encoder` writes one line, `MarshalIndent` several. -/
theorem C63_fails_empty : ¬ C63_statement := by
  intro h
  obtain ⟨b, h1, h2⟩ := h (.slice [.bool true]) [] [] _ none [bs! "[true]\n"] rfl
  have : marshalIndent (.slice [.bool true]) [] [] = some (bs! "[\ntrue\n]", none) := rfl
  rw [this] at h1
  cases h1
  exact absurd (h2 rfl) (by decide)

/-- **C63** fails: a struct without members is `{}` for `MarshalIndent`. -/
theorem C63_fails_struct : ¬ C63_statement := by
  intro h
  obtain ⟨b, h1, h2⟩ := h (.struct []) (bs! ">") (bs! " ") _ none [bs! "{>}\n"] rfl
  have : marshalIndent (.struct []) (bs! ">") (bs! " ") = some (bs! "{}", none) := rfl
  rw [this] at h1
  cases h1
  exact absurd (h2 rfl) (by decide)

/-- **C63** fails: a `Number` that is no number is written by `Marshal` and by the `Encoder`; `MarshalIndent`
returns it together with an error. -/
theorem C63_fails_number : ¬ C63_statement := by
  intro h
  obtain ⟨b, h1, _⟩ := h (.number (bs! "1abc")) (bs! ">") [] _ none [bs! "1abc\n"] rfl
  have : marshalIndent (.number (bs! "1abc")) (bs! ">") [] = some (bs! "1abc", some .syntax) := rfl
  rw [this] at h1
  cases h1

/-- Slices in slices, `n` of them. -/
def nested : Nat → GV
  | 0 => .bool true
  | n + 1 => .slice [nested n]

def nestedDoc : Nat → Doc
  | 0 => .leaf .bool (bs! "true")
  | n + 1 => .arr [nestedDoc n]

theorem nested_clean (c : Cfg) : ∀ n, Clean c (nested n)
  | 0 => by simp [nested, Clean]
  | n + 1 => by simp [nested, Clean, CleanL, nested_clean c n]

theorem nested_doc (c : Cfg) : ∀ n, meaning c (nested n) = .doc (nestedDoc n)
  | 0 => by simp [nested, nestedDoc, meaning]
  | n + 1 => by simp [nested, nestedDoc, meaning, meanL, nested_doc c n, seqElems, MeaningL.toArr]

theorem nested_deep : ∀ n, deep (jsonOf (nestedDoc n)) = n
  | 0 => by simp [nestedDoc, jsonOf, scalarJson, deep]
  | n + 1 => by simp [nestedDoc, jsonOf, jsonOfL, deep, deepL, nested_deep n]

/-- **C63** fails: what is nested more than 10000 levels deep is written by the `Encoder`, while
`MarshalIndent` reports a syntax error. -/
theorem C63_fails_deep (n : Nat) (hn : 10000 < n) (pre indent : Bytes) :
    (∃ b, marshal (nested n) = some (.ok b) ∧ marshalIndent (nested n) pre indent = some (b, some .syntax)) ∧
    ∃ e b, (newEncoder.set (.indent pre indent)).encode goIndent (nested n) (fun _ => none) = .done e none [b] := by
  constructor
  · rcases marshal_clean (nested_clean {} n) with ⟨x, hm, hok, e1⟩ | ⟨er, hm, _⟩
    · rw [nested_doc] at hm
      cases hm
      refine ⟨_, e1, ?_⟩
      rw [marshalIndent_doc hok e1, nested_deep, if_pos (show n > maxNesting from hn)]
    · rw [nested_doc] at hm; cases hm
  · have hr := C21_rendering_partial (nested_doc ((newEncoder.set (.indent pre indent)).cfg goIndent) n) [] 0
    have hd : enc ((newEncoder.set (.indent pre indent)).cfg goIndent) (nested n) [] (newEncoder.set (.indent pre indent)).depth = _ := hr
    unfold Encoder.encode
    simp only [Encoder.set, newEncoder] at hd ⊢
    rw [hd]
    exact ⟨_, _, rfl⟩

/-- `{"a":[true,{}],"b":[]}` for `MarshalIndent`. -/
example : marshalIndent (.mapSI [(bs! "b", .slice []), (bs! "a", .slice [.bool true, .mapSI []])]) (bs! ">") (bs! "\t") =
    some (bs! "{\n>\t\"a\": [\n>\t\ttrue,\n>\t\t{}\n>\t],\n>\t\"b\": []\n>}", none) ∧
    enc { ind := some (newIndenter (bs! ">") (bs! "\t")) } (.mapSI [(bs! "b", .slice []), (bs! "a", .slice [.bool true, .mapSI []])]) [] 0 =
      .done (bs! "{\n>\t\"a\": [\n>\t\ttrue,\n>\t\t{}\n>\t],\n>\t\"b\": []\n>}") 0 none ∧
    marshalIndent (.slice [.unsupported]) [] [] = some ([], some .unsupportedType) :=
  ⟨by decide +kernel, by decide +kernel, rfl⟩

/-! ### C64 -/

/-- **C64** as stated: with `TrustRawMessage` and without `EscapeHTML`, a message that is not JSON is
written byte for byte. -/
def C64_statement : Prop := ∀ (c : Cfg) (s b : Bytes) (n : Nat), c.trustRaw = true → c.escapeHTML = false → c.jsonIndent = goIndent →
  ¬ IsJson s → ∃ d, enc c (.raw s) b n = .done (b ++ s) d none

/-- A text in which something that is no token comes before its end, before a bracket that does not
match, and before a comma outside brackets. -/
def Unreadable (s : Bytes) : Prop := ∀ vs rest op, Lexes vs s rest → openedAll [] vs = some op →
  ¬ Ws rest ∧ (∀ w c r, rest = w ++ c :: r → Ws w → c = 0x5d ∨ c = 0x7d → opened op [c] ≠ none) ∧
  (∀ w r, rest = w ++ 0x2c :: r → Ws w → op ≠ [])

theorem unreadable_err {s : Bytes} (h : Unreadable s) : ∃ t, (tokenize s).2 = .stop t ∧ t.err = some .syntax := by
  obtain ⟨rest, op, h1, h2, h3⟩ := C13_reports_partial s
  obtain ⟨k1, k2, k3⟩ := h _ _ _ h1 h2
  rcases h3 with ⟨hw, _⟩ | ⟨t, w, c, r, e, hw, hc, ho, _⟩ | ⟨w, r, e, hw, ho, _⟩ | ⟨t, w, c, r, e, hw, hc, _, ht, he⟩
  · exact absurd hw k1
  · exact absurd ho (k2 w c r e hw hc)
  · exact absurd ho (k3 w r e hw)
  · exact ⟨t, ht, he⟩

theorem unreadable_bad {s : Bytes} (h : Unreadable s) : ¬ IsJson s := by
  rintro ⟨j, hj⟩
  obtain ⟨t, h1, h2⟩ := unreadable_err h
  obtain ⟨_, t', h3, h4⟩ := C11_tokens hj
  rw [h1] at h3
  cases h3
  rw [h2] at h4
  cases h4

/-- What tokenizing leaves when it fails: the buffer as it was. -/
theorem rawTokens_err {c : Cfg} {s b : Bytes} {d : Int} (h : Unreadable s) :
    ∃ d', rawTokens c s b d = .done b d' (some .syntax) := by
  obtain ⟨t, ht, he⟩ := unreadable_err h
  have hl := loc_rawTokens c s b [] d
  rw [List.append_nil] at hl
  have h0 : rawTokens c s [] d = .done [] ((tokenize s).1.foldl (rawStep c) ⟨[], d, []⟩).d (some .syntax) := by
    unfold rawTokens
    simp only [ht, he]
    simp
  rw [h0] at hl
  simp only [Out.prepend, List.append_nil] at hl
  exact ⟨_, hl⟩

/-- **C64** (partial: messages with something in them that is no token) Without `EscapeHTML` the message is
written byte for byte, whatever the colors and the layout; with it, as `appendCompactEscapeHTML` copies it,
unless that is JSON and output is indented. (The Indenter's level is not restored, see below.)

Missing from the full statement: messages made of tokens only, see below. -/
theorem C64_verbatim_partial {c : Cfg} (ht : c.trustRaw = true) (hj : ∀ s p i, ¬ IsJson s → c.jsonIndent s p i = none) {s : Bytes}
    (h : Unreadable s) (b : Bytes) (n : Nat) :
    (c.escapeHTML = false → ∃ d, enc c (.raw s) b n = .done (b ++ s) d none) ∧
    (c.escapeHTML = true → ¬ IsJson (appendCompactEscapeHTML [] s) ∨ c.ind = none →
      ∃ d, enc c (.raw s) b n = .done (appendCompactEscapeHTML b s) d none) := by
  obtain ⟨d, hd⟩ := rawTokens_err (c := c) (b := b) (d := n) h
  have hb := unreadable_bad h
  constructor
  · intro he
    refine ⟨d, ?_⟩
    simp only [enc, encodeRawMessage, ht, if_true, hd, rawVerbatim, he]
    cases hi : c.ind with
    | none => simp
    | some i =>
      simp only []
      split
      · simp
      · simp [hj _ _ _ hb]
  · intro he hx
    refine ⟨d, ?_⟩
    simp only [enc, encodeRawMessage, ht, if_true, hd, rawVerbatim, he]
    cases hi : c.ind with
    | none => simp
    | some i =>
      simp only []
      split
      · simp
      · have hx := hx.resolve_right (by rw [hi]; simp)
        have hx := hj _ (c.appendIndent d []) i.indent hx
        simp only [appendCompactEscapeHTML, List.nil_append] at hx ⊢
        simp [hx]

/-- **C64** fails: numbers are joined. -/
theorem C64_fails_join : ¬ C64_statement := by
  intro h
  obtain ⟨d, hd⟩ := h { trustRaw := true, escapeHTML := false, jsonIndent := goIndent } (bs! "1 2") [] 0 rfl rfl rfl
    (by rw [← C01_valid_iff]; decide +kernel)
  have : enc { trustRaw := true, escapeHTML := false, jsonIndent := goIndent } (.raw (bs! "1 2")) [] 0 = .done (bs! "12") 0 none := by
    decide +kernel
  rw [show ((0 : Nat) : Int) = 0 from rfl, this] at hd
  cases hd

/-- **C64** fails: what follows a bracket that does not match is dropped, with the bracket. -/
theorem C64_fails_drop : ¬ IsJson (bs! "[1}x") ∧
    enc { trustRaw := true, escapeHTML := false } (.raw (bs! "[1}x")) [] 0 = .done (bs! "[1") 0 none := by
  refine ⟨?_, by decide +kernel⟩
  rw [← C01_valid_iff]; decide +kernel

/-- **C64** fails: a comma outside brackets makes the encoder panic. -/
theorem C64_fails_panic : ¬ IsJson (bs! "1,2") ∧ enc { trustRaw := true, escapeHTML := false } (.raw (bs! "1,2")) [] 0 = .panic := by
  refine ⟨?_, by decide +kernel⟩
  rw [← C01_valid_iff]; decide +kernel

/-- With `EscapeHTML`, whitespace goes: text that is not JSON can become JSON. -/
theorem C64_fails_escape : ¬ IsJson (bs! "t rue") ∧ enc { trustRaw := true } (.raw (bs! "t rue")) [] 0 = .done (bs! "true") 0 none := by
  refine ⟨?_, by decide +kernel⟩
  rw [← C01_valid_iff]; decide +kernel

/-- The nesting level counted up for the brackets read before the error stays: what follows is
indented too far. -/
theorem C64_fails_level : enc { trustRaw := true, ind := some (newIndenter [] (bs! " ")), jsonIndent := goIndent }
    (.slice [.raw (bs! "[[x"), .bool true]) [] 0 = .done (bs! "[\n [[x,\n   true\n  ]") 2 none := by decide +kernel

theorem jnumber_cons {s : Bytes} (h : JNumber s) : ∃ c t, s = c :: t := by
  obtain ⟨sgn, i, f, e, _, hi, _, _⟩ := h
  cases hs : sgn ++ i ++ f ++ e with
  | cons c t => exact ⟨c, t, rfl⟩
  | nil =>
    simp only [List.append_eq_nil_iff] at hs
    obtain ⟨⟨⟨_, h⟩, _⟩, _⟩ := hs
    subst h
    cases hi

/-- A text that begins with a byte no token begins with. -/
theorem unreadable_head {c : UInt8} {r : Bytes} (hw : ¬ IsWs c) (hl : ∀ v, Lexeme v → v.head? ≠ some c) : Unreadable (c :: r) := by
  have hcl : c ≠ 0x5d ∧ c ≠ 0x7d ∧ c ≠ 0x2c :=
    ⟨fun h => hl [0x5d] (.inr (by simp)) (by simp [h]), fun h => hl [0x7d] (.inr (by simp)) (by simp [h]),
      fun h => hl [0x2c] (.inr (by simp)) (by simp [h])⟩
  have hnil : ∀ {w t : Bytes}, c :: r = w ++ t → Ws w → w = [] := by
    intro w t e h
    cases w with
    | nil => rfl
    | cons x w => injection e with e1 _; exact absurd (e1 ▸ h x (by simp)) hw
  intro vs rest op hlex _
  have hrest : rest = c :: r := by
    generalize hb : c :: r = b at hlex
    cases hlex with
    | nil => rfl
    | cons w v t _ vs h1 h2 _ =>
      have := hnil hb h1
      subst this
      exfalso
      cases v with
      | nil => rcases h2 with (h | h | h | h | h) | h
               · cases h
               · cases h
               · cases h
               · obtain ⟨c0, t0, e0⟩ := jnumber_cons h; cases e0
               · cases h
               · simp at h
      | cons x v => injection hb with h _; exact hl _ h2 (by simp [h])
  subst hrest
  refine ⟨fun h => hw (h c (by simp)), ?_, ?_⟩
  · intro w x t e h hx
    have := hnil e h
    subst this
    injection e with e _
    rcases hx with hx | hx
    · exact absurd (e.trans hx) hcl.1
    · exact absurd (e.trans hx) hcl.2.1
  · intro w t e h
    have := hnil e h
    subst this
    injection e with e _
    exact absurd e hcl.2.2

/-- `<b>`, say, in an indented, colored document. -/
example : Unreadable (bs! "<b> x") ∧
    enc ⟨false, true, true, some defaultColors, some (newIndenter [] (bs! " ")), goIndent⟩ (.raw (bs! "<b> x")) [] 0 = .done (bs! "<b> x") 0 none := by
  refine ⟨unreadable_head (by intro h; cases h) ?_, by decide +kernel⟩
  intro v hv hh
  rcases hv with (h | h | h | h | h) | h
  · subst h; simp at hh
  · subst h; simp at hh
  · subst h; simp at hh
  · cases v with
    | nil => simp at hh
    | cons x t =>
      simp at hh; subst hh
      have := jnumber_bytes h 0x3c (by simp)
      simp [Digit] at this
  · cases h; simp at hh
  · simp at h; rcases h with h | h | h | h | h | h <;> (subst h; simp at hh)

end JC.Props

import Verif.Lemmas.MessageAt
import Verif.Lemmas.MessageSmall
import Verif.Props.Parse
import Verif.Lemmas.Utf8
import Verif.Model.Decode
/-!
C97: what a syntax error says, and where it points.
-/
namespace JC.Props
open JC Spec

theorem parseValueM_not_fuel (b r : Bytes) : parseValueM b ≠ .fuel r := by
  intro h
  have e := parseValueM_erase b
  rw [h] at e
  exact absurd (parseValue_err e.symm) (by simp)

theorem isJson_parts {b : Bytes} (h : IsJson b) : ∃ w v w', b = w ++ (v ++ w') ∧ Ws w ∧ Ws w' ∧ GVal v ∧ parseValue (v ++ w') = .ok v w' := by
  obtain ⟨j, w, v, w', rfl, h1, h2, h3⟩ := h
  exact ⟨w, v, w', by simp, h1, h2, ⟨j, h3⟩, parseValue_complete h3 (follow_of_numStop (numStop_ws h2))⟩

theorem gval_start {v : Bytes} (h : GVal v) (r : Bytes) : skipSpaces (v ++ r) = v ++ r := by
  obtain ⟨j, h⟩ := h
  obtain ⟨c, t, rfl, hc, _⟩ := derives_value_head h
  rw [List.cons_append, skipSpaces_cons_of_not hc]

/-- What is left of a JSON text that begins with `w` is accepted. -/
theorem isJson_skip {w y : Bytes} (hw : Ws w) (h : IsJson (w ++ y)) (hy : skipSpaces y = y) : ∃ v r, parseValue y = .ok v r ∧ Ws r := by
  obtain ⟨w', v, r, e, h1, h2, h3, h4⟩ := isJson_parts h
  have : skipSpaces (w ++ y) = v ++ r := by rw [e, skipSpaces_ws_append h1, gval_start h3]
  rw [skipSpaces_ws_append hw, hy] at this
  exact ⟨v, r, by rw [this]; exact h4, h2⟩

/-- **C97** The full statement: the error of a text that is not JSON quotes the text from where it goes wrong, and its
`Offset` is the number of bytes before that.  This theorem has the first half: what the message quotes is an end of the
text; what stands before it can be continued to a JSON text; and either the whole text only ends too early, or the
first byte quoted may not stand there, or a token begins there that is wrong.  Missing is `Offset`, which is never set,
see `C97_fails_offset`. -/
theorem C97_where_partial {b : Bytes} {m : SynErr} (h : unmarshalErr b = some m) : Fault b m.near := by
  unfold unmarshalErr at h
  obtain ⟨w, hw, hb⟩ := exists_skip b
  have hidem := skipSpaces_idem b
  generalize skipSpaces b = s at *
  have hsame : ∀ y : Bytes, y.head? = s.head? → skipSpaces y = y := by
    intro y hh
    cases y with
    | nil => rfl
    | cons d y =>
      cases s with
      | nil => simp at hh
      | cons d' s =>
        simp at hh; subst hh
        exact skipSpaces_cons_of_not (skipSpaces_head (d :: s) d s hidem)
  have done : Near IsJson IsJson b m.near → Fault b m.near := by
    rintro ⟨pre, h1, h2, h3⟩
    refine ⟨pre, h1, h2, ?_⟩
    rcases h3 with h3 | ⟨c, t, h3, h4⟩ | h3
    · exact .inl h3
    · refine .inr (.inl ⟨c, t, h3, ?_⟩)
      rintro ⟨x, hx⟩
      exact h4 x (by simpa using hx)
    · exact .inr (.inr h3)
  cases hv : parseValueM s with
  | fuel r => rw [hv] at h; cases h
  | fail r m' =>
    rw [hv] at h
    simp only [] at h
    injection h with h; subst h
    refine done ?_
    have := ((faultAt _).value _ _ _ hv).behind w (G' := IsJson) (A' := IsJson) ?_ ?_
    · rw [hb]; exact this
    · rintro y ⟨j, hy⟩
      exact ⟨[], j, w, y, [], rfl, hw, Ws.nil, hy⟩
    · intro y _ _ hh hx
      obtain ⟨v, r, h1, _⟩ := isJson_skip hw hx (hsame y hh)
      exact ⟨_, v, r, h1⟩
  | ok v r =>
    rw [hv] at h
    simp only [] at h
    have e := parseValueM_erase s
    rw [hv] at e
    simp only [PM.erase] at e
    obtain ⟨rfl, j, hj⟩ := parseValue_sound e.symm
    obtain ⟨w2, hw2, hr⟩ := exists_skip r
    cases hs : skipSpaces r with
    | nil => rw [hs] at h; cases h
    | cons c t =>
      have hsp := skipSpaces_head r c t hs
      rw [hs] at h hr
      simp only [] at h
      injection h with h; subst h
      refine done ?_
      have hb2 : b = (w ++ v ++ w2) ++ c :: t := by rw [hb, hr]; simp
      rw [hb2]
      refine Near.byte [] (by rw [List.append_nil]; exact ⟨j, w, v, w2, rfl, hw, hw2, hj⟩) ?_
      intro x hx
      have hx' : IsJson (w ++ (v ++ (w2 ++ c :: x))) := by simpa using hx
      obtain ⟨v', r', h1, h2⟩ := isJson_skip hw hx' (gval_start ⟨j, hj⟩ _)
      have hh : (w2 ++ c :: x).head? = r.head? := by rw [hr]; cases w2 <;> rfl
      obtain ⟨rfl, rfl⟩ := value_swap e.symm (by rw [hr]; simp) hh h1
      have := h2 c (by simp)
      rw [← isSpace_iff, hsp] at this
      cases this

/-- **C97** There is an error exactly when the text is not JSON. -/
theorem C97_json (b : Bytes) : unmarshalErr b = none ↔ IsJson b := by
  constructor
  · intro h
    unfold unmarshalErr at h
    obtain ⟨w, hw, hb⟩ := exists_skip b
    cases hv : parseValueM (skipSpaces b) with
    | fuel r => exact absurd hv (parseValueM_not_fuel _ _)
    | fail r m => rw [hv] at h; cases h
    | ok v r =>
      rw [hv] at h
      simp only [] at h
      have e := parseValueM_erase (skipSpaces b)
      rw [hv] at e
      obtain ⟨h1, j, hj⟩ := parseValue_sound e.symm
      split at h
      · rename_i hs
        exact ⟨j, w, v, r, by rw [List.append_assoc, ← h1]; exact hb, hw, skipSpaces_eq_nil hs, hj⟩
      · cases h
  · intro h
    obtain ⟨w, v, r, rfl, h1, h2, h3, h4⟩ := isJson_parts h
    unfold unmarshalErr
    rw [skipSpaces_ws_append h1, gval_start h3]
    have e := parseValueM_erase (v ++ r)
    rw [h4] at e
    cases hv : parseValueM (v ++ r) with
    | fuel r => exact absurd hv (parseValueM_not_fuel _ _)
    | fail r m => rw [hv] at e; cases e
    | ok v' r' =>
      rw [hv] at e
      injection e with e1 e2
      subst e1; subst e2
      simp only []
      rw [skipSpaces_ws h2]

/-- **C97** The message has at most 124 bytes, however long the text is: a fixed beginning, at most 81 bytes that say
what is wrong, and what is quoted, all of it when it is shorter than 32 bytes and the first 32 bytes otherwise. -/
theorem C97_length {b : Bytes} {m : SynErr} (h : unmarshalErr b = some m) :
    m.text.length ≤ 124 ∧ m.what ≠ [] ∧ m.what.length ≤ 81 ∧
      ∃ q, m.text = bs! "json: " ++ m.what ++ bs! ": " ++ q ∧
        (m.near.length < 32 ∧ q = m.near ∨ 32 ≤ m.near.length ∧ ∃ y z, m.near = y ++ z ∧ y.length = 32 ∧ q = y ++ bs! "...") := by
  have hs := unmarshalErr_small h
  refine ⟨text_len hs, hs.1, hs.2.1, prefix32 m.near, rfl, ?_⟩
  unfold prefix32
  split
  · rename_i hl; exact .inl ⟨hl, rfl⟩
  · rename_i hl
    exact .inr ⟨by omega, m.near.take 32, m.near.drop 32, (List.take_append_drop _ _).symm, by simp; omega, rfl⟩

/-- **C97** The first byte that cannot stand where it does is not before what is quoted. -/
theorem C97_first {b : Bytes} {m : SynErr} (h : unmarshalErr b = some m) (p : Bytes) (c : UInt8) (t : Bytes) (hb : b = p ++ c :: t)
    (hp : ¬ Viable (p ++ [c])) : b.length - m.near.length ≤ p.length := by
  obtain ⟨pre, h1, ⟨w, h2⟩, _⟩ := C97_where_partial h
  apply Classical.byContradiction
  intro hlt
  have hl : p.length < pre.length := by
    rw [h1] at hlt; simp at hlt; exact hlt
  apply hp
  have e : p ++ c :: t = pre ++ m.near := hb ▸ h1
  obtain ⟨q, hq⟩ : ∃ q, pre = (p ++ [c]) ++ q := by
    have h3 : (p ++ [c]) = pre.take (p.length + 1) := by
      have := congrArg (List.take (p.length + 1)) e
      rw [List.take_append_of_le_length (l₁ := pre) (by omega)] at this
      rw [← this, List.take_append, List.take_of_length_le (by omega)]
      simp
    exact ⟨pre.drop (p.length + 1), by rw [h3, List.take_append_drop]⟩
  exact ⟨q ++ w, by rw [← List.append_assoc, ← hq]; exact h2⟩

/-- **C97** `Unmarshal` into a `RawMessage` has an error exactly then, and it is a syntax error. -/
theorem C97_unmarshal (c : DCfg) (n : Nat) (b : Bytes) (p : DV) :
    ∃ v, unmarshal c (n + 1) .raw b p = .done v (match unmarshalErr b with | none => none | some _ => some .syntax) := by
  have hd : decN c (n + 1) .raw = decodeRawMessage := by simp [decN, dec]
  unfold unmarshal parseInto unmarshalErr
  rw [hd]
  have e := parseValueM_erase (skipSpaces b)
  unfold decodeRawMessage
  cases hv : parseValueM (skipSpaces b) with
  | fuel r => exact absurd hv (parseValueM_not_fuel _ _)
  | fail r m =>
    rw [hv] at e
    simp only [PM.erase] at e
    rw [← e]
    simp only [inputErr]
    refine ⟨p, ?_⟩
    have : (inputError (skipSpaces b)).2 = .syntax := by
      unfold inputError
      split
      · rfl
      · rw [← e]
    rw [this]; simp
  | ok v r =>
    rw [hv] at e
    simp only [PM.erase] at e
    rw [← e]
    simp only []
    cases skipSpaces r with
    | nil => exact ⟨_, rfl⟩
    | cons c t => exact ⟨.raw v, by simp⟩

/-- **C97** `Offset` is never set. -/
theorem C97_offset {b : Bytes} {m : SynErr} (h : unmarshalErr b = some m) : m.offset = 0 := (unmarshalErr_small h).2.2

/-- **C97 (negative)** So it does not say where the text goes wrong: here that is behind three bytes. -/
theorem C97_fails_offset : ¬ ∀ b m, unmarshalErr b = some m → m.offset = b.length - m.near.length := by
  intro h
  have := h (bs! "[1 2]") ⟨withC (bs! "expected ',' after array element but found ") 0x32 [], bs! "2]", 0⟩ (by decide +kernel)
  revert this; decide

/-- **C97 (negative)** "unexpected end of JSON input" is also said of texts that no continuation makes JSON. -/
theorem C97_fails_end : ¬ ∀ b m, unmarshalErr b = some m → m.what = bs! "unexpected end of JSON input" → Viable b := by
  intro h
  obtain ⟨w, hw⟩ := h (bs! "nux") (unexpectedEOF (bs! "nux")) (by decide +kernel) rfl
  have := isJson_skip (w := []) Ws.nil hw (by rfl)
  obtain ⟨v, r, hv, _⟩ := this
  have e : parseValue (bs! "nux" ++ w) = parseNull (bs! "nux" ++ w) := by
    unfold parseValue fuelFor; simp [parseValueF]
  have hv' := e.symm.trans hv
  obtain ⟨h1, rfl⟩ := parseNull_sound hv'
  simp at h1

/-- **C97 (negative)** What is quoted may end inside a character, so that the message is not UTF-8 although the text is. -/
theorem C97_fails_utf8 : ¬ ∀ b m, unmarshalErr b = some m → ValidUtf8 b → ValidUtf8 m.text := by
  intro h
  have hm : unmarshalErr (bs! "xxxxxxxxxxxxxxxxxxxxxxxxxxxxxxx" ++ [0xc3, 0xa9]) =
      some ⟨withC (bs! "invalid character ") 0x78 (bs! " looking for beginning of value"),
        bs! "xxxxxxxxxxxxxxxxxxxxxxxxxxxxxxx" ++ [0xc3, 0xa9], 0⟩ := by decide +kernel
  have hv := coerce_valid (h _ _ hm ⟨List.replicate 31 0x78 ++ [0xe9], by
    intro r hr
    rcases List.mem_append.1 hr with hr | hr
    · rw [(List.mem_replicate.1 hr).2]; left; decide
    · simp at hr; subst hr; left; decide, by decide +kernel⟩)
  revert hv
  decide +kernel

/-- **C97 (negative)** A comma before the end of an array is said to stand after an object field. -/
theorem C97_fails_words : unmarshalErr (bs! "[1,]") = some ⟨bs! "unexpected trailing comma after object field", bs! "]", 0⟩ := by
  decide +kernel

/-! ### cases -/

example : (unmarshalErr (bs! "[1, 2 3]")).map SynErr.text = some (bs! "json: expected ',' after array element but found '3': 3]") := by decide +kernel
example : (unmarshalErr (bs! " {\"a\" 1}")).map SynErr.text = some (bs! "json: expected ':' after object field key but found '1': 1}") := by decide +kernel
example : (unmarshalErr (bs! "[0, 1.e]")).map SynErr.text = some (bs! "json: expected digit but found 'e': 1.e]") := by decide +kernel
example : (unmarshalErr (bs! "\"a\\u12x4\"")).map SynErr.text = some (bs! "json: invalid unicode code point: 12x4\"") := by decide +kernel
example : (unmarshalErr (bs! "\"\\uxyz1\"")).map SynErr.text =
    some (bs! "json: parsing unicode code point: json: expected hexadecimal digit but found 'x': xyz1: xyz1\"") := by decide +kernel
example : (unmarshalErr (bs! "nul! and then much more text than fits")).map SynErr.text =
    some (bs! "json: expected 'null' but found invalid token: nul! and then much more text tha...") := by decide +kernel
example : (unmarshalErr (bs! "1 2")).map SynErr.text = some (bs! "json: invalid character '2' after top-level value: 2") := by decide +kernel
example : unmarshalErr (bs! " {\"a\": [1, 2.5e3, \"\\u00e9\", null]} ") = none := by decide +kernel

/-- the place is in the middle: what stands before can be continued, and with the byte quoted it cannot -/
example : Fault (bs! "[1, 2 3]") (bs! "3]") :=
  C97_where_partial (m := ⟨withC (bs! "expected ',' after array element but found ") 0x33 [], bs! "3]", 0⟩) (by decide +kernel)

end JC.Props

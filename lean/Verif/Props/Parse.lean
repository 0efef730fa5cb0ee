import Verif.Lemmas.ParseFuel
/-!
Properties C01, C02, C03 (scanning part) and C07: the parser against the
JSON grammar.
-/
namespace JC.Props
open JC Spec

/-- **C01** `Valid` accepts exactly the JSON texts of the grammar. -/
theorem C01_valid_iff (data : Bytes) : Valid data = true ↔ IsJson data := by
  unfold Valid
  constructor
  · intro h
    split at h
    · contradiction
    · rename_i v r hv
      obtain ⟨e, j, hj⟩ := parseValue_sound hv
      have hr : skipSpaces r = [] := by simpa using h
      obtain ⟨w, hw, hd⟩ := exists_skip data
      refine ⟨j, w, v, r, ?_, hw, skipSpaces_eq_nil hr, hj⟩
      rw [hd, e]; simp
  · rintro ⟨j, w1, v, w2, rfl, h1, h2, hj⟩
    obtain ⟨c, t, hv, hc, _⟩ := derives_value_head hj
    have hs : skipSpaces (w1 ++ v ++ w2) = v ++ w2 := by
      rw [List.append_assoc, skipSpaces_ws_append h1, hv, List.cons_append, skipSpaces_cons_of_not hc]
    rw [hs, parseValue_complete hj (follow_of_numStop (numStop_ws h2))]
    simp [skipSpaces_ws h2]

/-- Both outcomes of C01 occur: `{"a":[1,-2.5e+3,"\u00e9"],"b":null}` and a
text with a trailing comma. -/
example : Valid (bs! " {\"a\":[1,-2.5e+3,\"\\u00e9\"],\"b\":null}\n") = true ∧
    Valid (bs! "[1,]") = false := by decide +kernel

/-- **C02** What the scanner accepts is one JSON value, and consumed bytes plus
remainder are the input. -/
theorem C02_parse_splits {b v r : Bytes} (h : parseValue b = .ok v r) :
    b = v ++ r ∧ ∃ j, Derives (.value j) v := parseValue_sound h

/-- **C02** The scanner is local: the accepted value is accepted, with the same
extent, before any continuation that does not extend a number. -/
theorem C02_parse_local {b v r : Bytes} (h : parseValue b = .ok v r) (r' : Bytes)
    (hr : (∃ s, JNumber s ∧ s = v) → NumStop r') : parseValue (v ++ r') = .ok v r' := by
  obtain ⟨_, j, hj⟩ := parseValue_sound h
  apply parseValue_complete hj
  cases hj with
  | num s hs => exact hr ⟨_, hs, rfl⟩
  | _ => trivial

example : parseValue (bs! "[1 , {}]x") = .ok (bs! "[1 , {}]") (bs! "x") ∧
    parseValue (bs! "12,") = .ok (bs! "12") (bs! ",") := by decide +kernel

/-- **C02** Every grammatical value is accepted whole. -/
theorem C02_parse_complete {j : Json} {v r : Bytes} (h : Derives (.value j) v) (hr : NumStop r) :
    parseValue (v ++ r) = .ok v r := parseValue_complete h (follow_of_numStop hr)

/-- **C03** (scanner) The fuel given at the entry point is never exhausted:
on every input the scanner returns a value or a syntax error. -/
theorem C03_scan_terminates (b : Bytes) :
    (∃ v r, parseValue b = .ok v r) ∨ (∃ r, parseValue b = .fail r .syntax) := by
  cases h : parseValue b with
  | ok v r => exact .inl ⟨v, r, rfl⟩
  | fail r e => rw [parseValue_err h]; exact .inr ⟨r, rfl⟩

example : (∃ r, parseValue (bs! "[[[[") = .fail r .syntax) ∧ (∃ v r, parseValue (bs! "[[]]") = .ok v r) :=
  ⟨⟨[], by decide +kernel⟩, ⟨bs! "[[]]", [], by decide +kernel⟩⟩

/-- **C07** The word-at-a-time printable check equals the byte-at-a-time one. -/
theorem C07_print (b : Bytes) : asciiValidPrint b = true ↔ ∀ c ∈ b, 0x20 ≤ c ∧ c ≤ 0x7e := by
  rw [asciiValidPrint_eq, List.all_eq_true]
  simp [isPrint]

/-- **C07** The word-at-a-time ASCII check equals the byte-at-a-time one. -/
theorem C07_ascii (b : Bytes) : asciiValid b = true ↔ ∀ c ∈ b, c < 0x80 := by
  rw [asciiValid_eq, List.all_eq_true]
  simp [isAscii]

example : asciiValidPrint (bs! "0123456789ab\x1f") = false ∧ asciiValidPrint (bs! "0123456789abc~ ") = true ∧
    asciiValid (bs! "0123456789abcé") = false := by decide +kernel

end JC.Props

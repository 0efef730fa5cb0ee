import Verif.Lemmas.Compact
/-!
Properties C04, C05, C06, C52, C55 and the string part of C03: decoding and
encoding of string literals.
-/
namespace JC.Props
open JC Spec

/-- Every string literal of the grammar has exactly one meaning, so the
specification `StrMeans` used below leaves nothing open. -/
theorem C04_meaning_unique {s : Bytes} (h : JChars s) : ∃ rs, StrMeans s rs ∧ ∀ rs', StrMeans s rs' → rs' = rs := by
  obtain ⟨rs, hrs⟩ := strMeans_total h
  exact ⟨rs, hrs, fun rs' h' => h'.unique hrs⟩

/-- **C04** Decoding a string literal yields the UTF-8 of its meaning, whether
or not the fast scanner was used (`isNew` only tells whether the caller's
buffer `buf` was appended to). -/
theorem C04_unquote {s : Bytes} {rs : List Nat} (h : StrMeans s rs) (rest buf : Bytes) :
    parseStringUnquote (0x22 :: (s ++ 0x22 :: rest)) buf = .ok (utf8s rs) rest false ∨
    parseStringUnquote (0x22 :: (s ++ 0x22 :: rest)) buf = .ok (buf ++ utf8s rs) rest true := by
  obtain ⟨esc, he⟩ := parseStringFast_complete h.jchars rest
  have hbody : ((0x22 :: (s ++ [0x22])).drop 1).take ((0x22 :: (s ++ [0x22])).length - 2) = s := by
    simp
  unfold parseStringUnquote
  rw [he]
  simp only [hbody]
  rw [if_neg (by simp)]
  cases esc with
  | false =>
    left
    obtain ⟨s', e1, _, _, hp⟩ := parseStringFast_sound he
    injection e1 with _ e1
    have e1 := List.append_cancel_right e1
    subst e1
    obtain ⟨m1, m2⟩ := strMeans_plain (hp rfl)
    have := m1.unique h
    rw [← this, m2]; rfl
  | true =>
    right
    simp only [Bool.not_true, Bool.false_eq_true, if_false]
    rw [unquoteLoop_means h]

example : ∃ rs, StrMeans (bs! "\\ud83d\\ude00\\ud800<\\t") rs ∧ rs = [0x1f600, 0xfffd, 0x3c, 9] := by
  refine ⟨_, ?_, rfl⟩
  refine StrMeans.pair 0x64 0x38 0x33 0x64 0x64 0x65 0x30 0x30 _ _ ?_ ?_ ?_ ?_ ?_ ?_ ?_ ?_ ?_ ?_
    (StrMeans.lone 0x64 0x38 0x30 0x30 _ _ ?_ ?_ ?_ ?_ (.inr ⟨?_, ?_⟩)
      (StrMeans.rune 0x3c _ _ ?_ ?_ ?_ ?_ (.esc 0x74 9 [] [] .t .nil)))
  all_goals first
    | (unfold HexDigit; decide) | (unfold HighSur; decide) | (unfold LowSur; decide) | (unfold Scalar; decide)
    | decide
    | (rintro ⟨_, _, _, _, _, h, _⟩; injection h with h _; exact absurd h (by decide))

example : unquote (bs! "\"\\ud83d\\ude00\\ud800<\\t\"") = some [0xf0, 0x9f, 0x98, 0x80, 0xef, 0xbf, 0xbd, 0x3c, 0x09] := by
  decide +kernel

/-- **C04** Only string literals are decoded, and exactly one literal is consumed. -/
theorem C04_unquote_only {b buf out rest : Bytes} {isNew : Bool}
    (h : parseStringUnquote b buf = .ok out rest isNew) : ∃ v, JString v ∧ b = v ++ rest := by
  unfold parseStringUnquote at h
  split at h
  · contradiction
  · rename_i s r esc hf
    obtain ⟨s', e1, e2, e3, _⟩ := parseStringFast_sound hf
    have hj : JString s := by rw [e1]; exact .mk _ e3
    split at h
    · contradiction
    · simp only at h
      split at h
      · injection h with _ h2 _; subst h2; exact ⟨s, hj, e2⟩
      · split at h
        · injection h with _ h2 _; subst h2; exact ⟨s, hj, e2⟩
        · contradiction
        · contradiction

/-- **C03** (strings) Unquoting never indexes out of range. -/
theorem C03_unquote_no_panic (b buf : Bytes) : parseStringUnquote b buf ≠ .panic := by
  intro h
  unfold parseStringUnquote at h
  split at h
  · contradiction
  · rename_i s r esc hf
    obtain ⟨s', e1, e2, e3, _⟩ := parseStringFast_sound hf
    obtain ⟨rs, hrs⟩ := strMeans_total e3
    have hbody : ((0x22 :: (s' ++ [0x22])).drop 1).take ((0x22 :: (s' ++ [0x22])).length - 2) = s' := by
      simp
    rw [if_neg (by rw [e1]; simp)] at h
    simp only at h
    rw [e1, hbody, unquoteLoop_means hrs] at h
    split at h <;> contradiction

/-- **C05** Decoding the encoding of a Go string gives the string's characters,
with `U+FFFD` for every byte that is not UTF-8. -/
theorem C05_roundtrip (html : Bool) (s : Bytes) {rs : List Nat} (hd : Decodes s rs) :
    appendUnquote (doEncodeString html [] s) [] = some (utf8s rs) := by
  have hm := encLoop_means html s
  rw [← hd.runes_eq] at hm
  have e : doEncodeString html [] s = 0x22 :: (encLoop html [] s ++ 0x22 :: []) := rfl
  unfold appendUnquote
  rcases C04_unquote hm [] [] with h | h
  · rw [e, h]; simp
  · rw [e, h]; simp

/-- the decoding assumed in C05 exists for every byte sequence -/
theorem C05_decodes_total (s : Bytes) : ∃ rs, Decodes s rs := ⟨_, runes_decodes s⟩

/-- **C05** Valid UTF-8 strings come back unchanged. -/
theorem C05_roundtrip_valid (html : Bool) (s : Bytes) (h : ValidUtf8 s) :
    appendUnquote (doEncodeString html [] s) [] = some s := by
  rw [C05_roundtrip html s (runes_decodes s)]
  exact congrArg some (coerce_valid h)

example : ValidUtf8 [0x61, 0xC3, 0xA9, 0x0a, 0x3c] ∧ doEncodeString true [] [0x61, 0xC3, 0xA9, 0x0a, 0x3c] =
    [0x22, 0x61, 0xC3, 0xA9, 0x5c, 0x6e, 0x5c, 0x75, 0x30, 0x30, 0x33, 0x63, 0x22] := by
  refine ⟨⟨[0x61, 0xe9, 0x0a, 0x3c], ?_, ?_⟩, ?_⟩
  · unfold Scalar; decide
  · decide
  · decide +kernel

/-- **C06** The encoding of any Go string is a string literal of the grammar. -/
theorem C06_is_string (html : Bool) (s : Bytes) : JString (doEncodeString html [] s) :=
  .mk _ (encLoop_means html s).jchars

/-- **C06** ... whose text is UTF-8 made of characters that are neither
controls (so no raw ESC) nor U+2028/U+2029, nor, under EscapeHTML, `<`, `>`, `&`. -/
theorem C06_safe (html : Bool) (s : Bytes) : ∃ rs, doEncodeString html [] s = utf8s rs ∧
    ∀ r ∈ rs, Scalar r ∧ 0x20 ≤ r ∧ r ≠ 0x1b ∧ r ≠ 0x2028 ∧ r ≠ 0x2029 ∧
      (html = true → r ≠ 0x3c ∧ r ≠ 0x3e ∧ r ≠ 0x26) := by
  obtain ⟨rs, h1, h2⟩ := encLoop_safe html s
  refine ⟨0x22 :: (rs ++ [0x22]), ?_, ?_⟩
  · rw [utf8s_cons, utf8s_append, ← h1]; rfl
  · intro r hr
    simp only [List.mem_cons, List.mem_append, List.not_mem_nil, or_false] at hr
    rcases hr with rfl | hr | rfl
    · refine ⟨.inl (by omega), by omega, by omega, by omega, by omega, fun _ => by omega⟩
    · obtain ⟨a1, a2, a3, a4, a5⟩ := h2 r hr
      exact ⟨a1, a2, by omega, a3, a4, a5⟩
    · refine ⟨.inl (by omega), by omega, by omega, by omega, by omega, fun _ => by omega⟩

example : doEncodeString true [] [0x1b, 0xff, 0xE2, 0x80, 0xA8, 0x26] =
    bs! "\"\\u001b\\ufffd\\u2028\\u0026\"" := by decide +kernel

/-- **C52** Under EscapeHTML a copied string literal stays a literal with the
same meaning. -/
theorem C52_meaning {s : Bytes} {rs : List Nat} (h : StrMeans s rs) (dst : Bytes) :
    ∃ s', appendCompactEscapeHTML dst (0x22 :: (s ++ [0x22])) = dst ++ 0x22 :: (s' ++ [0x22]) ∧ StrMeans s' rs :=
  ⟨htmlBody s, by rw [appendCompactEscapeHTML, compactLoop_string h.jchars], htmlBody_means h⟩

/-- **C52** ... and contains no HTML-significant byte and no encoded U+2028/U+2029. -/
theorem C52_safe {v : Bytes} (h : JString v) : ∃ v', JString v' ∧ appendCompactEscapeHTML [] v = v' ∧
    (∀ c ∈ v', c ≠ 0x3c ∧ c ≠ 0x3e ∧ c ≠ 0x26) ∧ ¬ utf8 0x2028 <:+: v' ∧ ¬ utf8 0x2029 <:+: v' := by
  obtain ⟨s, hs⟩ := h
  obtain ⟨rs, hm⟩ := strMeans_total hs
  refine ⟨_, .mk _ (htmlBody_means hm).jchars, by rw [appendCompactEscapeHTML, compactLoop_string hs]; rfl, ?_⟩
  obtain ⟨h1, h2, h3⟩ := htmlBody_safe s hs
  have aux : ∀ a : UInt8, a ≠ 0x22 → ¬ [0xE2, 0x80, a] <:+: htmlBody s → ¬ [0xE2, 0x80, a] <:+: 0x22 :: (htmlBody s ++ [0x22]) := by
    intro a hne ha
    rw [List.infix_cons_iff]
    rintro (hp | ⟨p, q, hp⟩)
    · rw [List.cons_prefix_cons] at hp; exact absurd hp.1 (by decide)
    · rcases List.eq_nil_or_concat q with rfl | ⟨q', x, rfl⟩
      · have hl := congrArg (·.getLast?) hp
        simp at hl
        exact hne hl
      · have : p ++ [0xE2, 0x80, a] ++ q' = htmlBody s := by
          rw [List.concat_eq_append, ← List.append_assoc] at hp
          exact (List.append_inj' hp (by simp)).1
        exact ha ⟨p, q', this⟩
  refine ⟨?_, aux 0xA8 (by decide) h2, aux 0xA9 (by decide) h3⟩
  intro c hc
  simp only [List.mem_cons, List.mem_append, List.not_mem_nil, or_false] at hc
  rcases hc with rfl | hc | rfl
  · decide
  · exact h1 c hc
  · decide

example : appendCompactEscapeHTML [] (bs! "\"a<\\u003e\\\\&\"") = bs! "\"a\\u003c\\u003e\\\\\\u0026\"" := by
  decide +kernel

/-- **C55** For a string literal, `AppendUnquote` appends exactly the literal's
meaning to the buffer (and so does not panic). -/
theorem C55_appendUnquote {s : Bytes} {rs : List Nat} (h : StrMeans s rs) (b : Bytes) :
    appendUnquote (0x22 :: (s ++ [0x22])) b = some (b ++ utf8s rs) := by
  unfold appendUnquote
  rcases C04_unquote h [] b with hh | hh
  · rw [hh]; simp
  · rw [hh]; simp

/-- **C55** `Unquote` of a string literal returns its meaning. -/
theorem C55_unquote {s : Bytes} {rs : List Nat} (h : StrMeans s rs) :
    unquote (0x22 :: (s ++ [0x22])) = some (utf8s rs) := by
  rw [unquote, C55_appendUnquote h]; rfl

example : appendUnquote (bs! "\"x\"") (bs! "ab") = some (bs! "abx") ∧
    appendUnquote (bs! "\"\\u0041\"") (bs! "ab") = some (bs! "abA") := by decide +kernel

end JC.Props

import Verif.Lemmas.DecTrail
/-!
C48: nothing may follow the value given to `Unmarshal`.
-/
namespace JC.Props
open JC Spec

theorem delimited_follow {j : Json} {r : Bytes} (h : Delimited j r) : Follow j r := by
  cases j <;> simp only [Follow]
  intro c hc
  cases r with
  | nil => simp at hc
  | cons d t =>
    simp only [List.head?_cons, Option.some.injEq] at hc
    subst hc
    simp only [Delimited] at h
    obtain ⟨h1, h2⟩ := h d t rfl
    refine ⟨?_, h2⟩
    cases hd : isDigit d
    · rfl
    · exact absurd ((isDigit_iff d).1 hd) h1

/-- **C48** as stated: a syntax error whenever something follows the first value. -/
def C48_statement : Prop := ∀ (c : DCfg) (n : Nat) (t : Ty) (p : DV) (b : Bytes), LibOk c.lib → t.bare → Held Ty.bare p n → Trailing b →
  ∃ x, unmarshal c n t b p = .done x (some .syntax)

/-- **C48** fails for `1.` and an integer: `parseInt` (`/repo/parse.go:120-129`) takes
the dot for a sign of a fraction, skips it, and reports the wrong type. -/
theorem C48_fails_number : ¬ C48_statement := by
  intro h
  have ht : Trailing (bs! "1.") := by
    have hone : JNumber [0x31] := by
      have := JNumber.mk [] [0x31] [] [] (.inl rfl) (.pos 0x31 [] (by decide) (by decide) (by simp)) .none .none
      simpa using this
    refine ⟨[], [0x31], [0x2e], .num [0x31], rfl, by simp [Ws], .num _ hone, ?_, ?_⟩
    · intro j' u u' e hu hj
      obtain rfl : u = [0x2e] := by
        cases u with
        | nil => exact absurd rfl hu
        | cons a u =>
          injection e with e1 e2
          rw [List.eq_nil_of_append_eq_nil e2.symm |>.1, ← e1]
      have hp := parseValue_complete hj (r := []) (follow_of_numStop NumStop.nil)
      revert hp
      decide +kernel
    · intro hw
      have := hw 0x2e (by simp)
      cases this
  obtain ⟨x, hx⟩ := h { lib := noLib } 0 (.int .int) (.int 0) _ noLib_ok (by simp [Ty.bare]) (by simp [Held]) ht
  have : unmarshal { lib := noLib } 0 (.int .int) (bs! "1.") (.int 0) = .done (.int 0) (some .unmarshalType) := rfl
  rw [this] at hx
  simp at hx

/-- **C48** for values that are delimited from what follows, whatever the
destination. Missing: numbers directly followed by a digit, a dot or an `e` that do
not form a number, where the property fails for integers. -/
theorem C48_trailing_partial {c : DCfg} (hl : LibOk c.lib) {n : Nat} {t : Ty} (ht : t.bare) {p : DV} (hp : Held Ty.bare p n) {j : Json}
    {w v r : Bytes} (hw : Ws w) (hj : Derives (.value j) v) (hd : Delimited j r) (hr : ¬ Ws r) :
    ∃ x, unmarshal c n t (w ++ v ++ r) p = .done x (some .syntax) := by
  have hf := delimited_follow hd
  have hr' : skipSpaces r ≠ [] := fun h => hr (skipSpaces_eq_nil h)
  obtain ⟨x, e, h⟩ := unmarshal_done (c := c) (t := t) (b := w ++ v ++ r) hp
  refine ⟨x, ?_⟩
  unfold unmarshal parseInto at h ⊢
  have hs : skipSpaces (w ++ v ++ r) = v ++ r := by rw [List.append_assoc]; exact skip_ws_value hw hj r
  rw [hs] at h ⊢
  cases hq : decN c n t (v ++ r) p with
  | crash => simp [hq] at h
  | ok y r2 =>
    have hr2 := decN_trailOk hl n t j v hj r hf p y r2 hq
    have : skipSpaces r2 ≠ [] := by rw [skip_or hr2]; exact hr'
    simp only [hq] at h ⊢
    injection h with h1 h2
    rw [if_pos this, h1]
  | err y r2 e2 =>
    have hr2 := (decN_trailErr hl n t ht).1 j v hj r hf hr' p hp y r2 e2 hq
    simp only [hq] at h ⊢
    injection h with h1 h2
    rw [h1]
    rcases hr2 with rfl | hr2
    · split <;> rfl
    · rw [if_pos hr2]

/-- two values, a stray bracket, an error within the first value, and a type that does not fit -/
example : unmarshal { lib := noLib } 0 (.slice .bool) (bs! " [true] [false]") .sliceNil = .done (.slice [.bool true] []) (some .syntax) ∧
    unmarshal { lib := noLib } 0 .bool (bs! "true}") (.bool false) = .done (.bool true) (some .syntax) ∧
    unmarshal { lib := noLib } 0 (.struct [(bs! "a", .int .int8)]) (bs! "{\"a\":300} x") (.struct [.int 1]) =
      .done (.struct [.int 1]) (some .syntax) ∧
    unmarshal { lib := noLib } 0 (.array 2 (.int .int)) (bs! "[1.5,2],") (.array [.int 0, .int 0]) =
      .done (.array [.int 0, .int 0]) (some .syntax) := ⟨rfl, rfl, rfl, rfl⟩

/-- without something behind the value the same inputs are accepted or get another error -/
example : unmarshal { lib := noLib } 0 (.slice .bool) (bs! " [true] ") .sliceNil = .done (.slice [.bool true] []) none ∧
    unmarshal { lib := noLib } 0 (.struct [(bs! "a", .int .int8)]) (bs! "{\"a\":300} ") (.struct [.int 1]) =
      .done (.struct [.int 1]) (some .unmarshalType) := ⟨rfl, rfl⟩

end JC.Props

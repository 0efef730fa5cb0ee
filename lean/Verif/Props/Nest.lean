import Verif.Lemmas.Nest
import Verif.Props.Parse
/-!
C71: a text cannot end the program that parses it.
-/
namespace JC.Props
open JC Spec

/-- What the parser returns when its stack is bounded is what it returns when it is not. -/
theorem C71_agree (d : Nat) (b : Bytes) (x : Bool) (h : validS d b = some x) : x = Valid b := by
  unfold validS at h
  rw [Option.map_eq_some_iff] at h
  obtain ⟨y, hy, rfl⟩ := h
  rw [(agreeAt _).value _ _ _ hy]
  unfold Valid parseValue
  cases parseValueF (fuelFor (skipSpaces b)) (skipSpaces b) <;> rfl

/-- With room for one call more than the text has opening brackets and braces the parser returns, and returns what it
should. The full statement is false, see `C71_fails_deep`: there is no room that is enough for all texts. -/
theorem C71_enough_partial (d : Nat) (b : Bytes) (h : opens b < d) : validS d b = some (Valid b) := by
  obtain ⟨x, hx⟩ := (roomAt (fuelFor (skipSpaces b))).value d (skipSpaces b)
    (Nat.lt_of_le_of_lt (opens_skip b) h)
  cases hv : validS d b with
  | none => unfold validS at hv; rw [hx] at hv; contradiction
  | some y => rw [C71_agree d b y hv]

/-- A valid text is accepted if there is room for as many calls as the document has levels, and ends the program if
there is not: no depth is refused. -/
theorem C71_levels_partial (d : Nat) (j : Json) (b : Bytes) (h : JText j b) :
    validS d b = if levels j ≤ d then some true else none := by
  obtain ⟨w1, v, w2, rfl, h1, h2, hv⟩ := h
  have hs : skipSpaces (w1 ++ v ++ w2) = v ++ w2 := by
    obtain ⟨c, t, rfl, hc, _⟩ := derives_value_head hv
    rw [List.append_assoc, skipSpaces_ws_append h1, List.cons_append, skipSpaces_cons_of_not hc]
  have hf : Follow j w2 := follow_of_numStop (numStop_ws h2)
  have := stackNeed hv w2 (fuelFor (v ++ w2)) d hf (by simp [fuelFor]; omega)
  unfold validS
  rw [hs, this]
  split
  · simp [skipSpaces_ws h2]
  · rfl

/-! `[[[...]]]` -/

theorem tower_length : ∀ k, (tower k).length = 2 * k
  | 0 => rfl
  | k + 1 => by simp [tower, tower_length k]; omega

theorem tower_derives : ∀ k, ∃ j, Derives (.value j) (tower (k + 1)) ∧ levels j = k + 1
  | 0 => ⟨.arr [], .arrNil [] (by intro c hc; contradiction), rfl⟩
  | k + 1 => by
    obtain ⟨j, hj, hl⟩ := tower_derives k
    have nil : Ws [] := by intro c hc; contradiction
    have he := Derives.elemOne [] [] j _ nil nil hj
    rw [List.nil_append, List.append_nil] at he
    exact ⟨.arr [j], .arr _ _ he, by simp [levels, levelsL, hl]⟩

/-- For every size of the stack there is a valid text, two bytes for each call that has room and two more, that
ends the program: the full statement "the parser returns for every text" is false. -/
theorem C71_fails_deep (d : Nat) : ∃ b, b.length = 2 * (d + 1) ∧ IsJson b ∧ validS d b = none := by
  obtain ⟨j, hj, hl⟩ := tower_derives d
  have nil : Ws [] := by intro c hc; contradiction
  have ht : JText j (tower (d + 1)) := ⟨[], _, [], by simp, nil, nil, hj⟩
  refine ⟨_, tower_length (d + 1), ⟨j, ht⟩, ?_⟩
  rw [C71_levels_partial d j _ ht, hl, if_neg (by omega)]

/-- Beside it: `[1,{"a":[]}]` has three levels and three brackets; it needs room for three calls, and one more is
always enough. -/
example : validS 3 (bs! "[1,{\"a\":[]}]") = some true ∧ validS 2 (bs! "[1,{\"a\":[]}]") = none
    ∧ opens (bs! "[1,{\"a\":[]}]") = 3 := by decide +kernel

/-- An array of arrays takes no more room the longer it gets. -/
example : validS 2 (bs! "[[],[],[],[],[]]") = some true := by decide +kernel

/-- A text that is not valid dies as well, if it is deep enough before it goes wrong. -/
example : validS 3 (bs! "[[[[") = none ∧ validS 4 (bs! "[[[[") = some false := by decide +kernel

end JC.Props

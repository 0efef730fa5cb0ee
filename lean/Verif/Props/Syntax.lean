import Verif.Lemmas.DecMild
import Verif.Props.Parse
import Verif.Props.Decode
/-!
C57: valid JSON is never called a syntax error by `Unmarshal`.
-/
namespace JC.Props
open JC Spec

/-- **C57** as stated: a syntax error is reported only for input that is not a JSON
text, unless a type of the user reports one. -/
def C57_statement : Prop := ∀ (c : DCfg) (n : Nat) (t : Ty) (p x : DV) (b : Bytes), LibOk c.lib → c.disallowUnknown = false →
  (∀ f s, t = .jsonU f ∨ t = .textU f → f s ≠ some .syntax) → Held (fun _ => False) p n → IsJson b → unmarshal c n t b p ≠ .done x (some .syntax)

/-- **C57** fails for an integer beyond 64 bits: `parseInt` returns the whole input
behind such an error (`/repo/parse.go:107-113`), and `Unmarshal`
(`/repo/json.go:193-205`) takes it for trailing data. -/
theorem C57_fails_overflow : ¬ C57_statement := by
  intro h
  exact h { lib := noLib } 0 (.int .int) (.int 0) (.int 0) (bs! "99999999999999999999") noLib_ok rfl (by simp) (by simp [Held])
    ((C01_valid_iff _).1 (by decide +kernel)) rfl

/-- **C57** fails for an empty array and a destination of fixed size: `decodeArray`
(`/repo/decode.go:516-542`) looks for the `]` only behind an element. -/
theorem C57_fails_array : ¬ C57_statement := by
  intro h
  exact h { lib := noLib } 0 (.slice (.array 1 .bool)) .sliceNil (.slice [] [.array [.bool false]]) (bs! "[[]]") noLib_ok rfl (by simp) (by simp [Held])
    ((C01_valid_iff _).1 (by decide +kernel)) rfl

/-- **C57** fails for a name that is no integer and a map with integer keys:
`objectKeyError` (`/repo/codec.go:983-992`) turns the type error into a syntax error. -/
theorem C57_fails_key : ¬ C57_statement := by
  intro h
  exact h { lib := noLib } 0 (.slice (.map (.int .int) .bool)) .sliceNil (.slice [] [.mapNil]) (bs! "[{\"x\":true}]") noLib_ok rfl (by simp) (by simp [Held])
    ((C01_valid_iff _).1 (by decide +kernel)) rfl

/-- **C57** fails for the `string` option and a value that is no string:
`decodeFromString` (`/repo/decode.go:299-318`) complains about the rest that the
parser of strings returned, which is empty. -/
theorem C57_fails_quoted : ¬ C57_statement := by
  intro h
  exact h { lib := noLib } 0 (.struct [(bs! "a", .quoted .bool)]) (.struct [.bool false]) (.struct [.bool false]) (bs! "{\"a\":true}") noLib_ok rfl
    (by simp) (by simp [Held, HeldL]) ((C01_valid_iff _).1 (by decide +kernel)) rfl

/-- **C57** for the types of `Ty.mildTop`, with any values of these types behind the
interfaces of the destination. Missing: fixed-size arrays, integer map keys, the
`string` option of other types than integers, and integers as the destination itself,
where the property fails. -/
theorem C57_syntax_partial {c : DCfg} (hl : LibOk c.lib) (hc : c.disallowUnknown = false) {n : Nat} {t : Ty} (ht : t.mildTop) {p : DV}
    (hp : Held Ty.mildTop p n) {b : Bytes} (hb : IsJson b) : ∃ x e, unmarshal c n t b p = .done x e ∧ e ≠ some .syntax := by
  obtain ⟨j, w1, v, w2, rfl, h1, h2, hj⟩ := hb
  obtain ⟨x, e, h⟩ := unmarshal_done (c := c) (t := t) (b := w1 ++ v ++ w2) hp
  refine ⟨x, e, h, ?_⟩
  have hf := follow_of_numStop (j := j) (numStop_ws h2)
  unfold unmarshal parseInto at h
  have hs : skipSpaces (w1 ++ v ++ w2) = v ++ w2 := by rw [List.append_assoc]; exact skip_ws_value h1 hj w2
  rw [hs] at h
  have he := skipSpaces_ws h2
  obtain ⟨hm, hle⟩ := decN_mild hc hl n t ht
  cases hq : decN c n t (v ++ w2) p with
  | crash => simp [hq] at h
  | ok y r2 =>
    have hr2 := skip_or (decN_trailOk hl n t j v hj w2 hf p y r2 hq)
    simp [hq, hr2, he] at h
    rw [← h.2]; simp
  | err y r2 e2 =>
    have hr2 := skip_or (hle j v hj w2 hf p hp y r2 e2 hq)
    have := hm j v hj w2 hf p hp y r2 e2 hq
    simp [hq, hr2, he] at h
    rw [← h.2]
    simpa using this

/-- inside other values integers are harmless -/
example : unmarshal { lib := noLib } 0 (.slice (.int .int8)) (bs! "[300]") .sliceNil = .done (.slice [] [.int 0]) (some .unmarshalType) ∧
    unmarshal { lib := noLib } 0 (.map .str .bool) (bs! "{\"a\":true,\"b\":[]} ") .mapNil = .done .mapNil (some .unmarshalType) ∧
    unmarshal { lib := noLib } 0 (.struct [(bs! "a", .quotedInt (.int .int8))]) (bs! "{\"a\":[1]}") (.struct [.int 1]) =
      .done (.struct [.int 1]) (some (.other 1)) ∧
    unmarshal { lib := noLib } 0 (.ptr .string) (bs! "{\"a\":300} ") .ptrNil = .done (.ptr (.string [])) (some .unmarshalType) := ⟨rfl, rfl, rfl, rfl⟩

/-- the integer of `C57_fails_overflow` inside an array -/
example : ∃ x e, unmarshal { lib := noLib } 0 (.slice (.int .int)) (bs! "[1,99999999999999999999]") .sliceNil = .done x e ∧ e ≠ some .syntax :=
  C57_syntax_partial noLib_ok rfl (by simp [Ty.mildTop, Ty.mild]) (by simp [Held]) ((C01_valid_iff _).1 (by decide +kernel))

/-- an interface that holds a pointer to a struct -/
example : ∃ x e, unmarshal { lib := noLib } 1 (.slice .iface) (bs! "[{\"a\":[1]}]") (.slice [.iface (.ptr (.struct [(bs! "a", .bool)])) (.ptr (.struct [.bool true]))] []) =
    .done x e ∧ e ≠ some .syntax :=
  C57_syntax_partial noLib_ok rfl (by simp [Ty.mildTop, Ty.mild]) (by simp [Held, HeldL, Ty.mildTop, Ty.mild, mildF]) ((C01_valid_iff _).1 (by decide +kernel))

end JC.Props

import Verif.Lemmas.PathAll
/-!
**C65** The `Field` of an `*UnmarshalTypeError` is the path to a value that does not fit
its destination.
-/
namespace JC.Props
open JC Spec

/-- **C65** Reporting a path changes nothing else: without the path, the decoders of
`Model/Path.lean` are those of `Model/Decode.lean`. -/
theorem C65_erases (c : DCfg) (n : Nat) (t : Ty) (b : Bytes) (p : DV) : (unmarshalP c n t b p).1 = unmarshal c n t b p :=
  unmarshalP_erases c n t b p

/-- Texts with dots between them. -/
def dotted : List Bytes → Bytes
  | [] => []
  | [s] => s
  | s :: t :: p => s ++ 0x2e :: dotted (t :: p)

/-- **C65**, full claim: if `Unmarshal` of a JSON text fails with an `*UnmarshalTypeError`, then
`Field` is a path, with dots between its parts, from the destination to a value that does not
fit where it should go. -/
def C65_statement : Prop :=
  ∀ (c : DCfg) (n : Nat) (t : Ty) (j : Json) (b : Bytes) (p x : DV) (s : List Bytes), LibOk c.lib → t.proper → Held Ty.proper p n → JText j b →
    unmarshalP c n t b p = (.done x (some .unmarshalType), s) →
      ∃ path u y, fieldText s = dotted path ∧ Leads c Ty.proper t j path u y ∧ ¬ Fits c u y

theorem unmarshalP_err {c : DCfg} {n : Nat} {t : Ty} {b : Bytes} {p x : DV} {e : Err} {s : List Bytes}
    (h : unmarshalP c n t b p = (.done x (some e), s)) (he : e ≠ .syntax) : ∃ r, parseIntoP (decNP c n t) b p = (.err x r e, s) := by
  unfold unmarshalP at h
  split at h
  · simp at h
  · split at h
    · injection h with h _; injection h with _ h; injection h with h; exact absurd h.symm he
    · simp at h
  · rename_i v r e2 s2 hp
    split at h
    · injection h with h _; injection h with _ h; injection h with h; exact absurd h.symm he
    · injection h with h h2
      injection h with h1 h; injection h with h
      subst h h1 h2
      exact ⟨r, hp⟩

/-- **C65** (partial) If `Unmarshal` of a JSON text fails with an `*UnmarshalTypeError`, then the parts
of `Field` lead from the destination to a value that does not fit where it should go:
an index for every element on the way, and a key for every member. Missing: every part has a dot behind
it, even the last one (`C65_fails_dot`). -/
theorem C65_path_partial {c : DCfg} (hl : LibOk c.lib) {n : Nat} {t : Ty} (ht : t.proper) {j : Json} {b : Bytes} {p x : DV}
    (hp : Held Ty.proper p n) (hj : JText j b) {s : List Bytes} (h : unmarshalP c n t b p = (.done x (some .unmarshalType), s)) :
    ∃ u y, Leads c Ty.proper t j s u y ∧ ¬ Fits c u y := by
  obtain ⟨r, h⟩ := unmarshalP_err h (by simp)
  obtain ⟨w1, v, w2, rfl, h1, h2, hv⟩ := hj
  have e1 : parseIntoP (decNP c n t) (w1 ++ v ++ w2) p = parseIntoP (decNP c n t) (v ++ w2) p := by
    unfold parseIntoP
    rw [List.append_assoc, skip_ws_value h1 hv, skip_value hv]
  rw [e1] at h
  exact parseInto_path (decN_path hl n t ht) j v hv w2 (follow_of_numStop (numStop_ws h2)) p hp x r s h

/-- **C65** Every part of `Field` has a dot behind it. -/
theorem C65_dots (s : List Bytes) : s ≠ [] → fieldText s = dotted s ++ [0x2e] := by
  induction s with
  | nil => intro h; exact absurd rfl h
  | cons a s ih =>
    intro _
    cases s with
    | nil => rfl
    | cons b s =>
      simp only [fieldText, dotted] at ih ⊢
      rw [ih (by simp)]
      simp

/-- **C65** With a field `a`, the `Field` of the error for `{"a":true}` is `a.`, not `a`. -/
theorem C65_fails_dot : ¬ C65_statement := by
  intro h
  have ha : JString (bs! "\"a\"") := .mk [0x61] (.plain _ _ (by decide) (by decide) (by decide) .nil)
  obtain ⟨path, u, y, e, hl, hy⟩ := h { lib := noLib } 0 (.struct [(bs! "a", .int .int)]) (.obj [(bs! "\"a\"", .tru)]) (bs! "{\"a\":true}")
    (.struct [.int 0]) (.struct [.int 0]) [bs! "a"] noLib_ok (by simp [Ty.proper, properF]) (by simp [Held, HeldL])
    (by
      refine ⟨[], _, [], (List.append_nil _).symm, ws_nil, ws_nil, ?_⟩
      exact .obj _ (bs! "\"a\":true") (.memOne [] [] [] [] _ _ _ ws_nil ws_nil ws_nil ws_nil ha .tru))
    (by with_unfolding_all rfl)
  cases hl with
  | here => exact hy (.inr ⟨_, rfl⟩)
  | field _ i nm t _ _ raw d x _ s' hm hk hi hg hl =>
    simp only [List.mem_singleton] at hm
    injection hm with hm hx
    subst hm hx
    have hd := (keyMeans_unq ha d).1 hk
    rw [show unq (bs! "\"a\"") = bs! "a" from by decide +kernel] at hd
    subst hd
    have ht : t = .int .int := by
      cases i with
      | zero => simp at hi; exact hi.2.symm
      | succ i => simp at hi
    subst ht
    cases hl
    exact absurd e (by decide)

/-- the path goes through fields, elements, pointers and maps; the key is the one in the text, in the case
it has there, and integer keys are written anew -/
example : unmarshalP { lib := noLib } 0 (.struct [(bs! "a", .slice (.ptr (.map .str (.int .int8))))]) (bs! "{\"A\":[null,{\"x\":1,\"y.z\":128}]}")
      (.struct [.sliceNil]) =
      (.done (.struct [.slice [.ptrNil] [.ptr .mapNil]]) (some .unmarshalType), [bs! "A", bs! "1", bs! "y.z"]) ∧
    fieldText [bs! "A", bs! "1", bs! "y.z"] = bs! "A.1.y.z." ∧
    (unmarshalP { lib := noLib } 0 (.map (.int .int) .bool) (bs! "{\"-0\":1}") .mapNil).2 = [bs! "0"] ∧
    (unmarshalP { lib := noLib } 1 .iface (bs! "[1]") (.iface (.ptr (.slice .bool)) (.ptr .sliceNil))).2 = [bs! "0"] :=
  ⟨by with_unfolding_all rfl, by decide, by with_unfolding_all rfl, by with_unfolding_all rfl⟩

/-- a syntax error has no path, and neither has an error at the top -/
example : unmarshalP { lib := noLib } 0 (.slice .bool) (bs! "[true,1") .sliceNil =
      (.done (.slice [.bool true] [.bool false]) (some .syntax), []) ∧
    unmarshalP { lib := noLib } 0 (.slice .bool) (bs! " 1 ") .sliceNil = (.done .sliceNil (some .unmarshalType), []) :=
  ⟨by with_unfolding_all rfl, by with_unfolding_all rfl⟩

end JC.Props

import Verif.Lemmas.TypeErrList
/-!
**C98**, continued: what an `*UnmarshalTypeError` says about a document that is decoded into a list of plain values, a map of
them, a list of such lists, of pointers to them, and so on.
-/
namespace JC.Props
open JC Spec

/-- **C98** Without the fields of the error, the decoders of `Model/TypeErrList.lean` are those of `Model/Decode.lean`. -/
theorem C98_list_erases (c : DCfg) (dyn : Ty → Dec) (t : LTy) (b : Bytes) (p : DV) : (decL c.lib t b p).erase = dec c dyn t.ty b p :=
  decL_erase c dyn t b p

/-- **C98**, full claim for lists and maps: the error is about one of the values in the document and names the type that this value
should have. -/
def C98_list_statement : Prop :=
  ∀ (l : Lib) (t : LTy) (j : Json) (b : Bytes) (p x : DV) (e : LErr), t.isCont = true → LibOk l → JText j b → Held Ty.tree p 0 →
    unmarshalL l t b p = some (x, some e) → ∃ t' j' u, Within t j t' j' ∧ Derives (.value j') u ∧ SaysOf e t' u

/-- **C98** (partial) If a document is not decoded into a list or map, there is a value `u` in it, found where the type `t'` is expected, such that
the error is about `u` or about the rest of the document from `u` on. It names `t'`, or else `int32` for `time.Duration`. It is
never another error. Missing: the rest of the document (`C98_fails_list`). -/
theorem C98_list_partial {l : Lib} (hl : LibOk l) (t : LTy) (ht : t.isCont = true) {j : Json} {b : Bytes} (hb : JText j b) {p x : DV} (hp : Held Ty.tree p 0) {e : LErr}
    (h : unmarshalL l t b p = some (x, some e)) :
    ∃ t' j' pre u post ty near, Within t j t' j' ∧ b = pre ++ u ++ post ∧ Derives (.value j') u ∧ SaysOf e ty near ∧
      (near = u ∨ near = u ++ post) ∧ (ty = t' ∨ t' = .plain .duration ∧ ty = .plain (.int .int32)) := by
  obtain ⟨w1, v, w2, rfl, h1, h2, hv⟩ := hb
  have hf : Follow j w2 := by
    cases j with
    | num => exact numStop_ws h2
    | _ => trivial
  have e0 : skipSpaces (w1 ++ v ++ w2) = v ++ w2 := by
    rw [List.append_assoc]; exact skip_ws_value h1 hv w2
  unfold unmarshalL at h
  rw [e0] at h
  cases ed : decL l t (v ++ w2) p with
  | crash => rw [ed] at h; cases h
  | ok y r =>
    rw [ed] at h
    have hr' : skipSpaces r = [] := by
      rcases decL_rest hl t hv hf hp ed with rfl | rfl
      · exact skipSpaces_ws h2
      · rw [skipSpaces_ws h2]; rfl
    simp [hr'] at h
  | err y r e1 =>
    rw [ed] at h
    obtain ⟨hs, hr⟩ := decL_says hl t j v w2 p y r e1 hv hf hp ed
    have hr' : skipSpaces r = [] := by
      rcases hr ht with rfl | rfl
      · exact skipSpaces_ws h2
      · rw [skipSpaces_ws h2]; rfl
    simp only [hr', ne_eq, not_true_eq_false, if_false, Option.some.injEq, Prod.mk.injEq] at h
    obtain ⟨_, rfl⟩ := h
    obtain ⟨t', j', pre, u, post, ty, near, g1, rfl, g3, g4, g5, g6⟩ := hs
    exact ⟨t', j', w1 ++ pre, u, post ++ w2, ty, near, g1, by simp, g3, g4, g5, g6⟩

/-- **C98** Of a value of at least 32 bytes the error shows the beginning, whatever follows it. -/
theorem C98_list_long {l : Lib} (hl : LibOk l) (t : LTy) (ht : t.isCont = true) {j : Json} {b : Bytes} (hb : JText j b) {p x : DV} (hp : Held Ty.tree p 0) {e : LErr}
    (h : unmarshalL l t b p = some (x, some e)) (q : Bytes → Bytes) :
    ∃ t' j' u, Within t j t' j' ∧ Derives (.value j') u ∧ u <:+: b ∧ (32 ≤ u.length →
      e.value q = bs! "number " ++ (u.take 32 ++ bs! "...") ++ bs! " overflows" ∨ e.value q = q (u.take 32 ++ bs! "...")) := by
  obtain ⟨t', j', pre, u, post, ty, near, g1, g2, g3, g4, g5, _⟩ := C98_list_partial hl t ht hb hp h
  refine ⟨t', j', u, g1, g3, ⟨pre, post, g2.symm⟩, fun hu => ?_⟩
  have hp32 := prefix32_long hu g5
  cases ty with
  | plain s =>
    rcases g4 with rfl | rfl
    · left; simp only [LErr.value, TErr.value, hp32]
    · right; simp only [LErr.value, TErr.value, hp32]
  | ptr t1 => exact absurd g4 id
  | list t1 =>
    have : e = .kind (.list t1) near := g4
    subst this
    right; simp only [LErr.value, hp32]
  | map t1 =>
    have : e = .kind (.map t1) near := g4
    subst this
    right; simp only [LErr.value, hp32]

/-- `[[7],"a",[]]` -/
theorem listText : JText (.arr [.arr [.num [0x37]], .str (bs! "\"a\""), .arr []]) (bs! "[[7],\"a\",[]]") :=
  ⟨[], _, [], rfl, ws_nil, ws_nil, .arr _ _ (.elemCons [] [] _ (bs! "[7]") _ _ ws_nil ws_nil
    (.arr _ _ (.elemOne [] [] _ _ ws_nil ws_nil (.num _ (.mk [] [0x37] [] [] (.inl rfl) (.pos _ _ (by decide) (by decide) (by decide)) .none .none))))
    (.elemCons [] [] _ (bs! "\"a\"") _ _ ws_nil ws_nil (.str _ (.mk [0x61] (.plain _ _ (by decide) (by decide) (by decide) .nil)))
      (.elemOne [] [] _ _ ws_nil ws_nil (.arrNil [] ws_nil))))⟩

/-- the error of a decoding -/
def listError (x : Option (DV × Option LErr)) : Option LErr := x.bind (·.2)

/-- **C98** The claim fails: for `[[7],"a",[]]` and a list of lists of integers the error is about `"a",[]]`. -/
theorem C98_fails_list : ¬ C98_list_statement := by
  intro h
  have e : listError (unmarshalL noLib (.list (.list (.plain (.int .int)))) (bs! "[[7],\"a\",[]]") .sliceNil) =
      some (.kind (.list (.plain (.int .int))) (bs! "\"a\",[]]")) := by decide +kernel
  unfold listError at e
  cases hu : unmarshalL noLib (.list (.list (.plain (.int .int)))) (bs! "[[7],\"a\",[]]") .sliceNil with
  | none => rw [hu] at e; cases e
  | some y =>
    obtain ⟨x, e1⟩ := y
    rw [hu] at e
    simp only [Option.bind_some] at e
    subst e
    obtain ⟨t', j', u, _, hd, hs⟩ := h noLib _ _ _ _ x _ rfl noLib_ok listText (held_zero Ty.tree 0 (.slice (.int .int))) hu
    cases t' with
    | plain s => rcases hs with hs | hs <;> cases hs
    | ptr t => exact hs
    | map t =>
      have : LErr.kind (.list (.plain (.int .int))) (bs! "\"a\",[]]") = .kind (.map t) u := hs
      cases this
    | list t =>
      have : LErr.kind (.list (.plain (.int .int))) (bs! "\"a\",[]]") = .kind (.list t) u := hs
      injection this with _ this
      subst this
      have := parseValue_complete (r := []) hd (by cases j' <;> first | trivial | exact NumStop.nil)
      exact absurd this (by decide +kernel)

/-- overflow inside, and a list where a number is expected -/
example : listError (unmarshalL noLib (.list (.list (.plain (.int .int8)))) (bs! " [ [1], [2, 300], [4] ] ") .sliceNil) =
      some (.of (.over (.int .int8) (bs! "300"))) ∧
    listError (unmarshalL noLib (.list (.plain .bool)) (bs! "[true,null,[]]") .sliceNil) = some (.of (.quote .bool (bs! "[]]"))) ∧
    listError (unmarshalL noLib (.list (.plain .bool)) (bs! "7 ") .sliceNil) = some (.kind (.list (.plain .bool)) (bs! "7 ")) ∧
    listError (unmarshalL noLib (.list (.ptr (.ptr (.list (.plain .bool))))) (bs! "[null,[true],{}]") .sliceNil) = some (.kind (.list (.plain .bool)) (bs! "{}]")) ∧
    listError (unmarshalL noLib (.map (.list (.map (.plain (.int .uint8))))) (bs! "{\"a\":null, \"b\":[{\"c\":1,\"d\":256}]}") .mapNil) =
      some (.of (.over (.int .uint8) (bs! "256"))) ∧
    listError (unmarshalL noLib (.map (.plain .bool)) (bs! " [] ") .mapNil) = some (.kind (.map (.plain .bool)) (bs! "[] ")) ∧
    listError (unmarshalL noLib (.list (.plain .bool)) (bs! "[true,false]") .sliceNil) = none := by decide +kernel

end JC.Props

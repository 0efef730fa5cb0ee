import Verif.Lemmas.PathLoop
/-! Where the path of an error leads: decoders of single values, and input that starts with a bracket. -/
namespace JC
open Spec Props

/-- a decoder reports a type only for values outside `F` -/
def TypeErr (d : Dec) (F : Json → Prop) : Prop := ∀ j v, Derives (.value j) v → ∀ r, Follow j r →
  ∀ p x r', d (v ++ r) p = .err x r' .unmarshalType → ¬ F j

theorem typeErr_ref {d : Dec} {f : JDec} {F : Json → Prop} (h : ∀ m N, RefP (Held (fun _ => True) · m) N d f)
    (hF : ∀ j v p, Derives (.value j) v → F j → ∃ x, f j p = some x) : TypeErr d F := by
  intro j v hj r hf p x r' e hFj
  obtain ⟨m, hm⟩ := held_any p
  obtain ⟨y, hy⟩ := hF j v p hj hFj
  obtain ⟨_, r2, h2, _⟩ := (h m (v.length + 1) j v hj (by omega) r hf p hm).1 y hy
  rw [h2] at e
  simp at e

theorem bool_typeErr (c : DCfg) : TypeErr decodeBool (Fits c .bool) := by
  refine typeErr_ref (fun _ _ => bool_ref) ?_
  intro j v p _ h
  rcases h with rfl | rfl | rfl <;> simp [orNull]

theorem num_derives {s v : Bytes} (h : Derives (.value (.num s)) v) : v = s ∧ JNumber s := by
  cases h; exact ⟨rfl, by assumption⟩

theorem intStop_nil : IntStop [] := by simp [IntStop]

theorem int_typeErr (c : DCfg) (k : IntKind) : TypeErr (decodeInt k) (Fits c (.int k)) := by
  refine typeErr_ref (fun _ _ => int_ref k) ?_
  intro j v p hj h
  rcases h with rfl | ⟨s, z, rfl, hl, hz⟩
  · simp [intJ, orNull]
  · have hs := (num_derives hj).2
    have hn : hasNullPrefix s = false := by
      obtain ⟨ch, t, rfl, hc⟩ := jnumber_head hs
      apply hasNull_cons
      rcases hc with rfl | hc
      · decide
      · rintro rfl; revert hc; decide
    have this : ∀ q, decodeIntKind k s q = ⟨z, [], none⟩ := by
      intro q
      have := (C10_sized k hl (r := []) intStop_nil q).1 hz
      rwa [List.append_nil] at this
    simp only [intJ, orNull, decodeInt, hn, Bool.false_eq_true, if_false]
    rw [this]
    exact ⟨_, rfl⟩

theorem float_typeErr (l : Lib) (b : Bool) : TypeErr (decodeFloat l b) (fun j => j = .null ∨ ∃ s, j = .num s ∧ l.parseFloat b s ≠ none) := by
  refine typeErr_ref (fun _ _ => float_ref l b) ?_
  intro j v p hj h
  rcases h with rfl | ⟨s, rfl, h⟩
  · simp [floatJ, orNull]
  · simp only [floatJ, orNull]
    cases hp : l.parseFloat b s with
    | none => exact absurd hp h
    | some f => exact ⟨_, rfl⟩

theorem number_typeErr (c : DCfg) : TypeErr decodeNumber (Fits c .number) := by
  refine typeErr_ref (fun _ _ => number_ref) ?_
  intro j v p _ h
  rcases h with rfl | ⟨s, rfl⟩ <;> simp [orNull]

theorem string_typeErr (c : DCfg) : TypeErr decodeString (Fits c .string) := by
  refine typeErr_ref (fun _ _ => string_ref) ?_
  intro j v p _ h
  rcases h with rfl | ⟨s, rfl⟩ <;> simp [orNull]

theorem duration_typeErr {c : DCfg} (hl : LibOk c.lib) : TypeErr (decodeDuration c.lib) (Fits c .duration) := by
  refine typeErr_ref (fun _ _ => duration_ref hl) ?_
  intro j v p hj h
  rcases h with rfl | ⟨s, z, rfl, hi, hz⟩ | ⟨s, rfl, hs, hd⟩
  · simp [orNull]
  · have hs := (num_derives hj).2
    simp only [orNull]
    obtain ⟨ch, t, rfl, hc⟩ := jnumber_head hs
    have hq : ch ≠ 0x22 := by
      rcases hc with rfl | hc
      · decide
      · rintro rfl; revert hc; decide
    have hn : hasNullPrefix (ch :: t) = false := by
      apply hasNull_cons
      rcases hc with rfl | hc
      · decide
      · rintro rfl; revert hc; decide
    have hp := parseInt_lit hi (r := []) intStop_nil
    rw [List.append_nil, if_pos hz] at hp
    simp only [decodeDuration, hn, Bool.false_eq_true, if_false]
    rw [if_pos hq, hp]
    exact ⟨_, rfl⟩
  · simp only [orNull]
    have hn : hasNullPrefix (0x22 :: (s ++ [0x22])) = false := hasNull_cons (by decide)
    simp only [decodeDuration, hn, Bool.false_eq_true, if_false, ne_eq, not_true, indexByte_append hs]
    rw [if_neg (by simp)]
    simp only [List.take_left']
    cases hp : c.lib.parseDuration s with
    | none => exact absurd hp hd
    | some f => exact ⟨_, rfl⟩

theorem time_typeErr {c : DCfg} (hl : LibOk c.lib) : TypeErr (decodeTime c.lib) (Fits c .time) := by
  refine typeErr_ref (fun _ _ => time_ref hl) ?_
  intro j v p hj h
  rcases h with rfl | ⟨s, rfl, hs, hd⟩
  · simp [orNull]
  · simp only [orNull]
    have hn : hasNullPrefix (0x22 :: (s ++ [0x22])) = false := hasNull_cons (by decide)
    simp only [decodeTime, hn, Bool.false_eq_true, if_false, ne_eq, not_true, indexByte_append hs]
    rw [if_neg (by simp)]
    simp only [List.take_left']
    cases hp : c.lib.parseTime s with
    | none => exact absurd hp hd
    | some f => exact ⟨_, rfl⟩

theorem raw_typeErr (F : Json → Prop) : TypeErr decodeRawMessage F := by
  intro j v hj r hf p x r' h
  unfold decodeRawMessage at h
  rw [parseValue_complete hj hf] at h
  simp at h

theorem jsonU_typeErr (c : DCfg) (f : Bytes → Option Err) : TypeErr (decodeJSONUnmarshaler f) (Fits c (.jsonU f)) := by
  intro j v hj r hf p x r' h hF
  unfold decodeJSONUnmarshaler at h
  rw [parseValue_complete hj hf] at h
  simp only [] at h
  split at h
  · simp at h
  · rename_i hv
    split at h
    · rename_i hfv
      injection h with _ _ h; subst h
      rcases hF with rfl | hF
      · rw [derives_null hj] at hv; simp at hv
      · exact hF v hj hfv
    · simp at h

theorem textU_typeErr (c : DCfg) (f : Bytes → Option Err) : TypeErr (decodeTextUnmarshaler f) (Fits c (.textU f)) := by
  intro j v hj r hf p x r' h hF
  unfold decodeTextUnmarshaler at h
  rw [parseValue_complete hj hf] at h
  simp only [] at h
  rcases hF with rfl | ⟨raw, s, rfl, hs, hfs⟩
  · rw [derives_null hj] at h
    simp [parseNull] at h
  · cases hj
    rename_i hraw
    obtain ⟨n', hu⟩ := unquote_ok hraw []
    rw [List.append_nil] at hu
    obtain ⟨t, rfl⟩ := jstring_head hraw
    simp only [] at h
    rw [if_neg (by decide), if_pos trivial, hu] at h
    simp only [] at h
    have : s = unq (0x22 :: t) := (keyMeans_unq hraw s).1 hs
    subst this
    split at h
    · rename_i e
      injection h with _ _ h; subst h
      exact hfs e
    · simp at h

theorem unsupported_typeErr (c : DCfg) : TypeErr decodeUnmarshalTypeError (Fits c .unsupported) := by
  intro j v hj r hf p x r' h hF
  exact hF

/-! ### input that starts with a closing bracket -/

theorem inputErr_noBr {t : Bytes} {p x : DV} {r : Bytes} : inputErr (0x5d :: t) p ≠ .err x r .unmarshalType := by
  intro h; have := inputErr_bracket h; simp at this

theorem inputErr_nil {p x : DV} {r : Bytes} : inputErr [] p ≠ .err x r .unmarshalType := by simp [inputErr, inputError]

theorem rejS_noBr {d : Dec} (h : RejS (fun _ => True) d) : NoBr d := by
  intro t p x r e
  have := h t p trivial x r _ e
  simp at this

theorem parseInto_noBr {d : Dec} (h : NoBr d) : NoBr (parseInto d) := by
  intro t p x r e
  unfold parseInto at e
  rw [show skipSpaces (0x5d :: t) = 0x5d :: t from rfl] at e
  split at e
  · simp at e
  · rename_i e2
    injection e with _ _ e; subst e
    exact h _ _ _ _ e2
  · simp at e

theorem iface_noBr (c : DCfg) {dyn : Ty → Dec} (h : ∀ t, NoBr (dyn t)) : NoBr (decodeInterface c dyn) := by
  intro t p x r e
  unfold decodeInterface at e
  split at e
  · split at e
    · split at e
      · simp at e
      · split at e
        · simp at e
        · rename_i e2
          injection e with _ _ e; subst e
          exact parseInto_noBr (h _) _ _ _ _ e2
        · simp at e
    · split at e
      · simp at e
      · exact rejS_noBr (parseInvalid_rejS _) _ _ _ _ e
  · rw [ifaceValue] at e
    obtain ⟨q, hq⟩ := parseValue_bracket_fail t
    simp [hq] at e

theorem map_errD {g : DV → DV} {o : DRes} {x : DV} {r : Bytes} {e : Err} (h : o.map g = .err x r e) : ∃ y, o = .err y r e := by
  cases o <;> simp [DRes.map] at h
  obtain ⟨_, rfl, rfl⟩ := h
  exact ⟨_, rfl⟩

mutual
theorem dec_noBr (c : DCfg) {dyn : Ty → Dec} (hd : ∀ t, NoBr (dyn t)) : ∀ t, NoBr (dec c dyn t)
  | .bool => by
    intro t p x r
    simp only [dec, decodeBool, show hasNullPrefix (0x5d :: t) = false from hasNull_cons (by decide), Bool.false_eq_true, if_false]
    rw [if_neg (by simp), if_neg (by simp)]
    exact inputErr_noBr
  | .int k => by simp only [dec]; exact rejS_noBr (int_rejS _ k)
  | .float32 | .float64 => by
    all_goals
      intro t p x r
      simp only [dec, decodeFloat, show hasNullPrefix (0x5d :: t) = false from hasNull_cons (by decide), Bool.false_eq_true, if_false]
      split
      · exact inputErr_noBr
      · split
        · exact inputErr_noBr
        · simp
  | .number => by
    intro t p x r
    simp only [dec, decodeNumber, show hasNullPrefix (0x5d :: t) = false from hasNull_cons (by decide), Bool.false_eq_true, if_false]
    split
    · exact inputErr_noBr
    · simp
  | .string => by
    intro t p x r
    simp only [dec, decodeString, show hasNullPrefix (0x5d :: t) = false from hasNull_cons (by decide), Bool.false_eq_true, if_false]
    split
    · simp
    · rw [if_pos (by simp)]; exact inputErr_noBr
    · simp
  | .bytes => by
    intro t p x r
    simp only [dec, decodeBytes, show hasNullPrefix (0x5d :: t) = false from hasNull_cons (by decide), Bool.false_eq_true, if_false]
    rw [if_pos (c := (0x5d : UInt8) ≠ 0x22) (by decide), if_neg (c := (0x5d : UInt8) = 0x5b) (by decide)]
    split <;> exact inputErr_noBr
  | .duration => by
    intro t p x r
    simp only [dec, decodeDuration, show hasNullPrefix (0x5d :: t) = false from hasNull_cons (by decide), Bool.false_eq_true, if_false]
    rw [if_pos (by decide)]
    split
    · exact inputErr_noBr
    · simp
  | .time => by
    intro t p x r
    simp only [dec, decodeTime, show hasNullPrefix (0x5d :: t) = false from hasNull_cons (by decide), Bool.false_eq_true, if_false]
    rw [if_pos (.inr (by decide))]
    exact inputErr_noBr
  | .raw => by
    intro t p x r
    simp only [dec, decodeRawMessage]
    split
    · exact inputErr_noBr
    · simp
  | .iface => by simp only [dec]; exact iface_noBr c hd
  | .ifaceM e => by
    intro t p x r
    simp only [dec, decodeIfaceM, show hasNullPrefix (0x5d :: t) = false from hasNull_cons (by decide), Bool.false_eq_true, if_false]
    split
    · split
      · intro e
        obtain ⟨y, ey⟩ := map_errD e
        exact parseInto_noBr (hd _) _ _ _ _ ey
      · exact rejS_noBr (parseInvalid_rejS _) _ _ _ _
      · exact rejS_noBr (typeError_rejS _) _ _ _ _
    · split
      · exact parseInto_noBr (iface_noBr c hd) _ _ _ _
      · exact rejS_noBr (typeError_rejS _) _ _ _ _
  | .slice _ | .array _ _ | .map _ _ | .mapSI | .mapRaw | .struct _ => by
    all_goals
      intro t p x r
      simp only [dec, decodeSlice, decodeArray, decodeMap, decodeStruct, show hasNullPrefix (0x5d :: t) = false from hasNull_cons (by decide),
        Bool.false_eq_true, if_false]
      rw [if_pos (.inr (by decide))]
      exact inputErr_noBr
  | .ptr t => by
    intro u p x r
    simp only [dec, decodePointer, show hasNullPrefix (0x5d :: u) = false from hasNull_cons (by decide), Bool.false_eq_true, if_false]
    intro e
    obtain ⟨y, ey⟩ := map_errD e
    exact dec_noBr c hd t _ _ _ _ ey
  | .quoted t => by
    intro u p x r
    simp only [dec, decodeFromString, show hasNullPrefix (0x5d :: u) = false from hasNull_cons (by decide), Bool.false_eq_true, if_false]
    split
    · simp
    · exact inputErr_nil
    · rename_i e; exact absurd e (unquote_bracket _ _ _ _)
  | .quotedInt t => by
    intro u p x r
    simp only [dec, decodeFromStringToInt, show hasNullPrefix (0x5d :: u) = false from hasNull_cons (by decide), Bool.false_eq_true, if_false]
    rw [if_pos (by simp)]
    unfold unquotedErr
    split
    · rename_i h
      obtain ⟨c, t, e, hc⟩ := parseNumber_head h
      injection e with e _; subst e
      rcases hc with h | h
      · exact absurd h (by decide)
      · exact absurd h (by decide)
    · simp
  | .jsonU f | .textU f | .unsupported => by
    all_goals
      intro t p x r
      obtain ⟨q, hq⟩ := parseValue_bracket_fail t
      simp [dec, decodeJSONUnmarshaler, decodeTextUnmarshaler, decodeUnmarshalTypeError, hq]
end

theorem decN_noBr (c : DCfg) : ∀ n t, NoBr (decN c n t)
  | 0, t => by simp only [decN]; exact dec_noBr c (fun t b p x r h => by simp at h) t
  | n + 1, t => by simp only [decN]; exact dec_noBr c (decN_noBr c n) t

end JC

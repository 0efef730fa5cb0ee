import Verif.Lemmas.Clean
import Verif.Lemmas.Ints
/-! Documents of clean values are made of JSON tokens; rendering such a document
without colors gives JSON text. -/
namespace JC
open Spec

/-! ### Rendering gives JSON -/

theorem scalarJson_derives {t : Bytes} (h : ScalarTok t) : Derives (.value (scalarJson t)) t := by
  rcases h with rfl | rfl | rfl | h | h
  · exact .null
  · exact .tru
  · exact .fls
  · obtain ⟨c, u, e, hc⟩ := jnumber_head h
    have e1 : scalarJson t = .num t := by
      subst e
      have hc' := hc
      simp only [Digit, ← UInt8.toNat_inj, UInt8.le_iff_toNat_le, UInt8.reduceToNat] at hc'
      have n1 : c ≠ 0x6e := by rintro rfl; simp at hc'
      have n2 : c ≠ 0x74 := by rintro rfl; simp at hc'
      have n3 : c ≠ 0x66 := by rintro rfl; simp at hc'
      have n4 : c ≠ 0x22 := by rintro rfl; simp at hc'
      simp [scalarJson, n1, n2, n3, n4]
    rw [e1]; exact .num _ h
  · obtain ⟨u, rfl⟩ := jstring_head h
    have e1 : scalarJson (0x22 :: u) = .str (0x22 :: u) := by simp [scalarJson]
    rw [e1]; exact .str _ h

theorem ws_nil : Ws [] := by simp [Ws]

theorem ws_append {a b : Bytes} (ha : Ws a) (hb : Ws b) : Ws (a ++ b) := by
  intro c hc; rcases List.mem_append.1 hc with h | h
  · exact ha c h
  · exact hb c h

/-- A layout made of whitespace. -/
def WsStyle (st : Style) : Prop := st.clrs = none ∧ ∀ p i, st.lay = some (p, i) → Ws p ∧ Ws i

theorem ws_margin {st : Style} (h : WsStyle st) (d : Nat) : Ws (margin st d) := by
  unfold margin
  cases hl : st.lay with
  | none => exact ws_nil
  | some l =>
    obtain ⟨p, i⟩ := l
    obtain ⟨h1, h2⟩ := h.2 p i hl
    refine ws_append h1 ?_
    intro c hc
    simp only [List.mem_flatten, List.mem_replicate] at hc
    obtain ⟨l, ⟨_, rfl⟩, hc⟩ := hc
    exact h2 c hc

theorem ws_newline {st : Style} (h : WsStyle st) (d : Nat) : Ws (newline st d) := by
  have := ws_margin h d
  unfold newline
  split
  · exact ws_nil
  · intro c hc
    rcases List.mem_cons.1 hc with rfl | hc
    · exact .lf
    · exact this c hc

theorem ws_gap (st : Style) : Ws (gap st) := by
  unfold gap; split
  · intro c hc; simp at hc; subst hc; exact .space
  · exact ws_nil

theorem paint_plain {st : Style} (h : WsStyle st) (r : Role) (t : Bytes) : paint st r t = t := by
  unfold paint; rw [h.1]

mutual
theorem render_derives {st : Style} (hs : WsStyle st) (d : Nat) : ∀ x, DocOk x → Derives (.value (jsonOf x)) (render st d x)
  | .leaf r t, h => by simp only [render, paint_plain hs, jsonOf]; exact scalarJson_derives h
  | .arr xs, h => by
    simp only [render, paint_plain hs, jsonOf]
    by_cases hx : xs = []
    · subst hx
      simp only [renderElems, if_true, jsonOfL]
      exact .arrNil [] ws_nil
    · rw [if_neg hx]
      have := renderElems_derives hs (d + 1) xs h hx (newline st d) (ws_newline hs d)
      rw [← List.append_assoc (renderElems _ _ _ _)]
      exact .arr _ _ this
  | .obj ms, h => by
    simp only [render, paint_plain hs, jsonOf]
    by_cases hx : ms = []
    · subst hx
      simp only [renderMembers, if_true, jsonOfM]
      exact .objNil [] ws_nil
    · rw [if_neg hx]
      have := renderMembers_derives hs (d + 1) ms h hx (newline st d) (ws_newline hs d)
      rw [← List.append_assoc (renderMembers _ _ _ _)]
      exact .obj _ _ this
  | .bare nl, _ => by
    simp only [render, paint_plain hs, jsonOf]
    refine .objNil _ ?_
    split
    · exact ws_newline hs d
    · exact ws_margin hs d
theorem renderElems_derives {st : Style} (hs : WsStyle st) (d : Nat) : ∀ xs, DocOkL xs → xs ≠ [] → ∀ w, Ws w →
    Derives (.elems (jsonOfL xs)) (renderElems st d true xs ++ w)
  | [], _, h, _, _ => absurd rfl h
  | [x], h, _, w, hw => by
    have hx := render_derives hs d x h.1
    simp only [renderElems, if_true, List.nil_append, List.append_nil, jsonOfL]
    exact .elemOne _ _ _ _ (ws_newline hs d) hw hx
  | x :: y :: xs, h, _, w, hw => by
    have hx := render_derives hs d x h.1
    have ih := renderElems_derives hs d (y :: xs) h.2 (by simp) w hw
    have e : renderElems st d true (x :: y :: xs) ++ w =
        newline st d ++ render st d x ++ [] ++ 0x2c :: (renderElems st d true (y :: xs) ++ w) := by
      simp [renderElems, paint_plain hs]
    rw [e, jsonOfL]
    exact .elemCons _ _ _ _ _ _ (ws_newline hs d) ws_nil hx ih
theorem renderMembers_derives {st : Style} (hs : WsStyle st) (d : Nat) : ∀ xs, DocOkM xs → xs ≠ [] → ∀ w, Ws w →
    Derives (.members (jsonOfM xs)) (renderMembers st d true xs ++ w)
  | [], _, h, _, _ => absurd rfl h
  | [(r, k, x)], h, _, w, hw => by
    have hx := render_derives hs d x h.2.1
    have e : renderMembers st d true [(r, k, x)] ++ w = newline st d ++ k ++ [] ++ 0x3a :: (gap st ++ render st d x ++ w) := by
      simp [renderMembers, paint_plain hs]
    rw [e, jsonOfM, jsonOfM]
    exact .memOne _ _ _ _ _ _ _ (ws_newline hs d) ws_nil (ws_gap st) hw h.1 hx
  | (r, k, x) :: y :: xs, h, _, w, hw => by
    have hx := render_derives hs d x h.2.1
    have ih := renderMembers_derives hs d (y :: xs) h.2.2 (by simp) w hw
    have e : renderMembers st d true ((r, k, x) :: y :: xs) ++ w =
        newline st d ++ k ++ [] ++ 0x3a :: (gap st ++ render st d x ++ [] ++ 0x2c :: (renderMembers st d true (y :: xs) ++ w)) := by
      obtain ⟨r', k', y⟩ := y
      simp [renderMembers, paint_plain hs]
    rw [e, jsonOfM]
    exact .memCons _ _ _ _ _ _ _ _ _ (ws_newline hs d) ws_nil (ws_gap st) ws_nil h.1 hx ih
end

theorem compact_scalarJson (t : Bytes) : compact (scalarJson t) = t := by
  unfold scalarJson
  repeat' split
  all_goals simp_all [compact]

mutual
theorem render_compact (d : Nat) : ∀ x, render ⟨none, none⟩ d x = compact (jsonOf x)
  | .leaf r t => by simp [render, jsonOf, compact_scalarJson, paint]
  | .arr xs => by
    have := renderElems_compact (d + 1) xs
    simp only [render, jsonOf, compact, paint, newline, this]
    simp
  | .obj xs => by
    have := renderMembers_compact (d + 1) xs
    simp only [render, jsonOf, compact, paint, newline, this]
    simp
  | .bare nl => by cases nl <;> simp [render, jsonOf, compact, compactMembers, paint, newline, margin]
theorem renderElems_compact (d : Nat) : ∀ xs, renderElems ⟨none, none⟩ d true xs = compactElems (jsonOfL xs)
  | [] => by simp [renderElems, jsonOfL, compactElems]
  | [x] => by simp [renderElems, jsonOfL, compactElems, newline, render_compact d x]
  | x :: y :: xs => by
    have ih := renderElems_compact d (y :: xs)
    have e : renderElems ⟨none, none⟩ d false (y :: xs) = 0x2c :: renderElems ⟨none, none⟩ d true (y :: xs) := by
      simp [renderElems, paint]
    rw [renderElems, e, ih, render_compact d x]
    simp [jsonOfL, compactElems, newline]
theorem renderMembers_compact (d : Nat) : ∀ xs, renderMembers ⟨none, none⟩ d true xs = compactMembers (jsonOfM xs)
  | [] => by simp [renderMembers, jsonOfM, compactMembers]
  | [(r, k, x)] => by simp [renderMembers, jsonOfM, compactMembers, newline, paint, gap, render_compact d x]
  | (r, k, x) :: (r', k', y) :: xs => by
    have ih := renderMembers_compact d ((r', k', y) :: xs)
    have e : renderMembers ⟨none, none⟩ d false ((r', k', y) :: xs) = 0x2c :: renderMembers ⟨none, none⟩ d true ((r', k', y) :: xs) := by
      simp [renderMembers, paint]
    rw [renderMembers, e, ih, render_compact d x]
    simp [jsonOfM, compactMembers, newline, paint, gap]
end

/-! ### The documents of clean values -/

theorem quote_jstring (html : Bool) (s : Bytes) : JString (quote html s) := Props.C06_is_string html s

theorem null_tok : ScalarTok (bs! "null") := .inl rfl

theorem jchars_plain {s : Bytes} (h : ∀ c ∈ s, 0x20 ≤ c ∧ c ≠ 0x22 ∧ c ≠ 0x5c) : JChars s := by
  induction s with
  | nil => exact .nil
  | cons c s ih =>
    obtain ⟨h1, h2, h3⟩ := h c (by simp)
    exact .plain c s h1 h2 h3 (ih fun c hc => h c (by simp [hc]))

theorem b64Char_ok : ∀ n, n < 64 → 0x20 ≤ b64Char n ∧ b64Char n ≠ 0x22 ∧ b64Char n ≠ 0x5c := by decide +kernel

theorem b64_chars : ∀ s : Bytes, ∀ c ∈ b64Encode s, 0x20 ≤ c ∧ c ≠ 0x22 ∧ c ≠ 0x5c
  | [] => by simp [b64Encode]
  | [a] => by
    have := a.toNat_lt
    intro c hc
    simp only [b64Encode, List.mem_cons, List.not_mem_nil, or_false] at hc
    rcases hc with rfl | rfl | rfl | rfl
    · exact b64Char_ok _ (by omega)
    · exact b64Char_ok _ (by omega)
    · decide
    · decide
  | [a, b] => by
    have := a.toNat_lt
    have := b.toNat_lt
    intro c hc
    simp only [b64Encode, List.mem_cons, List.not_mem_nil, or_false] at hc
    rcases hc with rfl | rfl | rfl | rfl
    · exact b64Char_ok _ (by omega)
    · exact b64Char_ok _ (by omega)
    · exact b64Char_ok _ (by omega)
    · decide
  | a :: b :: c :: r => by
    have := a.toNat_lt
    have := b.toNat_lt
    have := c.toNat_lt
    intro x hx
    simp only [b64Encode, List.mem_cons] at hx
    rcases hx with rfl | rfl | rfl | rfl | hx
    · exact b64Char_ok _ (by omega)
    · exact b64Char_ok _ (by omega)
    · exact b64Char_ok _ (by omega)
    · exact b64Char_ok _ (by omega)
    · exact b64_chars r x hx

theorem b64_jstring (s : Bytes) : JString (0x22 :: (b64Encode s ++ [0x22])) := .mk _ (jchars_plain (b64_chars s))

theorem time_jstring {s : Bytes} (h : TimeText s) : JString (0x22 :: (s ++ [0x22])) :=
  .mk _ (jchars_plain fun c hc => ⟨(h c hc).1, (h c hc).2.2.1, (h c hc).2.2.2⟩)

theorem fmtNat_jnumber (n : Nat) : JNumber (fmtNat n) := by
  simpa using JNumber.mk [] _ [] [] (.inl rfl) (fmtNat_jint n) .none .none

theorem jint_digit {d : UInt8} (h : Digit d) : JInt [d] := by
  by_cases h0 : d = 0x30
  · subst h0; exact .zero
  · refine .pos d [] ?_ h.2 (by simp)
    have := h.1
    simp only [UInt8.le_iff_toNat_le, ← UInt8.toNat_inj, UInt8.reduceToNat] at *
    omega

theorem floatFmt_jnumber {expo : Bool} {t : Bytes} (h : FloatFmt expo t) : JNumber t := by
  cases h with
  | f sgn i fr hs hi hf => simpa using JNumber.mk sgn i fr [] hs hi hf .none
  | e sgn d fr es ds hs hd hf he hds hl =>
    exact JNumber.mk sgn [d] fr _ hs (jint_digit hd) hf (.some 0x65 es ds (.inl rfl) (.inr he) hds)

/-- The exponent with its leading zero removed. -/
theorem cleanExp_shape {t : Bytes} (h : FloatFmt true t) : ∃ sgn d fr es ds ds',
    t = sgn ++ [d] ++ fr ++ 0x65 :: (es ++ ds) ∧ cleanExp t = sgn ++ [d] ++ fr ++ 0x65 :: (es ++ ds') ∧
    (sgn = [] ∨ sgn = [0x2d]) ∧ Digit d ∧ JFrac fr ∧ (es = [0x2b] ∨ es = [0x2d]) ∧ Digits1 ds ∧ Digits1 ds' ∧
    (ds' = ds ∨ ds = 0x30 :: ds') := by
  generalize hb : true = b at h
  cases h with
  | f => simp at hb
  | e sgn d fr es ds hs hd hf he hds hl =>
    by_cases hc : ∃ p x, sgn ++ [d] ++ fr ++ 0x65 :: (es ++ ds) = p ++ [0x65, 0x2d, 0x30, x]
    · obtain ⟨p, x, e⟩ := hc
      -- at least two digits, so the text ends in two of them
      obtain ⟨q, y, z, rfl⟩ : ∃ q y z, ds = q ++ [y, z] := by
        refine ⟨ds.take (ds.length - 2), ?_⟩
        have e := List.take_append_drop (ds.length - 2) ds
        have hl : (ds.drop (ds.length - 2)).length = 2 := by simp; omega
        match hd : ds.drop (ds.length - 2), hl with
        | [y, z], _ => exact ⟨y, z, by rw [← hd, e]⟩
      have e2 : (sgn ++ [d] ++ fr ++ 0x65 :: (es ++ q)) ++ [y, z] = (p ++ [0x65, 0x2d]) ++ [0x30, x] := by
        simpa using e
      obtain ⟨e3, e4⟩ := List.append_inj' e2 rfl
      simp only [List.cons.injEq, and_true] at e4
      obtain ⟨rfl, rfl⟩ := e4
      -- the byte before them is the minus sign
      have hq : q = [] := by
        rcases List.eq_nil_or_concat q with hq | ⟨q', u, rfl⟩
        · exact hq
        · exfalso
          have e5 : (sgn ++ [d] ++ fr ++ 0x65 :: (es ++ q')) ++ [u] = (p ++ [0x65]) ++ [0x2d] := by simpa using e3
          obtain ⟨_, e6⟩ := List.append_inj' e5 rfl
          simp only [List.cons.injEq, and_true] at e6
          have := hds.2 u (by simp)
          rw [e6] at this
          revert this; unfold Digit; decide
      subst hq
      refine ⟨sgn, d, fr, es, [0x30, z], [z], rfl, ?_, hs, hd, hf, he, hds, ⟨by simp, fun c hc => hds.2 c (by simp at hc ⊢; simp [hc])⟩, .inr rfl⟩
      rcases he with rfl | rfl
      · exfalso
        have e5 : (sgn ++ [d] ++ fr ++ [0x65]) ++ [0x2b] = (p ++ [0x65]) ++ [0x2d] := by simpa using e3
        obtain ⟨_, e6⟩ := List.append_inj' e5 rfl
        simp at e6
      · rw [cleanExp_length _ z (sgn ++ [d] ++ fr) (by simp)]
        simp
    · exact ⟨sgn, d, fr, es, ds, ds, rfl, cleanExp_other _ hc, hs, hd, hf, he, hds, hds, .inl rfl⟩

theorem float_jnumber {expo : Bool} {t : Bytes} (h : FloatFmt expo t) : JNumber (if expo then cleanExp t else t) := by
  cases expo with
  | false => exact floatFmt_jnumber h
  | true =>
    obtain ⟨sgn, d, fr, es, ds, ds', _, e, hs, hd, hf, he, _, hds, _⟩ := cleanExp_shape h
    simp only [if_true, e]
    exact JNumber.mk sgn [d] fr _ hs (jint_digit hd) hf (.some 0x65 es ds' (.inl rfl) (.inr he) hds)

theorem copyStr_jstring {html : Bool} {s : Bytes} (h : JString s) : JString (copyStr html s) := by
  cases html with
  | false => exact h
  | true =>
    obtain ⟨v, hv, e, _⟩ := Props.C52_safe h
    simp only [copyStr, if_true, e]; exact hv

mutual
theorem docS_ok (html k : Bool) : ∀ j, JsonOk j → DocOk (docS html k j)
  | .null, _ => .inl rfl
  | .tru, _ => .inr (.inl rfl)
  | .fls, _ => .inr (.inr (.inl rfl))
  | .num s, h => .inr (.inr (.inr (.inl (by simpa [JsonOk] using h))))
  | .str s, h => .inr (.inr (.inr (.inr (copyStr_jstring (by simpa [JsonOk] using h)))))
  | .arr xs, h => docSL_ok html k xs (jsonOk_arr.1 h)
  | .obj ms, h => docSM_ok html ms (jsonOk_obj.1 h)
theorem docSL_ok (html k : Bool) : ∀ xs, (∀ x ∈ xs, JsonOk x) → DocOkL (docSL html k xs)
  | [], _ => trivial
  | j :: xs, h => ⟨docS_ok html k j (h j (by simp)), docSL_ok html _ xs fun x hx => h x (by simp [hx])⟩
theorem docSM_ok (html : Bool) : ∀ ms, (∀ m ∈ ms, JString m.1 ∧ JsonOk m.2) → DocOkM (docSM html ms)
  | [], _ => trivial
  | (k, j) :: ms, h => ⟨copyStr_jstring (h (k, j) (by simp)).1, docS_ok html false j (h (k, j) (by simp)).2,
      docSM_ok html ms fun x hx => h x (by simp [hx])⟩
end

theorem rawMeaning_ok {c : Cfg} {s : Option Bytes} {x : Doc} (h : rawMeaning c s = .doc x) : DocOk x := by
  cases s with
  | none => simp only [rawMeaning, nullDoc, Meaning.doc.injEq] at h; subst h; exact null_tok
  | some s =>
    simp only [rawMeaning] at h
    repeat' split at h
    all_goals first | (cases h; done) | skip
    all_goals
      rename_i hj
      cases h
      exact docS_ok _ _ _ (jtext_ok hj.choose_spec)

theorem seqElems_ok {l : List Meaning} (h : ∀ m ∈ l, ∀ x, m = .doc x → DocOk x) {xs : List Doc}
    (e : seqElems l = .ok xs) : DocOkL xs := by
  induction l generalizing xs with
  | nil => cases e; trivial
  | cons m l ih =>
    cases m with
    | err e' => cases e
    | wild => cases e
    | doc x =>
      simp only [seqElems] at e
      have ih := fun xs => ih (xs := xs) fun m hm => h m (by simp [hm])
      generalize seqElems l = r at *
      cases r with
      | ok ys => cases e; exact ⟨h (.doc x) (by simp) x rfl, ih _ rfl⟩
      | err => cases e
      | wild => cases e

theorem seqMembers_ok {l : List (KeyMeaning × Meaning)} (h : ∀ m ∈ l, (∀ r t, m.1 = .ok r t → JString t) ∧ ∀ x, m.2 = .doc x → DocOk x)
    {xs : List (Role × Bytes × Doc)} (e : seqMembers l = .ok xs) : DocOkM xs := by
  induction l generalizing xs with
  | nil => cases e; trivial
  | cons m l ih =>
    obtain ⟨k, m⟩ := m
    have hm := h (k, m) (by simp)
    cases k with
    | err e' => cases e
    | wild => cases e
    | ok r t =>
      cases m with
      | err e' => cases e
      | wild => cases e
      | doc x =>
        simp only [seqMembers] at e
        have ih := fun xs => ih (xs := xs) fun m hm => h m (by simp [hm])
        generalize seqMembers l = r at *
        cases r with
        | ok ys => cases e; exact ⟨hm.1 _ _ rfl, hm.2 _ rfl, ih _ rfl⟩
        | err => cases e
        | wild => cases e

theorem toArr_ok {m : MeaningL Doc} (h : ∀ xs, m = .ok xs → DocOkL xs) {x : Doc} (e : m.toArr = .doc x) : DocOk x := by
  cases m with
  | ok xs => cases e; exact h xs rfl
  | err e' => simp only [MeaningL.toArr, innerErr] at e; split at e <;> cases e
  | wild => cases e

theorem toObj_ok {m : MeaningL (Role × Bytes × Doc)} (h : ∀ xs, m = .ok xs → DocOkM xs) {x : Doc} (e : m.toObj = .doc x) : DocOk x := by
  cases m with
  | ok xs => cases e; exact h xs rfl
  | err e' => simp only [MeaningL.toObj, innerErr] at e; split at e <;> cases e
  | wild => cases e

theorem toStruct_ok {nl : Bool} {m : MeaningL (Role × Bytes × Doc)} (h : ∀ xs, m = .ok xs → DocOkM xs) {x : Doc}
    (e : m.toStruct nl = .doc x) : DocOk x := by
  cases m with
  | ok xs =>
    cases xs with
    | nil => cases e; trivial
    | cons => cases e; exact h _ rfl
  | err e' => simp only [MeaningL.toStruct, innerErr] at e; split at e <;> cases e
  | wild => cases e

theorem keyMeaning_ok {c : Cfg} {k : MKey} (h : CleanKey k) {r : Role} {t : Bytes} (e : keyMeaning c k = .ok r t) : JString t := by
  rcases k with s | z | n | r
  · cases e; exact quote_jstring _ _
  · cases e; exact quote_jstring _ _
  · cases e; exact quote_jstring _ _
  · cases r with
    | isNil => exact absurd h id
    | err => cases e
    | ok s => cases e; exact quote_jstring _ _
    | absent => cases e

theorem number_ok {s : Bytes} {x : Doc} (e : numberMeaning s = .doc x) : DocOk x := by
  unfold numberMeaning at e
  by_cases hj : JNumber (if s = [] then [0x30] else s)
  · simp only [if_pos hj] at e; cases e; exact .inr (.inr (.inr (.inl hj)))
  · simp only [if_neg hj] at e; split at e <;> cases e

theorem textMeaning_ok {c : Cfg} {r : TextRes} {x : Doc} (e : textMeaning c r = .doc x) : DocOk x := by
  cases r with
  | isNil => cases e; exact null_tok
  | err => cases e
  | ok s => cases e; exact .inr (.inr (.inr (.inr (quote_jstring _ _))))
  | absent => cases e

mutual
theorem meaning_ok (c : Cfg) : ∀ v : GV, Clean c v → ∀ x, meaning c v = .doc x → DocOk x
  | .nil, _, x, e | .sliceNil, _, x, e | .mapNil, _, x, e | .ptrNil, _, x, e | .bytesNil, _, x, e => by
    simp only [meaning, nullDoc, Meaning.doc.injEq] at e; subst e; exact null_tok
  | .rawNil, _, x, e => by simp only [meaning] at e; exact rawMeaning_ok e
  | .bool v, _, x, e => by
    simp only [meaning, Meaning.doc.injEq] at e; subst e
    cases v
    · exact .inr (.inr (.inl rfl))
    · exact .inr (.inl rfl)
  | .int z, _, x, e => by
    simp only [meaning, Meaning.doc.injEq] at e; subst e
    exact .inr (.inr (.inr (.inl (fmtInt_jnumber z))))
  | .uint z, _, x, e => by
    simp only [meaning, Meaning.doc.injEq] at e; subst e
    exact .inr (.inr (.inr (.inl (fmtNat_jnumber z))))
  | .string z, _, x, e => by
    simp only [meaning, Meaning.doc.injEq] at e; subst e
    exact .inr (.inr (.inr (.inr (quote_jstring _ _))))
  | .bytes z, _, x, e => by
    simp only [meaning, Meaning.doc.injEq] at e; subst e
    exact .inr (.inr (.inr (.inr (b64_jstring _))))
  | .time z ok, _, x, e => by
    simp only [meaning, Meaning.doc.injEq] at e; subst e
    exact .inr (.inr (.inr (.inr (time_jstring ok))))
  | .float .nan, _, x, e => by simp only [meaning] at e; cases e
  | .float .inf, _, x, e => by simp only [meaning] at e; cases e
  | .float (.fin expo t ok), _, x, e => by
    simp only [meaning, Meaning.doc.injEq] at e; subst e
    exact .inr (.inr (.inr (.inl (float_jnumber ok))))
  | .number s, h, x, e => by simp only [meaning] at e; exact number_ok e
  | .slice xs, h, x, e => by
    simp only [meaning] at e
    exact toArr_ok (fun xs' h' => seqElems_ok (meanL_ok c xs h) h') e
  | .array xs, h, x, e => by
    simp only [meaning] at e
    exact toArr_ok (fun xs' h' => seqElems_ok (meanL_ok c xs h) h') e
  | .map es, h, x, e => by
    have hE := meanE_ok c es h
    simp only [meaning] at e
    split at e
    · cases e
    · refine toObj_ok (fun xs' h' => seqMembers_ok ?_ h') e
      intro m hm
      simp only [List.mem_map] at hm
      obtain ⟨e, he, rfl⟩ := hm
      have he' : e ∈ meanE c es := by
        split at he
        · exact (mem_sortBy _ _ _).1 he
        · exact he
      rw [meanE_map, List.mem_map] at he'
      obtain ⟨e', he', rfl⟩ := he'
      exact ⟨fun r t hk => keyMeaning_ok (hE e' he').1 hk, (hE e' he').2⟩
  | .mapSI es, h, x, e => by
    have hS := meanS_ok c es h
    simp only [meaning] at e
    refine toObj_ok (fun xs' h' => seqMembers_ok ?_ h') e
    intro m hm
    simp only [List.mem_map] at hm
    obtain ⟨e, he, rfl⟩ := hm
    have he' : e ∈ meanS c es := by
      split at he
      · exact (mem_sortBy _ _ _).1 he
      · exact he
    rw [meanS_map, List.mem_map] at he'
    obtain ⟨e', he', rfl⟩ := he'
    exact ⟨fun r t hk => by cases hk; exact quote_jstring _ _, hS e' he'⟩
  | .mapRaw es, h, x, e => by
    simp only [meaning] at e
    have key : ∀ l : List (Bytes × Option Bytes), ∀ m ∈ l.map (fun e => ((.ok .key (quote c.escapeHTML e.1) : KeyMeaning), rawMeaning c e.2)),
        (∀ r t, m.1 = .ok r t → JString t) ∧ ∀ x, m.2 = .doc x → DocOk x := by
      intro l m hm
      simp only [List.mem_map] at hm
      obtain ⟨e, he, rfl⟩ := hm
      exact ⟨fun r t hk => by cases hk; exact quote_jstring _ _, fun x hx => rawMeaning_ok hx⟩
    split at e
    · exact toObj_ok (fun xs' h' => seqMembers_ok (key _) h') e
    · split at e
      · rename_i xs' h'; cases e; exact seqMembers_ok (key _) h'
      · cases e
  | .struct fs, h, x, e => by
    simp only [meaning] at e
    exact toStruct_ok (fun xs' h' => meanF_ok c false fs h xs' h') e
  | .ptr v, h, x, e => by simp only [meaning] at e; exact meaning_ok c v h x e
  | .iface v _, h, x, e => by simp only [meaning] at e; exact meaning_ok c v h x e
  | .raw s, h, x, e => by simp only [meaning] at e; exact rawMeaning_ok e
  | .jsonM .isNil _, _, x, e => by simp only [meaning, nullDoc, Meaning.doc.injEq] at e; subst e; exact null_tok
  | .jsonM (.err e) _, h, x, e' => by simp only [meaning] at e'; cases e'
  | .jsonM (.ok s) _, h, x, e => by simp only [meaning] at e; exact rawMeaning_ok e
  | .textM r _, _, x, e => by simp only [meaning] at e; exact textMeaning_ok e
  | .quoted v, h, x, e => by
    simp only [meaning] at e
    rcases stringable_meaning c v h.1 h.2 with ⟨r, t, e'⟩ | ⟨e', he, hr⟩
    · rw [e'] at e; cases e; exact .inr (.inr (.inr (.inr (quote_jstring _ _))))
    · rw [he] at e; cases e
  | .embNil _, h, _, _ => absurd h (by simp [Clean])
  | .emb v _, h, x, e => by simp only [meaning] at e; exact meaning_ok c v h x e
  | .unsupported, _, x, e => by simp only [meaning] at e; cases e
theorem meanL_ok (c : Cfg) : ∀ xs : List GV, CleanL c xs → ∀ m ∈ meanL c xs, ∀ x, m = .doc x → DocOk x
  | [], _ => by simp [meanL]
  | v :: vs, h => by
    intro m hm
    simp only [meanL, List.mem_cons] at hm
    rcases hm with rfl | hm
    · exact meaning_ok c v h.1
    · exact meanL_ok c vs h.2 m hm
theorem meanE_ok (c : Cfg) : ∀ es : List (MKey × GV), CleanE c es → ∀ e ∈ es, CleanKey e.1 ∧ ∀ x, meaning c e.2 = .doc x → DocOk x
  | [], _ => by simp
  | (k, v) :: es, h => by
    intro e he
    simp only [List.mem_cons] at he
    rcases he with rfl | he
    · exact ⟨h.1, meaning_ok c v h.2.1⟩
    · exact meanE_ok c es h.2.2 e he
theorem meanS_ok (c : Cfg) : ∀ es : List (Bytes × GV), CleanS c es → ∀ e ∈ es, ∀ x, meaning c e.2 = .doc x → DocOk x
  | [], _ => by simp
  | (k, v) :: es, h => by
    intro e he
    simp only [List.mem_cons] at he
    rcases he with rfl | he
    · exact meaning_ok c v h.1
    · exact meanS_ok c es h.2 e he
theorem meanF_ok (c : Cfg) (any : Bool) : ∀ fs : List (FMeta × GV), CleanF c any fs → ∀ xs,
    seqFields c.escapeHTML any (meanF c fs) = .ok xs → DocOkM xs
  | [], _, xs, e => by simp only [meanF, seqFields] at e; cases e; trivial
  | (m, v) :: fs, h, xs, e => by
    simp only [CleanF] at h
    simp only [meanF, seqFields] at e
    by_cases h1 : m.omitempty = true ∧ isEmpty v = true
    · rw [if_pos h1] at h e
      exact meanF_ok c any fs h xs e
    · rw [if_neg h1] at h e
      by_cases h2 : isRollback v = true
      · rw [if_pos h2] at h
        rw [isRollback_meaning c v h2, h.1] at e
        simp only [if_true] at e
        refine meanF_ok c any fs h.2 xs ?_
        rw [h.1]; exact e
      · rw [if_neg h2] at h
        have hv := meaning_ok c v h.1
        have hf := meanF_ok c true fs h.2
        have hfine := clean_fine c v h.1
        generalize meaning c v = mv at *
        cases mv with
        | wild => cases e
        | err e' => simp only [] at e; rw [if_neg hfine] at e; cases e
        | doc x =>
          simp only [] at e
          generalize seqFields c.escapeHTML true (meanF c fs) = r at *
          cases r with
          | ok ys => cases e; exact ⟨quote_jstring _ _, hv x rfl, hf ys rfl⟩
          | err => cases e
          | wild => cases e
end

/-! ### Meaning does not depend on the layout -/

theorem styleOf_paint {c c' : Cfg} (h : c.clrs = c'.clrs) (r : Role) (t : Bytes) :
    paint (styleOf c) r t = paint (styleOf c') r t := by
  simp only [paint, styleOf, h]

section
variable {c c' : Cfg} (h1 : c.escapeHTML = c'.escapeHTML) (h2 : c.sortMapKeys = c'.sortMapKeys)
  (h3 : c.trustRaw = c'.trustRaw) (h4 : c.clrs = c'.clrs)
include h1 h3 in
theorem rawMeaning_congr (s : Option Bytes) : rawMeaning c s = rawMeaning c' s := by
  cases s with
  | none => rfl
  | some s => simp only [rawMeaning, h1, h3]

include h1 h4 in
theorem keyMeaning_congr (k : MKey) : keyMeaning c k = keyMeaning c' k := by
  rcases k with s | z | n | r
  · simp only [keyMeaning, h1]
  · simp only [keyMeaning, h1, styleOf_paint h4]
  · simp only [keyMeaning, h1, styleOf_paint h4]
  · cases r <;> simp only [keyMeaning, h1]

include h1 h4 in
theorem quoteMeaning_congr (m : Meaning) : quoteMeaning c m = quoteMeaning c' m := by
  rcases m with x | e | _
  · cases x <;> simp only [quoteMeaning, h1, styleOf_paint h4]
  · rfl
  · rfl

include h1 in
theorem textMeaning_congr (r : TextRes) : textMeaning c r = textMeaning c' r := by
  cases r <;> simp only [textMeaning, h1]

include h1 h2 h3 h4
mutual
theorem meaning_congr : ∀ v : GV, meaning c v = meaning c' v
  | .nil | .sliceNil | .mapNil | .ptrNil | .bool _ | .int _ | .uint _ | .bytesNil | .bytes _ | .time _ _
  | .embNil _ | .unsupported | .number _ => by simp only [meaning]
  | .string _ => by simp only [meaning, h1]
  | .float .nan | .float .inf | .float (.fin _ _ _) => by simp only [meaning]
  | .slice xs => by simp only [meaning, meanL_congr xs]
  | .array xs => by simp only [meaning, meanL_congr xs]
  | .map es => by simp only [meaning, meanE_congr es, h2, keyMeaning_congr h1 h4]
  | .mapSI es => by simp only [meaning, meanS_congr es, h2, h1]
  | .mapRaw es => by simp only [meaning, h1, h2, rawMeaning_congr h1 h3]
  | .struct fs => by simp only [meaning, meanF_congr fs, h1]
  | .ptr v => by simp only [meaning]; exact meaning_congr v
  | .iface v _ => by simp only [meaning]; exact meaning_congr v
  | .rawNil => by simp only [meaning]; exact rawMeaning_congr h1 h3 _
  | .raw s => by simp only [meaning]; exact rawMeaning_congr h1 h3 _
  | .jsonM .isNil _ | .jsonM (.err _) _ => by simp only [meaning]
  | .jsonM (.ok s) _ => by simp only [meaning]; exact rawMeaning_congr h1 h3 _
  | .textM r _ => by simp only [meaning]; exact textMeaning_congr h1 r
  | .quoted v => by simp only [meaning, meaning_congr v]; exact quoteMeaning_congr h1 h4 _
  | .emb v _ => by simp only [meaning]; exact meaning_congr v
theorem meanL_congr : ∀ xs : List GV, meanL c xs = meanL c' xs
  | [] => rfl
  | v :: vs => by simp only [meanL, meaning_congr v, meanL_congr vs]
theorem meanE_congr : ∀ es : List (MKey × GV), meanE c es = meanE c' es
  | [] => rfl
  | (k, v) :: es => by simp only [meanE, meaning_congr v, meanE_congr es]
theorem meanS_congr : ∀ es : List (Bytes × GV), meanS c es = meanS c' es
  | [] => rfl
  | (k, v) :: es => by simp only [meanS, meaning_congr v, meanS_congr es]
theorem meanF_congr : ∀ es : List (FMeta × GV), meanF c es = meanF c' es
  | [] => rfl
  | (k, v) :: es => by simp only [meanF, meaning_congr v, meanF_congr es]
end
end

end JC

import Verif.Spec.Meaning
import Verif.Lemmas.EncRaw
/-! The encoder renders the document a value denotes. -/
namespace JC
open Spec

/-- An encoding function does what a meaning says. -/
def Does (c : Cfg) (f : Enc) : Meaning → Prop
  | .doc x => ∀ b d n, DepthOk c d n → f b d = .done (b ++ render (styleOf c) n x) d none
  | .err e => ∀ b d n, DepthOk c d n → ∃ b' d', f b d = .done b' d' (some e) ∧ (e = .rollback → d' = d)
  | .wild => True

theorem quote_eq (html : Bool) (b s : Bytes) : doEncodeString html b s = b ++ quote html s := by
  simp [quote, doEncodeString]

/-- The shape `colored` gives the painted text for a function appending a fixed text. -/
theorem colored_does (c : Cfg) (clr : Colors → Bytes) (r : Role) (f : Enc) (t : Bytes)
    (hf : ∀ b d, f b d = .done (b ++ t) d none) (hc : ∀ cl, clr cl = colorOf cl r)
    (h1 : r ≠ .plain) (h2 : r ≠ .nilBytes) : Does c (colored c clr f) (.doc (.leaf r t)) := by
  intro b d n _
  have e : ansiReset = reset := rfl
  unfold colored
  simp only [render, paint, styleOf]
  cases c.clrs with
  | none => simp only [hf]
  | some cl =>
    simp only [hf, hc, e]
    cases r <;> first | exact absurd rfl h1 | exact absurd rfl h2 | simp

theorem leaf_does (c : Cfg) (r : Role) (t : Bytes) (f : Enc)
    (h : ∀ b d, f b d = .done (b ++ paint (styleOf c) r t) d none) : Does c f (.doc (.leaf r t)) := by
  intro b d n _; rw [h, render]

theorem appendNull_eq (c : Cfg) (b : Bytes) : appendNull c.clrs b = b ++ paint (styleOf c) .null (bs! "null") := by
  have e : ansiReset = reset := rfl
  unfold appendNull paint styleOf
  cases c.clrs <;> simp [colorOf, e]

theorem null_does (c : Cfg) : Does c (fun b d => .done (appendNull c.clrs b) d none) nullDoc :=
  leaf_does c _ _ _ fun b d => by simp only [appendNull_eq]

theorem appendInt_eq (c : Cfg) (b : Bytes) (z : Int) :
    appendInt64 c.clrs b z = b ++ paint (styleOf c) .number (fmtInt z) := by
  have e : ansiReset = reset := rfl
  unfold appendInt64 paint styleOf
  cases c.clrs <;> simp [colorOf, e]

theorem appendUint_eq (c : Cfg) (b : Bytes) (z : Nat) :
    appendUint64 c.clrs b z = b ++ paint (styleOf c) .number (fmtNat z) := by
  have e : ansiReset = reset := rfl
  unfold appendUint64 paint styleOf
  cases c.clrs <;> simp [colorOf, e]

theorem appendBool_eq (c : Cfg) (b : Bytes) (v : Bool) :
    appendBool c.clrs b v = b ++ paint (styleOf c) .bool (if v then bs! "true" else bs! "false") := by
  have e : ansiReset = reset := rfl
  unfold appendBool paint styleOf
  cases c.clrs <;> cases v <;> simp [colorOf, e]

theorem cleanExp_length (t : Bytes) (x : UInt8) (p : Bytes) (h : t = p ++ [0x65, 0x2d, 0x30, x]) :
    cleanExp t = p ++ [0x65, 0x2d, x] := by
  subst h; simp [cleanExp]

theorem cleanExp_other (t : Bytes) (h : ¬ ∃ p x, t = p ++ [0x65, 0x2d, 0x30, x]) : cleanExp t = t := by
  unfold cleanExp
  split
  · rename_i x r he
    exfalso; apply h
    refine ⟨r.reverse, x, ?_⟩
    have := congrArg List.reverse he
    simpa using this
  · rfl

theorem list_last4 (b : Bytes) (h : b.length ≥ 4) : ∃ p x y z w, b = p ++ [x, y, z, w] := by
  refine ⟨b.take (b.length - 4), ?_⟩
  have e := List.take_append_drop (b.length - 4) b
  have hl : (b.drop (b.length - 4)).length = 4 := by simp; omega
  match hd : b.drop (b.length - 4), hl with
  | [x, y, z, w], _ => exact ⟨x, y, z, w, by rw [← hd, e]⟩

theorem encodeFloat_eq (expo : Bool) (t : Bytes) (ok : FloatFmt expo t) (b : Bytes) (d : Int) :
    encodeFloat (.fin expo t ok) b d = .done (b ++ if expo then cleanExp t else t) d none := by
  have hl := loc_float (.fin expo t ok) b [] d
  rw [List.append_nil] at hl
  rw [hl]
  cases expo with
  | false => simp [encodeFloat, Out.prepend]
  | true =>
    obtain ⟨p, x, y, z, w, e⟩ := list_last4 t (floatFmt_len ok)
    simp only [encodeFloat, if_true, List.nil_append]
    subst e
    have l : (p ++ [x, y, z, w]).length = p.length + 4 := by simp
    have g : ∀ k, (p ++ [x, y, z, w])[p.length + k]? = [x, y, z, w][k]? := by
      intro k; rw [List.getElem?_append_right (by omega)]; congr 1; omega
    rw [l]
    have g0 := g 0; have g1 := g 1; have g2 := g 2; have g3 := g 3
    simp only [Nat.add_zero, List.getElem?_cons_zero, List.getElem?_cons_succ] at g0 g1 g2 g3
    rw [show p.length + 4 - 4 = p.length by omega, show p.length + 4 - 3 = p.length + 1 by omega,
      show p.length + 4 - 2 = p.length + 2 by omega, show p.length + 4 - 1 = p.length + 3 by omega, g0, g1, g2,
      List.getD_eq_getElem?_getD, g3]
    split
    · rename_i h
      obtain ⟨_, h1, h2, h3⟩ := h
      injection h1 with h1; injection h2 with h2; injection h3 with h3
      subst h1 h2 h3
      rw [cleanExp_length _ w p rfl, List.set_append_right _ _ (by omega)]
      simp [Out.prepend, List.take_append, List.take_of_length_le]
    · rename_i h
      rw [cleanExp_other]
      · rfl
      · rintro ⟨p', x', e⟩
        have := List.append_inj' e rfl
        simp only [List.cons.injEq] at this
        obtain ⟨_, rfl, rfl, rfl, _⟩ := this
        exact h ⟨by omega, rfl, rfl, rfl⟩

theorem float_does (c : Cfg) (f : Flt) : Does c (enc c (.float f)) (meaning c (.float f)) := by
  cases f with
  | nan =>
    simp only [enc, meaning, Does]
    intro b d n _
    unfold colored
    cases c.clrs <;> exact ⟨_, _, rfl, fun _ => rfl⟩
  | inf =>
    simp only [enc, meaning, Does]
    intro b d n _
    unfold colored
    cases c.clrs <;> exact ⟨_, _, rfl, fun _ => rfl⟩
  | fin expo t ok =>
    simp only [enc, meaning]
    exact colored_does c _ .number _ _ (encodeFloat_eq expo t ok) (fun _ => rfl) (by decide) (by decide)

theorem number_does (c : Cfg) (s : Bytes) : Does c (encodeNumber c s) (numberMeaning s) := by
  unfold numberMeaning encodeNumber
  simp only []
  generalize (if s = [] then ([0x30] : Bytes) else s) = n
  have e : ansiReset = reset := rfl
  by_cases hn : JNumber n
  · rw [if_pos hn]
    have hp := parseNumber_complete hn NumStop.nil
    rw [List.append_nil] at hp
    apply leaf_does
    intro b d
    simp only [hp, paint, styleOf]
    cases c.clrs <;> simp [colorOf, e]
  · rw [if_neg hn]
    cases hp : parseNumber n with
    | fail r er => intro b d n _; exact ⟨b, d, rfl, fun _ => rfl⟩
    | ok v r => trivial

theorem str_does (c : Cfg) (clr : Colors → Bytes) (r : Role) (s : Bytes) (hc : ∀ cl, clr cl = colorOf cl r)
    (h1 : r ≠ .plain) (h2 : r ≠ .nilBytes) : Does c (colored c clr (encStr c s)) (.doc (.leaf r (quote c.escapeHTML s))) :=
  colored_does c clr r _ _ (fun b d => by simp only [encStr, quote_eq]) hc h1 h2

theorem text_does (c : Cfg) (r : TextRes) : Does c (encodeTextMarshaler c r) (textMeaning c r) := by
  cases r with
  | isNil => exact null_does c
  | err e => intro b d n _; exact ⟨b, d, rfl, fun _ => rfl⟩
  | absent => trivial
  | ok s => exact str_does c _ .text s (fun _ => rfl) (by decide) (by decide)

theorem toString_doc (c : Cfg) (f : Enc) (t : Bytes) (b : Bytes) (d : Int)
    (h : f b d = .done (b ++ t) d none) :
    encodeToString c f b d = .done (b ++ quote c.escapeHTML t) d none := by
  simp only [encodeToString, h, List.drop_left, quote_eq]
  rw [List.append_assoc b t, List.take_left]

theorem quoted_does (c : Cfg) (f : Enc) (m : Meaning) (h : Does c f m) : Does c (encodeToString c f) (quoteMeaning c m) := by
  cases m with
  | doc x =>
    cases x with
    | leaf r t =>
      intro b d n hd
      have hf := h b d n hd
      rw [render] at hf
      rw [toString_doc c f _ b d hf]
      simp only [render, paint]
      cases (styleOf c).clrs <;> rfl
    | _ => trivial
  | err e =>
    intro b d n hd
    obtain ⟨b', d', hf, hr⟩ := h b d n hd
    exact ⟨b', d', by simp only [encodeToString, hf], hr⟩
  | wild => trivial

theorem raw_does (c : Cfg) (s : Option Bytes) : Does c (encodeRawMessage c s) (rawMeaning c s) := by
  cases s with
  | none => exact null_does c
  | some s =>
    simp only [rawMeaning]
    split
    · rename_i ht
      split
      · rename_i h
        intro b d n hd
        simp only [encodeRawMessage, ht, if_true]
        rw [rawTokens_doc h.choose_spec hd]
      · trivial
    · rename_i ht
      cases hp : parseValue s with
      | fail r e =>
        intro b d n _
        refine ⟨b, d, ?_, fun _ => rfl⟩
        simp only [encodeRawMessage, hp]
        rw [if_neg ht]
      | ok v r =>
        simp only []
        split
        · rename_i h
          intro b d n hd
          simp only [encodeRawMessage, hp]
          rw [if_neg ht, rawTokens_doc h.choose_spec hd]
        · trivial

theorem innerErr_does {c : Cfg} {f : Enc} {e : Err}
    (h : ∀ b d n, DepthOk c d n → ∃ b' d', f b d = .done b' d' (some e)) : Does c f (innerErr e) := by
  unfold innerErr
  split
  · trivial
  · rename_i hne
    intro b d n hd
    obtain ⟨b', d', hf⟩ := h b d n hd
    exact ⟨b', d', hf, fun he => absurd he hne⟩

theorem arrayLoop_does (c : Cfg) (start : Nat) (first : Bool) (xs : List GV)
    (h : ∀ v ∈ xs, Does c (enc c v) (meaning c v)) (d : Int) (n : Nat) (hd : DepthOk c d n) (b : Bytes) :
    match seqElems (meanL c xs) with
    | .ok ds => arrayLoop c start first (encL c xs) b d = .done (b ++ renderElems (styleOf c) n first ds) d none
    | .err e => ∃ b' d', arrayLoop c start first (encL c xs) b d = .done b' d' (some e)
    | .wild => True := by
  induction xs generalizing first b with
  | nil => simp [meanL, seqElems, encL, arrayLoop, renderElems]
  | cons v vs ih =>
    have hv := h v (by simp)
    have ih := fun b => ih false (fun v hv => h v (by simp [hv])) b
    simp only [meanL, encL, arrayLoop]
    have eb : (c.appendIndent d (c.appendByte (if first = true then b else appendPunc c.clrs b (ch! ',')) 0x0a)) =
        b ++ ((if first = true then [] else paint (styleOf c) .comma [0x2c]) ++ newline (styleOf c) n) := by
      rw [appendNl_eq hd]
      cases first <;> simp [punc_comma]
    rw [eb]
    cases hm : meaning c v with
    | wild => simp [seqElems]
    | err e =>
      rw [hm] at hv
      obtain ⟨b', d', hf, _⟩ := hv (b ++ ((if first = true then [] else paint (styleOf c) .comma [0x2c]) ++ newline (styleOf c) n)) d n hd
      rw [hf]
      exact ⟨_, _, rfl⟩
    | doc x =>
      rw [hm] at hv
      rw [hv _ d n hd]
      simp only [seqElems]
      have ih := ih (b ++ ((if first = true then [] else paint (styleOf c) .comma [0x2c]) ++ newline (styleOf c) n) ++ render (styleOf c) n x)
      cases hs : seqElems (meanL c vs) with
      | ok ds =>
        rw [hs] at ih
        simp only [] at ih ⊢
        rw [ih, renderElems]; simp
      | err e => rw [hs] at ih; exact ih
      | wild => trivial

theorem encL_length (c : Cfg) (xs : List GV) : (encL c xs).length = xs.length := by
  induction xs with
  | nil => rfl
  | cons v vs ih => simp [encL, ih]

theorem seqElems_nil {l : List Meaning} (h : seqElems l = .ok []) : l = [] := by
  rcases l with _ | ⟨_ | _ | _, l⟩
  · rfl
  · simp only [seqElems] at h; split at h <;> simp at h
  · simp [seqElems] at h
  · simp [seqElems] at h

theorem array_does (c : Cfg) (xs : List GV) (h : ∀ v ∈ xs, Does c (enc c v) (meaning c v)) :
    Does c (encodeArray c (encL c xs)) (seqElems (meanL c xs)).toArr := by
  rcases hxs : xs with _ | ⟨v, vs⟩
  · intro b d n hd
    simp [encodeArray, encL, render, renderElems, punc_lbrack, punc_rbrack]
  · rw [← hxs]
    have hl : (encL c xs).length > 0 := by rw [encL_length, hxs]; simp
    have key := fun (b : Bytes) (d : Int) (n : Nat) (hd : DepthOk c d n) =>
      arrayLoop_does c b.length true xs h (c.push d) (n + 1) hd.push (appendPunc c.clrs b (ch! '['))
    cases hs : seqElems (meanL c xs) with
    | ok ds =>
      have hne : ds ≠ [] := by
        rintro rfl
        have := seqElems_nil hs
        rw [hxs] at this; simp [meanL] at this
      intro b d n hd
      have k := key b d n hd
      rw [hs] at k
      simp only [] at k
      simp only [encodeArray]
      rw [if_pos hl, k]
      simp only [pop_push]
      rw [appendNl_eq hd, punc_rbrack, punc_lbrack, render, if_neg hne]
      simp
    | err e =>
      apply innerErr_does
      intro b d n hd
      have k := key b d n hd
      rw [hs] at k
      obtain ⟨b', d', k⟩ := k
      simp only [encodeArray]
      rw [if_pos hl, k]
      exact ⟨_, _, rfl⟩
    | wild => trivial

/-! #### Maps -/

def _root_.JC.Spec.KeyMeaning.toMeaning : KeyMeaning → Meaning
  | .ok r t => .doc (.leaf r t)
  | .err e => .err e
  | .wild => .wild

theorem plain_does (c : Cfg) (f : Enc) (t : Bytes) (h : ∀ b d, f b d = .done (b ++ t) d none) :
    Does c (encodeToString c f) (.doc (.leaf .plain (quote c.escapeHTML t))) := by
  intro b d n _
  rw [toString_doc c f t b d (h b d), render]
  simp only [paint]
  cases (styleOf c).clrs <;> rfl

theorem mkey_does (c : Cfg) (k : MKey) : Does c (encodeMKey c k) (keyMeaning c k).toMeaning := by
  cases k with
  | str s => exact str_does c _ .key s (fun _ => rfl) (by decide) (by decide)
  | int z => exact plain_does c (fun b d => .done (appendInt64 c.clrs b z) d none) _ fun b d => by simp only [appendInt_eq]
  | uint n => exact plain_does c (fun b d => .done (appendUint64 c.clrs b n) d none) _ fun b d => by simp only [appendUint_eq]
  | text r =>
    have := text_does c r
    cases r <;> exact this

theorem sep_eq {c : Cfg} {d : Int} {n : Nat} (hd : DepthOk c d n) (first : Bool) (b : Bytes) :
    c.appendIndent d (if first = true then (if first = true then c.appendByte b 0x0a else b)
      else c.appendByte (appendPunc c.clrs (if first = true then c.appendByte b 0x0a else b) (ch! ',')) 0x0a) =
    b ++ ((if first = true then [] else paint (styleOf c) .comma [0x2c]) ++ newline (styleOf c) n) := by
  cases first
  · simp [appendNl_eq hd, punc_comma]
  · simp [appendNl_eq hd]

theorem mapLoop_does (c : Cfg) (start : Nat) (first : Bool) (es : List (MKey × GV))
    (h : ∀ e ∈ es, Does c (enc c e.2) (meaning c e.2)) (hf : first = true → es ≠ [])
    (d : Int) (n : Nat) (hd : DepthOk c d n) (b : Bytes) :
    match seqMembers (es.map fun e => (keyMeaning c e.1, meaning c e.2)) with
    | .ok ms => mapLoop c start first (es.map fun e => (e.1, enc c e.2)) (if first = true then c.appendByte b 0x0a else b) d =
        .done (b ++ renderMembers (styleOf c) n first ms) d none
    | .err e => ∃ b' d', mapLoop c start first (es.map fun e => (e.1, enc c e.2))
        (if first = true then c.appendByte b 0x0a else b) d = .done b' d' (some e)
    | .wild => True := by
  induction es generalizing first b with
  | nil =>
    cases first with
    | true => exact absurd rfl (hf rfl)
    | false => simp [seqMembers, mapLoop, renderMembers]
  | cons e es ih =>
    obtain ⟨k, v⟩ := e
    have hv := h (k, v) (by simp)
    have hk := mkey_does c k
    have ih := fun b => ih false (fun e he => h e (by simp [he])) (by simp) b
    simp only [List.map_cons, mapLoop]
    rw [sep_eq hd]
    obtain ⟨b1, hb1⟩ : ∃ b1, b1 = b ++ ((if first = true then [] else paint (styleOf c) .comma [0x2c]) ++ newline (styleOf c) n) :=
      ⟨_, rfl⟩
    rw [← hb1]
    cases hkm : keyMeaning c k with
    | wild => trivial
    | err e =>
      rw [hkm] at hk
      obtain ⟨b', d', hf, _⟩ := hk b1 d n hd
      simp only [seqMembers, hf]
      exact ⟨_, _, rfl⟩
    | ok r t =>
      rw [hkm] at hk
      have hk := hk b1 d n hd
      rw [render] at hk
      rw [hk]
      simp only []
      rw [punc_colon, appendGap_eq]
      cases hm : meaning c v with
      | wild => trivial
      | err e =>
        simp only [hm] at hv
        obtain ⟨b', d', hf, _⟩ := hv (b1 ++ paint (styleOf c) r t ++ paint (styleOf c) .colon [0x3a] ++ gap (styleOf c)) d n hd
        simp only [seqMembers, hf]
        exact ⟨_, _, rfl⟩
      | doc x =>
        simp only [hm] at hv
        rw [hv _ d n hd]
        simp only [seqMembers]
        have ih := ih (b1 ++ paint (styleOf c) r t ++ paint (styleOf c) .colon [0x3a] ++ gap (styleOf c) ++ render (styleOf c) n x)
        cases hs : seqMembers (es.map fun e => (keyMeaning c e.1, meaning c e.2)) with
        | ok ds =>
          rw [hs] at ih
          simp only [Bool.false_eq_true, if_false] at ih ⊢
          rw [ih, renderMembers, hb1]; simp
        | err e => rw [hs] at ih; exact ih
        | wild => trivial

theorem strLoop_does {α : Type} (f : α → Enc) (g : α → Meaning) (c : Cfg) (first : Bool) (es : List (Bytes × α))
    (h : ∀ e ∈ es, Does c (f e.2) (g e.2)) (hf : first = true → es ≠ [])
    (d : Int) (n : Nat) (hd : DepthOk c d n) (b : Bytes) :
    match seqMembers (es.map fun e => (.ok .key (quote c.escapeHTML e.1), g e.2)) with
    | .ok ms => strLoop c first (es.map fun e => (e.1, f e.2)) (if first = true then c.appendByte b 0x0a else b) d =
        .fin (b ++ renderMembers (styleOf c) n first ms) d
    | .err e => ∃ b' d', strLoop c first (es.map fun e => (e.1, f e.2))
        (if first = true then c.appendByte b 0x0a else b) d = .brk b' d' e
    | .wild => True := by
  induction es generalizing first b with
  | nil =>
    cases first with
    | true => exact absurd rfl (hf rfl)
    | false => simp [seqMembers, strLoop, renderMembers]
  | cons e es ih =>
    obtain ⟨k, v⟩ := e
    have hv := h (k, v) (by simp)
    have hk := str_does c (·.key) .key k (fun _ => rfl) (by decide) (by decide)
    have ih := fun b => ih false (fun e he => h e (by simp [he])) (by simp) b
    simp only [List.map_cons, strLoop]
    rw [sep_eq hd]
    obtain ⟨b1, hb1⟩ : ∃ b1, b1 = b ++ ((if first = true then [] else paint (styleOf c) .comma [0x2c]) ++ newline (styleOf c) n) :=
      ⟨_, rfl⟩
    rw [← hb1]
    have hk := hk b1 d n hd
    rw [render] at hk
    rw [encodeKey, hk]
    simp only []
    rw [punc_colon, appendGap_eq]
    cases hm : g v with
    | wild => trivial
    | err e =>
      simp only [hm] at hv
      obtain ⟨b', d', hf, _⟩ := hv (b1 ++ paint (styleOf c) .key (quote c.escapeHTML k) ++ paint (styleOf c) .colon [0x3a] ++ gap (styleOf c)) d n hd
      simp only [seqMembers, hf]
      exact ⟨_, _, rfl⟩
    | doc x =>
      simp only [hm] at hv
      rw [hv _ d n hd]
      simp only [seqMembers]
      have ih := ih (b1 ++ paint (styleOf c) .key (quote c.escapeHTML k) ++ paint (styleOf c) .colon [0x3a] ++ gap (styleOf c) ++ render (styleOf c) n x)
      cases hs : seqMembers (es.map fun e => (KeyMeaning.ok .key (quote c.escapeHTML e.1), g e.2)) with
      | ok ds =>
        rw [hs] at ih
        simp only [Bool.false_eq_true, if_false] at ih ⊢
        rw [ih, renderMembers, hb1]; simp
      | err e => rw [hs] at ih; exact ih
      | wild => trivial

theorem insertBy_map {α β : Type} (g : α → β) (key : β → Bytes) (x : α) (l : List α) :
    insertBy key (g x) (l.map g) = (insertBy (fun a => key (g a)) x l).map g := by
  induction l with
  | nil => rfl
  | cons y l ih => simp only [List.map_cons, insertBy]; split <;> simp [ih]

theorem sortBy_map {α β : Type} (g : α → β) (key : β → Bytes) (l : List α) :
    sortBy key (l.map g) = (sortBy (fun a => key (g a)) l).map g := by
  induction l with
  | nil => rfl
  | cons y l ih => simp only [List.map_cons, sortBy, ih, insertBy_map]

theorem insertBy_length {α : Type} (key : α → Bytes) (x : α) (l : List α) : (insertBy key x l).length = l.length + 1 := by
  induction l with
  | nil => rfl
  | cons y l ih => simp only [insertBy]; split <;> simp [ih]

theorem sortBy_length {α : Type} (key : α → Bytes) (l : List α) : (sortBy key l).length = l.length := by
  induction l with
  | nil => rfl
  | cons y l ih => simp [sortBy, insertBy_length, ih]

theorem encE_map (c : Cfg) (es : List (MKey × GV)) : encE c es = es.map fun e => (e.1, enc c e.2) := by
  induction es with
  | nil => rfl
  | cons e es ih => obtain ⟨k, v⟩ := e; simp [encE, ih]

theorem meanE_map (c : Cfg) (es : List (MKey × GV)) : meanE c es = es.map fun e => (e.1, meaning c e.2) := by
  induction es with
  | nil => rfl
  | cons e es ih => obtain ⟨k, v⟩ := e; simp [meanE, ih]

theorem encS_map (c : Cfg) (es : List (Bytes × GV)) : encS c es = es.map fun e => (e.1, enc c e.2) := by
  induction es with
  | nil => rfl
  | cons e es ih => obtain ⟨k, v⟩ := e; simp [encS, ih]

theorem meanS_map (c : Cfg) (es : List (Bytes × GV)) : meanS c es = es.map fun e => (e.1, meaning c e.2) := by
  induction es with
  | nil => rfl
  | cons e es ih => obtain ⟨k, v⟩ := e; simp [meanS, ih]

theorem seqMembers_nil {l : List (KeyMeaning × Meaning)} (h : seqMembers l = .ok []) : l = [] := by
  rcases l with _ | ⟨⟨_ | _ | _, _ | _ | _⟩, l⟩
  · rfl
  · simp only [seqMembers] at h; split at h <;> simp at h
  all_goals simp [seqMembers] at h

/-- The end of every map encoder. -/
theorem map_close {c : Cfg} {d : Int} {n : Nat} (hd : DepthOk c d n) (b : Bytes) (ms : List (Role × Bytes × Doc)) (hne : ms ≠ []) :
    appendPunc c.clrs (c.appendIndent d (c.appendByte (appendPunc c.clrs b (ch! '{') ++
      renderMembers (styleOf c) (n + 1) true ms) 0x0a)) (ch! '}') = b ++ render (styleOf c) n (.obj ms) := by
  rw [appendNl_eq hd, punc_rbrace, punc_lbrace, render, if_neg hne]
  simp

theorem map_does (c : Cfg) (es : List (MKey × GV)) (h : ∀ e ∈ es, Does c (enc c e.2) (meaning c e.2)) :
    Does c (encodeMap c (encE c es)) (meaning c (.map es)) := by
  simp only [meaning]
  by_cases ha : c.sortMapKeys = true ∧ es.length ≥ 2 ∧ es.any (fun e => e.1.uncallable) = true
  · rw [if_pos ha]; trivial
  · rw [if_neg ha]
    rw [encE_map, meanE_map]
    have hno : ¬ (c.sortMapKeys = true ∧ (es.map fun e => (e.1, enc c e.2)).length ≥ 2 ∧
        (es.map fun e => (e.1, enc c e.2)).any (fun e => e.1.uncallable) = true) := by
      rintro ⟨h1, h2, h⟩
      rw [List.any_map] at h
      rw [List.length_map] at h2
      exact ha ⟨h1, h2, h⟩
    obtain ⟨es', e1, e2, h', hl⟩ : ∃ es' : List (MKey × GV),
        (if c.sortMapKeys = true then sortBy (fun e => e.1.sortText) (es.map fun e => (e.1, enc c e.2))
          else es.map fun e => (e.1, enc c e.2)) = es'.map (fun e => (e.1, enc c e.2)) ∧
        (if c.sortMapKeys = true then sortBy (fun e => e.1.sortText) (es.map fun e => (e.1, meaning c e.2))
          else es.map fun e => (e.1, meaning c e.2)) = es'.map (fun e => (e.1, meaning c e.2)) ∧
        (∀ e ∈ es', Does c (enc c e.2) (meaning c e.2)) ∧ es'.length = es.length := by
      by_cases hs : c.sortMapKeys = true
      · refine ⟨sortBy (fun e => e.1.sortText) es, ?_, ?_, ?_, sortBy_length _ _⟩
        · rw [if_pos hs, sortBy_map]
        · rw [if_pos hs, sortBy_map]
        · intro e he; exact h e ((mem_sortBy _ _ _).1 he)
      · exact ⟨es, by rw [if_neg hs], by rw [if_neg hs], h, rfl⟩
    have hf : ∀ b d, encodeMap c (es.map fun e => (e.1, enc c e.2)) b d =
        (if (es'.map (fun e => (e.1, enc c e.2))).length ≠ 0 then
          match mapLoop c b.length true (es'.map (fun e => (e.1, enc c e.2)))
            (c.appendByte (appendPunc c.clrs b (ch! '{')) 0x0a) (c.push d) with
          | .panic => .panic
          | .done b d (some e) => .done b d (some e)
          | .done b d none =>
            .done (appendPunc c.clrs (c.appendIndent (c.pop d) (c.appendByte b 0x0a)) (ch! '}')) (c.pop d) none
        else .done (appendPunc c.clrs (appendPunc c.clrs b (ch! '{')) (ch! '}')) d none) := by
      intro b d
      simp only [encodeMap]
      rw [if_neg hno]
      simp only [e1]
      rfl
    simp only [e2, List.map_map]
    have ee : ((fun e : MKey × Meaning => (keyMeaning c e.1, e.2)) ∘ fun e : MKey × GV => (e.1, meaning c e.2)) =
        fun e => (keyMeaning c e.1, meaning c e.2) := rfl
    rw [ee]
    rcases hes : es' with _ | ⟨e0, es0⟩
    · intro b d n hd
      rw [hf, hes]
      simp [seqMembers, render, renderMembers, punc_lbrace, punc_rbrace]
    · rw [← hes]
      have hne : es' ≠ [] := by rw [hes]; simp
      have hl0 : (es'.map (fun e => (e.1, enc c e.2))).length ≠ 0 := by rw [hes]; simp
      have key := fun (b : Bytes) (d : Int) (n : Nat) (hd : DepthOk c d n) =>
        mapLoop_does c b.length true es' h' (fun _ => hne) (c.push d) (n + 1) hd.push (appendPunc c.clrs b (ch! '{'))
      cases hs : seqMembers (es'.map fun e => (keyMeaning c e.1, meaning c e.2)) with
      | wild => trivial
      | err e =>
        apply innerErr_does
        intro b d n hd
        have k := key b d n hd
        rw [hs] at k
        obtain ⟨b', d', k⟩ := k
        simp only [if_true] at k
        rw [hf, if_pos hl0, k]
        exact ⟨_, _, rfl⟩
      | ok ms =>
        have hne : ms ≠ [] := by
          rintro rfl
          have := seqMembers_nil hs
          rw [hes] at this; simp at this
        intro b d n hd
        have k := key b d n hd
        rw [hs] at k
        simp only [if_true] at k
        rw [hf, if_pos hl0, k]
        simp only [pop_push]
        rw [map_close hd b ms hne]

/-- String-keyed maps, sorted. -/
theorem strSorted_does {α : Type} (f : α → Enc) (g : α → Meaning) (c : Cfg) (es : List (Bytes × α))
    (h : ∀ e ∈ es, Does c (f e.2) (g e.2)) :
    Does c (strMapSorted c (es.map fun e => (e.1, f e.2)))
      (seqMembers ((sortBy (fun e => e.1) es).map fun e => (.ok .key (quote c.escapeHTML e.1), g e.2))).toObj := by
  have e1 : sortBy (fun e => e.1) (es.map fun e => (e.1, f e.2)) = (sortBy (fun e => e.1) es).map fun e => (e.1, f e.2) := by
    rw [sortBy_map]
  have h' : ∀ e ∈ sortBy (fun e => e.1) es, Does c (f e.2) (g e.2) := fun e he => h e ((mem_sortBy _ _ _).1 he)
  generalize sortBy (fun e => e.1) es = es' at *
  rcases hes : es' with _ | ⟨e0, es0⟩
  · intro b d n hd
    simp only [strMapSorted, e1, hes]
    simp [render, renderMembers, punc_lbrace, punc_rbrace]
  · rw [← hes]
    have hne : es' ≠ [] := by rw [hes]; simp
    have hl0 : (es'.map (fun e => (e.1, f e.2))).length > 0 := by rw [hes]; simp
    have key := fun (b : Bytes) (d : Int) (n : Nat) (hd : DepthOk c d n) =>
      strLoop_does f g c true es' h' (fun _ => hne) (c.push d) (n + 1) hd.push (appendPunc c.clrs b (ch! '{'))
    cases hs : seqMembers (es'.map fun e => (KeyMeaning.ok .key (quote c.escapeHTML e.1), g e.2)) with
    | wild => trivial
    | err e =>
      apply innerErr_does
      intro b d n hd
      have k := key b d n hd
      rw [hs] at k
      obtain ⟨b', d', k⟩ := k
      simp only [if_true] at k
      simp only [strMapSorted, e1]
      rw [if_pos hl0, k]
      exact ⟨_, _, rfl⟩
    | ok ms =>
      have hne : ms ≠ [] := by
        rintro rfl
        have := seqMembers_nil hs
        rw [hes] at this; simp at this
      intro b d n hd
      have k := key b d n hd
      rw [hs] at k
      simp only [if_true] at k
      simp only [strMapSorted, e1]
      rw [if_pos hl0, k]
      simp only [strTail, pop_push]
      rw [map_close hd b ms hne]

theorem siUnsorted_does {α : Type} (f : α → Enc) (g : α → Meaning) (c : Cfg) (es' : List (Bytes × α))
    (h' : ∀ e ∈ es', Does c (f e.2) (g e.2)) :
    Does c (mapSIUnsorted c (es'.map fun e => (e.1, f e.2)))
      (seqMembers (es'.map fun e => (.ok .key (quote c.escapeHTML e.1), g e.2))).toObj := by
  rcases hes : es' with _ | ⟨e0, es0⟩
  · intro b d n hd
    simp [mapSIUnsorted, render, renderMembers, punc_lbrace, punc_rbrace]
  · rw [← hes]
    have hne : es' ≠ [] := by rw [hes]; simp
    have hl0 : (es'.map (fun e => (e.1, f e.2))).length ≠ 0 := by rw [hes]; simp
    have key := fun (b : Bytes) (d : Int) (n : Nat) (hd : DepthOk c d n) =>
      strLoop_does f g c true es' h' (fun _ => hne) (c.push d) (n + 1) hd.push (appendPunc c.clrs b (ch! '{'))
    cases hs : seqMembers (es'.map fun e => (KeyMeaning.ok .key (quote c.escapeHTML e.1), g e.2)) with
    | wild => trivial
    | err e =>
      apply innerErr_does
      intro b d n hd
      have k := key b d n hd
      rw [hs] at k
      obtain ⟨b', d', k⟩ := k
      simp only [if_true] at k
      simp only [mapSIUnsorted]
      rw [if_pos hl0, k]
      exact ⟨_, _, rfl⟩
    | ok ms =>
      have hne : ms ≠ [] := by
        rintro rfl
        have := seqMembers_nil hs
        rw [hes] at this; simp at this
      intro b d n hd
      have k := key b d n hd
      rw [hs] at k
      simp only [if_true] at k
      simp only [mapSIUnsorted]
      rw [if_pos hl0, k]
      simp only [strTail, pop_push]
      rw [map_close hd b ms hne]

theorem rawUnsorted_does (c : Cfg) (es' : List (Bytes × Option Bytes)) :
    Does c (mapRawUnsorted c (es'.map fun e => (e.1, encodeRawMessage c e.2)))
      (match seqMembers (es'.map fun e => (.ok .key (quote c.escapeHTML e.1), rawMeaning c e.2)) with
      | .ok xs => .doc (.obj xs)
      | _ => .wild) := by
  rcases hes : es' with _ | ⟨e0, es0⟩
  · intro b d n hd
    simp [mapRawUnsorted, render, renderMembers, punc_lbrace, punc_rbrace]
  · rw [← hes]
    have hne : es' ≠ [] := by rw [hes]; simp
    have hl0 : (es'.map (fun e => (e.1, encodeRawMessage c e.2))).length ≠ 0 := by rw [hes]; simp
    have key := fun (b : Bytes) (d : Int) (n : Nat) (hd : DepthOk c d n) =>
      strLoop_does (encodeRawMessage c) (rawMeaning c) c true es' (fun e _ => raw_does c e.2) (fun _ => hne) (c.push d)
        (n + 1) hd.push (appendPunc c.clrs b (ch! '{'))
    cases hs : seqMembers (es'.map fun e => (KeyMeaning.ok .key (quote c.escapeHTML e.1), rawMeaning c e.2)) with
    | wild => trivial
    | err e => trivial
    | ok ms =>
      have hne : ms ≠ [] := by
        rintro rfl
        have := seqMembers_nil hs
        rw [hes] at this; simp at this
      intro b d n hd
      have k := key b d n hd
      rw [hs] at k
      simp only [if_true] at k
      simp only [mapRawUnsorted]
      rw [if_pos hl0, k]
      simp only [strTail, pop_push]
      rw [map_close hd b ms hne]

/-! #### Structs -/

theorem structKey_eq {c : Cfg} {d : Int} {n : Nat} (hd : DepthOk c d n) (b s : Bytes) :
    structKey c b (quote c.escapeHTML s) d = b ++ (margin (styleOf c) n ++ paint (styleOf c) .key (quote c.escapeHTML s)) := by
  have e : ansiReset = reset := rfl
  simp only [structKey]
  rw [appendIndent_eq hd]
  unfold paint
  have : (styleOf c).clrs = c.clrs := rfl
  rw [this]
  cases c.clrs <;> simp [colorOf, e]

theorem newline_eq (c : Cfg) (b : Bytes) (n : Nat) :
    c.appendByte b 0x0a ++ margin (styleOf c) n = b ++ newline (styleOf c) n := by
  unfold Cfg.appendByte newline margin styleOf
  cases hc : c.ind with
  | none => simp
  | some i =>
    simp only []
    by_cases h : i.disabled = true <;> simp [h]

theorem structLoop_does (c : Cfg) (start cnt : Nat) (fs : List (FMeta × GV))
    (h : ∀ f ∈ fs, Does c (enc c f.2) (meaning c f.2)) (d : Int) (n : Nat) (hd : DepthOk c d n) (b : Bytes) :
    match seqFields c.escapeHTML (cnt ≠ 0) (meanF c fs) with
    | .ok ms => structLoop c start cnt (encF c fs) (if cnt = 0 then c.appendByte b 0x0a else b) d =
        (.done (if cnt = 0 ∧ ms = [] then c.appendByte b 0x0a else b ++ renderMembers (styleOf c) n (cnt = 0) ms) d none,
          cnt + ms.length)
    | .err e => ∃ b' d' m, structLoop c start cnt (encF c fs) (if cnt = 0 then c.appendByte b 0x0a else b) d =
        (.done b' d' (some e), m) ∧ e ≠ .rollback
    | .wild => True := by
  induction fs generalizing cnt b with
  | nil =>
    simp only [meanF, seqFields, encF, structLoop, List.length_nil, Nat.add_zero, renderMembers, List.append_nil, and_true]
  | cons f fs ih =>
    obtain ⟨m, v⟩ := f
    have hv := h (m, v) (by simp)
    have ih := fun cnt b => ih cnt (fun e he => h e (by simp [he])) b
    simp only [meanF, seqFields, encF, structLoop]
    by_cases ho : m.omitempty = true ∧ isEmpty v = true
    · rw [if_pos ho, if_pos ho]; exact ih cnt b
    · rw [if_neg ho, if_neg ho]
      obtain ⟨B, hB⟩ : ∃ B, B = (if cnt ≠ 0 then c.appendByte (appendPunc c.clrs (if cnt = 0 then c.appendByte b 0x0a else b) (ch! ',')) 0x0a
          else (if cnt = 0 then c.appendByte b 0x0a else b)) := ⟨_, rfl⟩
      have hB2 : B ++ margin (styleOf c) n = b ++ ((if cnt = 0 then [] else paint (styleOf c) .comma [0x2c]) ++ newline (styleOf c) n) := by
        rw [hB]
        by_cases h0 : cnt = 0
        · simp [h0, newline_eq]
        · simp [h0, newline_eq, punc_comma]
      rw [← hB]
      have hq : doEncodeString c.escapeHTML [] m.name = quote c.escapeHTML m.name := rfl
      rw [hq, structKey_eq hd, punc_colon, appendGap_eq]
      cases hm : meaning c v with
      | wild => trivial
      | err e =>
        simp only [hm] at hv
        obtain ⟨b', d', hf, hr⟩ := hv (B ++ (margin (styleOf c) n ++ paint (styleOf c) .key (quote c.escapeHTML m.name)) ++
          paint (styleOf c) .colon [0x3a] ++ gap (styleOf c)) d n hd
        rw [hf]
        simp only []
        by_cases he : e = .rollback
        · rw [if_pos he, if_pos he]
          by_cases h0 : cnt = 0
          · subst h0
            have hl := loc_enc c v (B ++ ((margin (styleOf c) n ++ paint (styleOf c) .key (quote c.escapeHTML m.name)) ++
              paint (styleOf c) .colon [0x3a] ++ gap (styleOf c))) [] d
            simp only [List.append_nil, ← List.append_assoc] at hl hf
            rw [hf] at hl
            have ht : b'.take B.length = B := by
              cases hx : enc c v [] d with
              | panic => rw [hx] at hl; cases hl
              | done x y z =>
                rw [hx] at hl
                simp only [Out.prepend, Out.done.injEq] at hl
                rw [hl.1]
                simp only [List.append_assoc]
                exact List.take_left
            rw [ht, hr he]
            have := ih 0 b
            simpa [hB] using this
          · simp [h0]
        · rw [if_neg he, if_neg he]
          exact ⟨_, _, _, rfl, he⟩
      | doc x =>
        simp only [hm] at hv
        rw [hv _ d n hd]
        simp only []
        have ih := ih (cnt + 1) (B ++ (margin (styleOf c) n ++ paint (styleOf c) .key (quote c.escapeHTML m.name)) ++
          paint (styleOf c) .colon [0x3a] ++ gap (styleOf c) ++ render (styleOf c) n x)
        have e1 : (decide (cnt + 1 ≠ 0)) = true := by simp
        rw [e1] at ih
        cases hs : seqFields c.escapeHTML true (meanF c fs) with
        | ok ms =>
          rw [hs] at ih
          simp only [Nat.add_eq_zero_iff, Nat.one_ne_zero, and_false, false_and, if_false] at ih
          simp only []
          rw [ih]
          simp only [List.length_cons, Prod.mk.injEq, Out.done.injEq, and_true, renderMembers, reduceCtorEq, and_false, if_false]
          refine ⟨?_, by omega⟩
          rw [← List.append_assoc B, hB2]
          simp
        | err e =>
          rw [hs] at ih
          simpa using ih
        | wild => trivial

theorem encF_length (c : Cfg) (fs : List (FMeta × GV)) : (encF c fs).length = fs.length := by
  induction fs with
  | nil => rfl
  | cons e es ih => obtain ⟨k, v⟩ := e; simp [encF, ih]

theorem struct_does (c : Cfg) (fs : List (FMeta × GV)) (h : ∀ f ∈ fs, Does c (enc c f.2) (meaning c f.2)) :
    Does c (encodeStruct c (encF c fs)) ((seqFields c.escapeHTML false (meanF c fs)).toStruct (!fs.isEmpty)) := by
  rcases hfs : fs with _ | ⟨f0, fs0⟩
  · intro b d n hd
    simp only [encodeStruct, encF, structLoop, List.length_nil, Nat.lt_irrefl, if_false, pop_push, gt_iff_lt]
    rw [appendIndent_eq hd, punc_lbrace, punc_rbrace]
    simp [render]
  · rw [← hfs]
    have hl0 : (encF c fs).length > 0 := by rw [encF_length, hfs]; simp
    have hie : (!fs.isEmpty) = true := by rw [hfs]; rfl
    have key := fun (b : Bytes) (d : Int) (n : Nat) (hd : DepthOk c d n) =>
      structLoop_does c b.length 0 fs h (c.push d) (n + 1) hd.push (appendPunc c.clrs b (ch! '{'))
    have e0 : decide ((0 : Nat) ≠ 0) = false := by simp
    simp only [e0] at key
    cases hs : seqFields c.escapeHTML false (meanF c fs) with
    | wild => trivial
    | err e =>
      apply innerErr_does
      intro b d n hd
      have k := key b d n hd
      rw [hs] at k
      obtain ⟨b', d', m, k, _⟩ := k
      simp only [if_true] at k
      simp only [encodeStruct]
      rw [if_pos hl0, k]
      exact ⟨_, _, rfl⟩
    | ok ms =>
      have hf : ∀ b d n, DepthOk c d n → encodeStruct c (encF c fs) b d =
          (if ms = [] then .done (appendPunc c.clrs (c.appendIndent d (c.appendByte (appendPunc c.clrs b (ch! '{')) 0x0a)) (ch! '}')) d none
          else .done (appendPunc c.clrs (c.appendIndent d (c.appendByte (appendPunc c.clrs b (ch! '{') ++
      renderMembers (styleOf c) (n + 1) true ms) 0x0a)) (ch! '}')) d none) := by
        intro b d n hd
        have k := key b d n hd
        rw [hs] at k
        simp only [if_true, true_and, Nat.zero_add, decide_true] at k
        simp only [encodeStruct]
        rw [if_pos hl0, k]
        simp only [pop_push]
        by_cases hm : ms = []
        · simp [hm]
        · have : ms.length > 0 := List.length_pos_iff.2 hm
          simp [hm, this]
      cases ms with
      | nil =>
        intro b d n hd
        rw [hf b d n hd, if_pos rfl, appendNl_eq hd, punc_lbrace, punc_rbrace]
        simp [render, hie]
      | cons m ms =>
        intro b d n hd
        rw [hf b d n hd, if_neg (by simp), map_close hd b _ (by simp)]

mutual
/-- The encoder does what the meaning says, for every value. -/
theorem enc_does (c : Cfg) : ∀ v : GV, Does c (enc c v) (meaning c v)
  | .nil | .sliceNil | .mapNil | .ptrNil => by simp only [enc, meaning]; exact null_does c
  | .bool v => by simp only [enc, meaning]; exact leaf_does c _ _ _ fun b d => by rw [appendBool_eq]
  | .int z => by simp only [enc, meaning]; exact leaf_does c _ _ _ fun b d => by rw [appendInt_eq]
  | .uint n => by simp only [enc, meaning]; exact leaf_does c _ _ _ fun b d => by rw [appendUint_eq]
  | .float f => float_does c f
  | .number s => by simp only [enc, meaning]; exact number_does c s
  | .string s => by
    simp only [enc, meaning]
    exact str_does c _ .string s (fun _ => rfl) (by decide) (by decide)
  | .bytesNil => by
    simp only [enc, meaning]
    have e : ansiReset = reset := rfl
    apply leaf_does
    intro b d
    simp only [encodeBytes, colored, doEncodeBytes, appendNull, paint, styleOf]
    cases c.clrs <;> simp [e]
  | .bytes s => by
    simp only [enc, meaning]
    exact colored_does c _ .bytes _ _ (fun b d => rfl) (fun _ => rfl) (by decide) (by decide)
  | .time s _ => by
    simp only [enc, meaning]
    have e : ansiReset = reset := rfl
    apply leaf_does
    intro b d
    simp only [encodeTime, paint, styleOf]
    cases c.clrs <;> simp [e, colorOf]
  | .slice xs => by simp only [enc, meaning]; exact array_does c xs (encL_does c xs)
  | .array xs => by simp only [enc, meaning]; exact array_does c xs (encL_does c xs)
  | .map es => by simp only [enc]; exact map_does c es (encE_does c es)
  | .mapSI es => by
    simp only [enc, meaning, encodeMapSI, encS_map, meanS_map]
    split
    · have := strSorted_does (enc c) (meaning c) c es (encS_does c es)
      rw [sortBy_map, List.map_map]
      exact this
    · have := siUnsorted_does (enc c) (meaning c) c es (encS_does c es)
      rw [List.map_map]
      exact this
  | .mapRaw es => by
    simp only [enc, meaning, encodeMapRaw]
    split
    · exact strSorted_does (encodeRawMessage c) (rawMeaning c) c es (fun e _ => raw_does c e.2)
    · exact rawUnsorted_does c es
  | .struct fs => by simp only [enc, meaning]; exact struct_does c fs (encF_does c fs)
  | .ptr v => by simp only [enc, meaning]; exact enc_does c v
  | .iface v _ => by simp only [enc, meaning]; exact enc_does c v
  | .rawNil => by simp only [enc, meaning]; exact raw_does c _
  | .raw s => by simp only [enc, meaning]; exact raw_does c _
  | .jsonM .isNil _ => by simp only [enc, meaning]; exact null_does c
  | .jsonM (.err e) _ => by simp only [enc, meaning]; intro b d n _; exact ⟨b, d, rfl, fun _ => rfl⟩
  | .jsonM (.ok s) _ => by simp only [enc, meaning]; exact raw_does c s
  | .textM r _ => by simp only [enc, meaning]; exact text_does c r
  | .quoted v => by simp only [enc, meaning]; exact quoted_does c _ _ (enc_does c v)
  | .embNil _ => by simp only [enc, meaning]; intro b d n _; exact ⟨b, d, rfl, fun _ => rfl⟩
  | .emb v _ => by simp only [enc, meaning]; exact enc_does c v
  | .unsupported => by simp only [enc, meaning]; intro b d n _; exact ⟨b, d, rfl, fun _ => rfl⟩
theorem encL_does (c : Cfg) : ∀ xs : List GV, ∀ v ∈ xs, Does c (enc c v) (meaning c v)
  | [] => by simp
  | v :: vs => by
    intro x hx
    simp only [List.mem_cons] at hx
    rcases hx with rfl | hx
    · exact enc_does c x
    · exact encL_does c vs x hx
theorem encE_does (c : Cfg) : ∀ es : List (MKey × GV), ∀ e ∈ es, Does c (enc c e.2) (meaning c e.2)
  | [] => by simp
  | (k, v) :: es => by
    intro x hx
    simp only [List.mem_cons] at hx
    rcases hx with rfl | hx
    · exact enc_does c v
    · exact encE_does c es x hx
theorem encS_does (c : Cfg) : ∀ es : List (Bytes × GV), ∀ e ∈ es, Does c (enc c e.2) (meaning c e.2)
  | [] => by simp
  | (k, v) :: es => by
    intro x hx
    simp only [List.mem_cons] at hx
    rcases hx with rfl | hx
    · exact enc_does c v
    · exact encS_does c es x hx
theorem encF_does (c : Cfg) : ∀ es : List (FMeta × GV), ∀ e ∈ es, Does c (enc c e.2) (meaning c e.2)
  | [] => by simp
  | (k, v) :: es => by
    intro x hx
    simp only [List.mem_cons] at hx
    rcases hx with rfl | hx
    · exact enc_does c v
    · exact encF_does c es x hx
end

end JC

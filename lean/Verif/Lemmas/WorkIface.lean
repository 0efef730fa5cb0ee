import Verif.Lemmas.Work
import Verif.Lemmas.FailTail
import Verif.Lemmas.DecTotal
import Verif.Lemmas.DecRef
import Verif.Spec.Nest
/-!
The decoder of `interface{}` with a count of its steps returns what the decoder returns, and takes no more than fifty
steps for each byte on each level.
-/
namespace JC
open Spec

/-! ### The results are those of the decoder -/

theorem decodeStringW_fst (b : Bytes) (p : DV) : (decodeStringW b p).1 = decodeString b p := by
  unfold decodeStringW
  cases hf : parseStringFastW b with
  | mk x k =>
    have hx : parseStringFast b = x := by rw [← parseStringFastW_fst, hf]
    split
    · unfold decodeString; rw [if_pos ‹_›]
    · cases x with
      | ok v r esc => rfl
      | fail r e =>
        simp only [tick_fst]
        split
        · have : parseStringUnquote b [] = .fail r e := by unfold parseStringUnquote; rw [hx]
          unfold decodeString
          rw [if_neg ‹¬ hasNullPrefix b = true›, this]
          simp only []
          rw [if_pos ‹_›]
          rfl
        · rfl

theorem memberKeyW_fst (first : Bool) (b : Bytes) : (memberKeyW first b).1 = memberKey (decodeKey .str) first b := by
  have rest : ∀ b : Bytes, (if hasNullPrefix b then ((.inr (.inl (b, .syntax)), 5) : (Crash ⊕ (Bytes × Err) ⊕ (DV × Bytes)) × Nat)
    else match decodeStringW b (.string []) with
      | (.crash c, k) => (.inl c, k + 5)
      | (.err _ r e, k) => (.inr (.inl (objectKeyError r e)), k + 5)
      | (.ok d r, k) =>
        match (skipSpacesW r).1 with
        | [] => (.inr (.inl ((skipSpacesW r).1, .syntax)), k + 5 + (skipSpacesW r).2)
        | c :: t =>
          if c ≠ 58 then (.inr (.inl ((skipSpacesW r).1, .syntax)), k + 5 + (skipSpacesW r).2)
          else (.inr (.inr (d, (skipSpacesW t).1)), k + 5 + (skipSpacesW r).2 + (skipSpacesW t).2)).1 = memberKey (decodeKey .str) true b := by
    intro b
    unfold memberKey
    simp only [if_true]
    split
    · rfl
    · rw [decodeKey, ← decodeStringW_fst]
      cases decodeStringW b (.string []) with
      | mk x k =>
        cases x with
        | crash c => rfl
        | err p r e => rfl
        | ok d r =>
          simp only [skipSpacesW_fst]
          cases skipSpaces r with
          | nil => rfl
          | cons c t => simp only []; split <;> rfl
  cases first with
  | true => exact rest b
  | false =>
    unfold memberKeyW memberKey
    simp only [Bool.false_eq_true, if_false]
    cases b with
    | nil => rfl
    | cons c t =>
      simp only []
      split
      · rfl
      · rw [tick_fst, skipSpacesW_fst]
        refine (rest _).trans ?_
        unfold memberKey
        simp only [if_true]

/-- The decoder without the count. -/
def DecW.plain (dec : DecW) : Dec := fun b p => (dec b p).1

theorem mapLoopW_fst (dec : DecW) (input : Bytes) : ∀ n first m b p,
    (mapLoopW dec input n first m b).1 = mapLoopD .str dec.plain .ifaceNil p false input n first m b := by
  intro n
  induction n with
  | zero => intros; rfl
  | succ n ih =>
    intro first m b p
    simp only [mapLoopW, mapLoopD, skipSpacesW_fst, ← memberKeyW_fst]
    split
    · rfl
    · cases memberKeyW first (skipSpaces b) with
      | mk x k =>
        rcases x with c | ⟨r, e⟩ | ⟨kv, b⟩
        · rfl
        · rfl
        · simp only [tick_fst, DecW.plain]
          cases dec b .ifaceNil with
          | mk y l =>
            cases y with
            | crash c => rfl
            | err x r e =>
              simp only [elemW, ← parseValueW_fst]
              cases parseValueW input with
              | mk z o => cases z <;> rfl
            | ok v r => simp only [elemW, tick_fst]; rw [ih _ _ _ p]

theorem decodeMapW_fst (dec : DecW) (b : Bytes) : (decodeMapW dec b (.map [])).1 = decodeMap .str dec.plain .ifaceNil b (.map []) := by
  unfold decodeMapW decodeMap
  split
  · rfl
  · cases b with
    | nil => rfl
    | cons c t =>
      simp only []
      split
      · rfl
      · rw [tick_fst, mapLoopW_fst]

theorem sliceLoopW_fst (dec : DecW) (input : Bytes) : ∀ n done mem b,
    (sliceLoopW dec input n done mem b).1 = sliceLoop dec.plain .ifaceNil input n done mem b := by
  intro n
  induction n with
  | zero => intros; rfl
  | succ n ih =>
    intro done mem b
    have elem : ∀ b, (elemW (dec b (mem.headD .ifaceNil)) (parseValueW input) (fun x => .slice done (x :: mem.tail))
        fun x r => sliceLoopW dec input n (done ++ [x]) mem.tail r).1 =
        match dec.plain b (mem.headD .ifaceNil) with
        | .crash c => .crash c
        | .err x _ e =>
          match parseValue input with
          | .fail r e2 => .err (.slice done (x :: mem.tail)) r e2
          | .ok _ r => .err (.slice done (x :: mem.tail)) r e
        | .ok x r => sliceLoop dec.plain .ifaceNil input n (done ++ [x]) mem.tail r := by
      intro b
      simp only [DecW.plain]
      cases dec b (mem.headD .ifaceNil) with
      | mk y l =>
        cases y with
        | crash c => rfl
        | err x r e =>
          simp only [elemW, ← parseValueW_fst]
          cases parseValueW input with
          | mk z o => cases z <;> rfl
        | ok v r => simp only [elemW, tick_fst]; rw [ih]
    simp only [sliceLoopW, sliceLoop, skipSpacesW_fst]
    split
    · rfl
    · split
      · rw [tick_fst]; exact elem _
      · cases skipSpaces b with
        | nil => rfl
        | cons c t =>
          simp only []
          split
          · rfl
          · rw [tick_fst]; exact elem _

theorem decodeSliceW_fst (dec : DecW) (b : Bytes) :
    (decodeSliceW dec b (.slice [] [])).1 = decodeSlice dec.plain .ifaceNil b (.slice [] []) := by
  unfold decodeSliceW decodeSlice
  split
  · rfl
  · cases b with
    | nil => rfl
    | cons c t =>
      simp only []
      split
      · rfl
      · rw [tick_fst, sliceLoopW_fst]; rfl

theorem ifaceValueW_fst (c : DCfg) : ∀ n, (ifaceValueW c n).plain = ifaceValue c n := by
  intro n
  induction n with
  | zero => rfl
  | succ n ih =>
    funext b p
    show (ifaceValueW c (n + 1) b p).1 = _
    rw [ifaceValueW, ifaceValue]
    simp only [← parseValueW_fst]
    cases parseValueW b with
    | mk x k =>
      cases x with
      | fail r e => rfl
      | ok v r =>
        cases v with
        | nil => rfl
        | cons ch t =>
          simp only []
          split
          · simp only [decodeMapW_fst, ih]
          split
          · simp only [decodeSliceW_fst, ih]
          split
          · simp only [decodeStringW_fst]
          split
          · cases decodeNull (ch :: t) .ifaceNil <;> rfl
          split
          · rfl
          split
          · split <;> rfl
          · rfl

theorem unmarshalAnyW_fst (c : DCfg) (n : Nat) (b : Bytes) : (unmarshalAnyW c b).1 = unmarshal c n .iface b .ifaceNil := by
  have hd : ∀ b, decN c n .iface b .ifaceNil = ifaceValue c (b.length + 1) b .ifaceNil := by
    intro b; cases n <;> simp [decN, dec, decodeInterface]
  unfold unmarshalAnyW unmarshal parseInto
  rw [hd, ← ifaceValueW_fst]
  simp only [skipSpacesW_fst, DecW.plain]
  cases ifaceValueW c ((skipSpaces b).length + 1) (skipSpaces b) .ifaceNil with
  | mk x k => cases x <;> rfl

/-! ### The steps of the decoder -/

theorem skipSpacesW_stop {w : Bytes} (hw : Ws w) {c : UInt8} (hc : isSpace c = false) (t : Bytes) :
    skipSpacesW (w ++ c :: t) = (c :: t, w.length + 1) := by
  have e : skipSpaces (w ++ c :: t) = c :: t := by rw [skipSpaces_ws_append hw, skipSpaces_cons_of_not hc]
  have h1 := skipSpacesW_fst (w ++ c :: t)
  have h2 := skipSpacesW_snd (w ++ c :: t)
  rw [e] at h1 h2
  refine Prod.ext h1 ?_
  simp only [List.length_append, List.length_cons] at h2 ⊢
  omega

theorem elemW_le {d : DRes × Nat} {o : PR × Nat} {dest : DV → DV} {next : DV → Bytes → DRes × Nat} {C : Nat}
    (h1 : ∀ x r, d.1 = .ok x r → (next x r).2 ≤ C) (h2 : o.2 ≤ C) : (elemW d o dest next).2 ≤ d.2 + C := by
  obtain ⟨d, l⟩ := d
  cases d with
  | crash c => simp [elemW]
  | err x r e =>
    obtain ⟨o, k⟩ := o
    cases o <;> simp only [elemW] <;> simp only [] at h2 <;> omega
  | ok x r =>
    have := h1 x r rfl
    simp only [elemW, tick_snd]; omega

/-- The decoder takes at most `B` steps for each byte of a value with no more than `k` levels. -/
def Per (dec : DecW) (k B : Nat) : Prop := ∀ (j : Json) (b r : Bytes) (p : DV), Derives (.value j) b → levels j ≤ k → Follow j r →
  (dec (b ++ r) p).2 ≤ B * b.length ∧ ∀ x q, (dec (b ++ r) p).1 = .ok x q → q = r

theorem sliceLoopW_close (dec : DecW) (input : Bytes) (n : Nat) (done mem : List DV) {w : Bytes} (hw : Ws w) (r : Bytes) :
    (sliceLoopW dec input n done mem (w ++ 0x5d :: r)).2 ≤ w.length + 2 := by
  cases n with
  | zero => simp [sliceLoopW]
  | succ n =>
    simp only [sliceLoopW, skipSpacesW_stop hw (show isSpace 0x5d = false from by decide)]
    simp

theorem sliceLoopW_comma (dec : DecW) (input : Bytes) (n : Nat) (done mem : List DV) (x : DV) {w : Bytes} (hw : Ws w) (m : Bytes) :
    (sliceLoopW dec input (n + 1) (done ++ [x]) mem (w ++ 0x2c :: m)).2 = w.length + 1 + ((skipSpacesW m).2 + 1 +
      (elemW (dec (skipSpaces m) (mem.headD .ifaceNil)) (parseValueW input) (fun y => .slice (done ++ [x]) (y :: mem.tail))
        fun y r => sliceLoopW dec input n (done ++ [x] ++ [y]) mem.tail r).2) := by
  simp only [sliceLoopW, skipSpacesW_stop hw (show isSpace 0x2c = false from by decide)]
  rw [if_neg (by simp), if_neg (by simp), if_neg (by simp), tick_snd, skipSpacesW_fst]
  omega

theorem elems_le {dec : DecW} {k B : Nat} (hd : Per dec k B) {input : Bytes} {r : Bytes} : ∀ (xs : List Json) (m : Bytes),
    Derives (.elems xs) m → levelsL xs ≤ k → ∀ (n : Nat) (done mem : List DV),
    (skipSpacesW (m ++ 0x5d :: r)).2 + 1 + (elemW (dec (skipSpaces (m ++ 0x5d :: r)) (mem.headD .ifaceNil)) (parseValueW input)
      (fun x => .slice done (x :: mem.tail)) fun x r => sliceLoopW dec input n (done ++ [x]) mem.tail r).2
    ≤ (B + 4) * m.length + (parseValueW input).2 + 4 := by
  intro xs
  induction xs with
  | nil => intro m h; cases h
  | cons j xs ih =>
    intro m h hl n done mem
    simp only [levelsL] at hl
    cases h with
    | elemOne w1 w2 j b h1 h2 hj =>
      have hv := hd j b (w2 ++ 0x5d :: r) (mem.headD .ifaceNil) hj (by omega) (follow_of_numStop (numStop_ws_cons h2 (by simp)))
      obtain ⟨c, t, hb, hc, _⟩ := derives_value_head hj
      have e : w1 ++ b ++ w2 ++ 0x5d :: r = w1 ++ c :: (t ++ (w2 ++ 0x5d :: r)) := by rw [hb]; simp
      have es := skipSpacesW_stop h1 hc (t ++ (w2 ++ 0x5d :: r))
      have ef := skipSpacesW_fst (w1 ++ c :: (t ++ (w2 ++ 0x5d :: r)))
      rw [e, ← ef, es]
      simp only []
      have eb : c :: (t ++ (w2 ++ 0x5d :: r)) = b ++ (w2 ++ 0x5d :: r) := by rw [hb]; simp
      rw [eb]
      have := elemW_le (d := dec (b ++ (w2 ++ 0x5d :: r)) (mem.headD .ifaceNil)) (o := parseValueW input)
        (dest := fun x => .slice done (x :: mem.tail)) (next := fun x r => sliceLoopW dec input n (done ++ [x]) mem.tail r)
        (C := (parseValueW input).2 + w2.length + 2) ?_ (by omega)
      · simp only [List.length_append, Nat.add_mul, Nat.mul_add]
        have := hv.1
        omega
      · intro x q hq
        rw [hv.2 x q hq]
        have := sliceLoopW_close dec input n (done ++ [x]) mem.tail h2 r
        omega
    | elemCons w1 w2 j b xs bs h1 h2 hj hm =>
      have hv := hd j b (w2 ++ 0x2c :: (bs ++ 0x5d :: r)) (mem.headD .ifaceNil) hj (by omega) (follow_of_numStop (numStop_ws_cons h2 (by simp)))
      obtain ⟨c, t, hb, hc, _⟩ := derives_value_head hj
      have e : w1 ++ b ++ w2 ++ 0x2c :: bs ++ 0x5d :: r = w1 ++ c :: (t ++ (w2 ++ 0x2c :: (bs ++ 0x5d :: r))) := by rw [hb]; simp
      have es := skipSpacesW_stop h1 hc (t ++ (w2 ++ 0x2c :: (bs ++ 0x5d :: r)))
      have ef := skipSpacesW_fst (w1 ++ c :: (t ++ (w2 ++ 0x2c :: (bs ++ 0x5d :: r))))
      rw [e, ← ef, es]
      simp only []
      have eb : c :: (t ++ (w2 ++ 0x2c :: (bs ++ 0x5d :: r))) = b ++ (w2 ++ 0x2c :: (bs ++ 0x5d :: r)) := by rw [hb]; simp
      rw [eb]
      have := elemW_le (d := dec (b ++ (w2 ++ 0x2c :: (bs ++ 0x5d :: r))) (mem.headD .ifaceNil)) (o := parseValueW input)
        (dest := fun x => .slice done (x :: mem.tail)) (next := fun x r => sliceLoopW dec input n (done ++ [x]) mem.tail r)
        (C := w2.length + 1 + ((B + 4) * bs.length + (parseValueW input).2 + 4)) ?_ (by omega)
      · simp only [List.length_append, List.length_cons, Nat.add_mul, Nat.mul_add] at *
        have := hv.1
        omega
      · intro x q hq
        rw [hv.2 x q hq]
        cases n with
        | zero => simp [sliceLoopW]
        | succ n =>
          rw [sliceLoopW_comma dec input n done mem.tail x h2]
          have := ih bs hm (by omega) n (done ++ [x]) mem.tail
          omega

/-! members -/

theorem decodeStringW_le {k : Bytes} (hk : JString k) (r : Bytes) (p : DV) :
    (decodeStringW (k ++ r) p).2 ≤ 6 * k.length + 5 ∧ ∀ x q, (decodeStringW (k ++ r) p).1 = .ok x q → q = r := by
  have hs := parseString_complete hk r
  obtain ⟨t, ht⟩ := JString.head hk
  have hn : hasNullPrefix (k ++ r) = false := by rw [ht]; exact hasNull_cons (by decide)
  have hq := parseStringFastW_steps (k ++ r)
  constructor
  · unfold decodeStringW
    rw [hn]
    simp only [Bool.false_eq_true, if_false]
    cases hf : parseStringFastW (k ++ r) with
    | mk x l =>
      rw [hf] at hq
      have hx : parseStringFast (k ++ r) = x := by rw [← parseStringFastW_fst, hf]
      unfold parseString at hs
      rw [hx] at hs
      cases x with
      | fail q e => simp at hs
      | ok v q esc =>
        simp only [] at hq hs ⊢
        injection hs with h1 h2
        rw [h1]; rw [h2] at hq
        simp only [List.length_append] at hq
        split <;> omega
  · intro x q h
    rw [decodeStringW_fst, decodeString_ok hk] at h
    injection h with _ h
    exact h.symm

theorem memberKeyW_first {k w2 w3 : Bytes} (hk : JString k) (h2 : Ws w2) (h3 : Ws w3) {c : UInt8} (hc : isSpace c = false) (t : Bytes) :
    (memberKeyW true (k ++ (w2 ++ 0x3a :: (w3 ++ c :: t)))).1 = .inr (.inr (.string (unq k), c :: t)) ∧
    (memberKeyW true (k ++ (w2 ++ 0x3a :: (w3 ++ c :: t)))).2 ≤ 6 * k.length + w2.length + w3.length + 12 := by
  have hd := (decodeStringW_le hk (w2 ++ 0x3a :: (w3 ++ c :: t)) (.string [])).1
  have he := decodeStringW_fst (k ++ (w2 ++ 0x3a :: (w3 ++ c :: t))) (.string [])
  rw [decodeString_ok hk] at he
  have hn : hasNullPrefix (k ++ (w2 ++ 0x3a :: (w3 ++ c :: t))) = false := by
    obtain ⟨t, rfl⟩ := JString.head hk; exact hasNull_cons (by decide)
  unfold memberKeyW
  simp only [if_true, hn, Bool.false_eq_true, if_false]
  revert hd he
  cases decodeStringW (k ++ (w2 ++ 0x3a :: (w3 ++ c :: t))) (.string []) with
  | mk x l =>
    intro hd he
    simp only [] at hd he
    subst he
    simp only [skipSpacesW_stop h2 (show isSpace 0x3a = false from by decide), skipSpacesW_stop h3 hc]
    rw [if_neg (by simp)]
    refine ⟨rfl, ?_⟩
    simp only []
    omega

theorem mapLoopW_close (dec : DecW) (input : Bytes) (n : Nat) (f : Bool) (m : List (MK × DV)) {w : Bytes} (hw : Ws w) (r : Bytes) :
    (mapLoopW dec input n f m (w ++ 0x7d :: r)).2 ≤ w.length + 2 := by
  cases n with
  | zero => simp [mapLoopW]
  | succ n =>
    simp only [mapLoopW, skipSpacesW_stop hw (show isSpace 0x7d = false from by decide)]
    simp

theorem mapLoopW_comma (dec : DecW) (input : Bytes) (n : Nat) (m : List (MK × DV)) {w : Bytes} (hw : Ws w) (b : Bytes)
    (hb : (skipSpaces b).head? = some 0x22) :
    (mapLoopW dec input n false m (w ++ 0x2c :: b)).2 ≤ w.length + 1 + (mapLoopW dec input n true m b).2 := by
  cases n with
  | zero => simp [mapLoopW]
  | succ n =>
    simp only [mapLoopW, skipSpacesW_stop hw (show isSpace 0x2c = false from by decide), skipSpacesW_fst]
    rw [if_neg (by simp), if_neg (by rw [hb]; decide)]
    have e : memberKeyW false (0x2c :: b) = tick (skipSpacesW b).2 (memberKeyW true (skipSpaces b)) := by
      unfold memberKeyW
      simp only [Bool.false_eq_true, if_false, if_true]
      rw [if_neg (by simp), skipSpacesW_fst]
    rw [e]
    cases memberKeyW true (skipSpaces b) with
    | mk x k =>
      rcases x with c | ⟨r, e⟩ | ⟨kv, b⟩ <;> simp only [tick, ] <;> omega

theorem members_le {dec : DecW} {k B : Nat} (hd : Per dec k B) {input : Bytes} {r : Bytes} : ∀ (ms : List (Bytes × Json)) (b : Bytes),
    Derives (.members ms) b → levelsM ms ≤ k → ∀ (n : Nat) (m : List (MK × DV)),
    (mapLoopW dec input n true m (b ++ 0x7d :: r)).2 ≤ (B + 14) * b.length + (parseValueW input).2 + 4 := by
  intro ms
  induction ms with
  | nil => intro b h; cases h
  | cons e ms ih =>
    intro m h hl n es
    cases n with
    | zero => simp [mapLoopW]
    | succ n =>
    cases h with
    | memOne w1 w2 w3 w4 key j b h1 h2 h3 h4 hk hj =>
      simp only [levelsM] at hl
      have hv := hd j b (w4 ++ 0x7d :: r) .ifaceNil hj (by omega) (follow_of_numStop (numStop_ws_cons h4 (by simp)))
      obtain ⟨c, t, hb, hc, _⟩ := derives_value_head hj
      obtain ⟨u, hu⟩ := JString.head hk
      have ek : w1 ++ key ++ w2 ++ 0x3a :: (w3 ++ b ++ w4) ++ 0x7d :: r = w1 ++ 0x22 :: (u ++ (w2 ++ 0x3a :: (w3 ++ c :: (t ++ (w4 ++ 0x7d :: r))))) := by
        rw [hb, hu]; simp
      have ek2 : 0x22 :: (u ++ (w2 ++ 0x3a :: (w3 ++ c :: (t ++ (w4 ++ 0x7d :: r))))) = key ++ (w2 ++ 0x3a :: (w3 ++ c :: (t ++ (w4 ++ 0x7d :: r)))) := by
        rw [hu]; simp
      have hm := memberKeyW_first hk h2 h3 hc (t ++ (w4 ++ 0x7d :: r))
      rw [ek]
      simp only [mapLoopW, skipSpacesW_stop h1 (show isSpace 0x22 = false from by decide)]
      rw [if_neg (by simp), ek2]
      revert hm
      generalize memberKeyW true (key ++ (w2 ++ 0x3a :: (w3 ++ c :: (t ++ (w4 ++ 0x7d :: r))))) = q
      obtain ⟨q, l⟩ := q
      rintro ⟨hq, hl2⟩
      simp only [] at hq hl2
      subst hq
      simp only [tick_snd]
      have eb : c :: (t ++ (w4 ++ 0x7d :: r)) = b ++ (w4 ++ 0x7d :: r) := by rw [hb]; simp
      rw [eb]
      have := elemW_le (d := dec (b ++ (w4 ++ 0x7d :: r)) .ifaceNil) (o := parseValueW input)
        (dest := fun _ => .map es) (next := fun v r => mapLoopW dec input n false (mapSet (keyOf (.string (unq key))) v es) r)
        (C := (parseValueW input).2 + w4.length + 2) ?_ (by omega)
      · have h2k : 2 ≤ key.length := by obtain ⟨s, hs⟩ := hk; simp
        simp only [List.length_append, List.length_cons, Nat.add_mul, Nat.mul_add] at *
        have := hv.1
        omega
      · intro x q hq
        rw [hv.2 x q hq]
        have := mapLoopW_close dec input n false (mapSet (keyOf (.string (unq key))) x es) h4 r
        omega
    | memCons w1 w2 w3 w4 key j b ms bs h1 h2 h3 h4 hk hj hms =>
      simp only [levelsM] at hl
      have hv := hd j b (w4 ++ 0x2c :: (bs ++ 0x7d :: r)) .ifaceNil hj (by omega) (follow_of_numStop (numStop_ws_cons h4 (by simp)))
      obtain ⟨c, t, hb, hc, _⟩ := derives_value_head hj
      obtain ⟨u, hu⟩ := JString.head hk
      have ek : w1 ++ key ++ w2 ++ 0x3a :: (w3 ++ b ++ w4 ++ 0x2c :: bs) ++ 0x7d :: r = w1 ++ 0x22 :: (u ++ (w2 ++ 0x3a :: (w3 ++ c :: (t ++ (w4 ++ 0x2c :: (bs ++ 0x7d :: r)))))) := by
        rw [hb, hu]; simp
      have ek2 : 0x22 :: (u ++ (w2 ++ 0x3a :: (w3 ++ c :: (t ++ (w4 ++ 0x2c :: (bs ++ 0x7d :: r)))))) = key ++ (w2 ++ 0x3a :: (w3 ++ c :: (t ++ (w4 ++ 0x2c :: (bs ++ 0x7d :: r))))) := by
        rw [hu]; simp
      have hm := memberKeyW_first hk h2 h3 hc (t ++ (w4 ++ 0x2c :: (bs ++ 0x7d :: r)))
      rw [ek]
      simp only [mapLoopW, skipSpacesW_stop h1 (show isSpace 0x22 = false from by decide)]
      rw [if_neg (by simp), ek2]
      revert hm
      generalize memberKeyW true (key ++ (w2 ++ 0x3a :: (w3 ++ c :: (t ++ (w4 ++ 0x2c :: (bs ++ 0x7d :: r)))))) = q
      obtain ⟨q, l⟩ := q
      rintro ⟨hq, hl2⟩
      simp only [] at hq hl2
      subst hq
      simp only [tick_snd]
      have eb : c :: (t ++ (w4 ++ 0x2c :: (bs ++ 0x7d :: r))) = b ++ (w4 ++ 0x2c :: (bs ++ 0x7d :: r)) := by rw [hb]; simp
      rw [eb]
      have := elemW_le (d := dec (b ++ (w4 ++ 0x2c :: (bs ++ 0x7d :: r))) .ifaceNil) (o := parseValueW input)
        (dest := fun _ => .map es) (next := fun v r => mapLoopW dec input n false (mapSet (keyOf (.string (unq key))) v es) r)
        (C := w4.length + 1 + ((B + 14) * bs.length + (parseValueW input).2 + 4)) ?_ (by omega)
      · have h2k : 2 ≤ key.length := by obtain ⟨s, hs⟩ := hk; simp
        simp only [List.length_append, List.length_cons, Nat.add_mul, Nat.mul_add] at *
        have := hv.1
        omega
      · intro x q hq
        rw [hv.2 x q hq]
        obtain ⟨t', ht'⟩ := derives_members_head hms (0x7d :: r)
        have g1 := mapLoopW_comma dec input n (mapSet (keyOf (.string (unq key))) x es) h4 (bs ++ 0x7d :: r) (by rw [ht']; rfl)
        have g2 := ih bs hms (by omega) n (mapSet (keyOf (.string (unq key))) x es)
        omega

/-! values -/

theorem parseValueW_value {j : Json} {v r : Bytes} (hv : Derives (.value j) v) (hf : Follow j r) :
    ∃ k, parseValueW (v ++ r) = (.ok v r, k) ∧ k + 2 ≤ 10 * v.length ∧ v.length ≤ k := by
  have h := parseValueW_lin (v ++ r)
  have e := parseValueW_fst (v ++ r)
  rw [parseValue_complete hv hf] at e
  revert h e
  cases parseValueW (v ++ r) with
  | mk x k =>
    intro h e
    simp only [] at e
    subst e
    obtain ⟨h1, h2, h3⟩ := h
    simp only [List.length_append] at h1 h2 h3
    exact ⟨k, rfl, by omega, by omega⟩

theorem ifaceValueW_per (c : DCfg) : ∀ n k, Per (ifaceValueW c n) k (50 * k) := by
  intro n
  induction n with
  | zero => intro k j b r p hj hl hf; simp [ifaceValueW]
  | succ n ih =>
    intro k j v r p hj hl hf
    constructor
    · obtain ⟨k1, hk1, hk2, _⟩ := parseValueW_value hj hf
      obtain ⟨k0, hk0, hk3, _⟩ := parseValueW_value hj (r := []) (follow_of_numStop (numStop_ws .nil))
      rw [List.append_nil] at hk0
      have hlev : 1 ≤ levels j := by cases j <;> simp [levels]
      have hmul : 50 * v.length ≤ 50 * k * v.length := Nat.mul_le_mul_right _ (by omega)
      rw [ifaceValueW]
      simp only [hk1]
      cases hj with
      | null =>
        simp only [List.length_cons, List.length_nil] at *
        rw [if_neg (by decide), if_neg (by decide), if_neg (by decide), if_pos (by decide)]
        split <;> simp only [] <;> omega
      | tru =>
        simp only [List.length_cons, List.length_nil] at *
        rw [if_neg (by decide), if_neg (by decide), if_neg (by decide), if_neg (by decide), if_pos (by decide)]
        simp only []; omega
      | fls =>
        simp only [List.length_cons, List.length_nil] at *
        rw [if_neg (by decide), if_neg (by decide), if_neg (by decide), if_neg (by decide), if_pos (by decide)]
        simp only []; omega
      | num s hs =>
        have hn : (parseNumberW v).2 ≤ 10 * v.length + 9 := by
          have := parseNumberW_lin v
          revert this
          cases parseNumberW v with
          | mk x l =>
            cases x with
            | ok _ q => rintro ⟨_, h, _⟩; simp only [] at h ⊢; omega
            | fail _ _ => intro h; exact h
        obtain ⟨ch, t, rfl, hc⟩ := jnumber_head hs
        have hne : ch ≠ 123 ∧ ch ≠ 91 ∧ ch ≠ 34 ∧ ch ≠ 110 ∧ ¬ (ch = 116 ∨ ch = 102) := by
          rcases hc with rfl | hc
          · decide
          · unfold Digit at hc
            simp only [UInt8.le_iff_toNat_le, ← UInt8.toNat_inj, ne_eq, UInt8.reduceToNat] at *
            omega
        have hp : 1 ≤ (ch :: t).length := by simp
        simp only []
        rw [if_neg hne.1, if_neg hne.2.1, if_neg hne.2.2.1, if_neg hne.2.2.2.1, if_neg hne.2.2.2.2]
        split
        · split <;> simp only [] <;> omega
        · simp only []; omega
      | str s hs =>
        have hd := (decodeStringW_le hs [] (.string [])).1
        rw [List.append_nil] at hd
        obtain ⟨t, rfl⟩ := JString.head hs
        have hp : 1 ≤ ((0x22 : UInt8) :: t).length := by simp
        simp only []
        rw [if_neg (by decide), if_neg (by decide), if_pos (by decide)]
        simp only []
        omega
      | arrNil w hw =>
        simp only []
        rw [if_neg (by decide), if_pos (by decide)]
        simp only [decodeSliceW]
        rw [if_neg (by simp [hasNull_cons])]
        rw [if_neg (by simp), tick_snd]
        have := sliceLoopW_close (ifaceValueW c n) (0x5b :: (w ++ [0x5d])) ((0x5b :: (w ++ [0x5d])).length + 1) [] [] hw []
        simp only [List.length_cons, List.length_append, List.length_nil] at *
        omega
      | arr xs b h =>
        simp only []
        rw [if_neg (by decide), if_pos (by decide)]
        simp only [decodeSliceW]
        rw [if_neg (by simp [hasNull_cons])]
        rw [if_neg (by simp), tick_snd]
        obtain ⟨d, t, hd, _, hd2⟩ := derives_elems_head h [0x5d]
        have hk : 1 ≤ k := by omega
        obtain ⟨k', rfl⟩ : ∃ k', k = k' + 1 := ⟨k - 1, by omega⟩
        simp only [levels] at hl
        have := elems_le (ih k') (input := 0x5b :: (b ++ [0x5d])) (r := []) xs b h (by omega) (0x5b :: (b ++ [0x5d])).length [] []
        simp only [sliceLoopW, skipSpacesW_fst]
        rw [if_neg (by rw [hd]; simpa using hd2), if_pos (by simp), tick_snd]
        rw [hk0] at this ⊢
        simp only [List.nil_append] at this ⊢
        simp only [List.length_cons, List.length_append, List.length_nil, Nat.add_mul, Nat.mul_add] at *
        omega
      | objNil w hw =>
        simp only []
        rw [if_pos (by decide)]
        simp only [decodeMapW]
        rw [if_neg (by simp [hasNull_cons])]
        rw [if_neg (by simp), tick_snd]
        have := mapLoopW_close (ifaceValueW c n) (0x7b :: (w ++ [0x7d])) ((0x7b :: (w ++ [0x7d])).length + 1) true [] hw []
        simp only [List.length_cons, List.length_append, List.length_nil] at *
        omega
      | obj ms b h =>
        simp only []
        rw [if_pos (by decide)]
        simp only [decodeMapW]
        rw [if_neg (by simp [hasNull_cons])]
        rw [if_neg (by simp), tick_snd]
        obtain ⟨k', rfl⟩ : ∃ k', k = k' + 1 := ⟨k - 1, by omega⟩
        simp only [levels] at hl
        have := members_le (ih k') (input := 0x7b :: (b ++ [0x7d])) (r := []) ms b h (by omega) ((0x7b :: (b ++ [0x7d])).length + 1) []
        rw [hk0] at this
        simp only [List.length_cons, List.length_append, List.length_nil, Nat.add_mul, Nat.mul_add] at *
        omega
    · intro x q h
      have : ifaceValue c (n + 1) (v ++ r) p = .ok x q := by rw [← ifaceValueW_fst]; exact h
      obtain ⟨w, e⟩ := ifaceValue_rest this
      rw [parseValue_complete hj hf] at e
      injection e with _ e
      exact e.symm

/-- The steps after the value has been parsed do not depend on what follows it. -/
theorem ifaceValueW_cut (c : DCfg) (n : Nat) {b v r : Bytes} {k k0 : Nat} (p : DV) (h : parseValueW b = (.ok v r, k))
    (h0 : parseValueW v = (.ok v [], k0)) : (ifaceValueW c (n + 1) b p).2 + k0 = (ifaceValueW c (n + 1) v p).2 + k := by
  simp only [ifaceValueW, h, h0]
  cases v with
  | nil => simp only []; omega
  | cons ch t =>
    simp only []
    split
    · simp only []; omega
    · split
      · simp only []; omega
      · split
        · simp only []; omega
        · split
          · cases decodeNull (ch :: t) .ifaceNil <;> simp only [] <;> omega
          · split
            · simp only []; omega
            · split
              · split <;> simp only [] <;> omega
              · simp only []; omega

theorem ifaceEnd_tail {t : Ty} {b : Bytes} {d : DRes} {x : DV} {r : Bytes} {e : Err} (h : ifaceEnd t b d = .err x r e) : r = b := by
  unfold ifaceEnd at h
  split at h
  · simp at h
  · injection h with _ h; exact h.symm
  · split at h
    · injection h with _ h; exact h.symm
    · simp at h

theorem ifaceValue_tail {c : DCfg} {n : Nat} {b : Bytes} {p x : DV} {r : Bytes} {e : Err} (h : ifaceValue c n b p = .err x r e) :
    r <:+ b := by
  cases n with
  | zero => simp [ifaceValue] at h
  | succ n =>
    rw [ifaceValue] at h
    simp only [] at h
    split at h
    · rename_i hp
      injection h with _ h
      subst h
      exact parseValue_tail hp
    · rename_i v b1 hp
      have hs := parseValue_suf hp
      split at h
      · simp at h
      · split at h
        · rw [ifaceEnd_tail h]; exact hs
        · split at h
          · rw [ifaceEnd_tail h]; exact hs
          · split at h
            · rw [ifaceEnd_tail h]; exact hs
            · split at h
              · split at h
                · simp at h
                · injection h with _ h; rw [← h]; exact hs
                · split at h
                  · injection h with _ h; rw [← h]; exact hs
                  · simp at h
              · split at h
                · rw [ifaceEnd_tail h]; exact hs
                · split at h
                  · split at h <;> (rw [ifaceEnd_tail h]; exact hs)
                  · injection h with _ h; rw [← h]; exact hs

theorem unmarshalAnyW_le (c : DCfg) (b : Bytes) {K : Nat} (h : (ifaceValueW c ((skipSpaces b).length + 1) (skipSpaces b) .ifaceNil).2 ≤ K) :
    (unmarshalAnyW c b).2 ≤ K + b.length + 2 := by
  have hs := skipSpacesW_snd b
  have hl := ifaceValueW_fst c ((skipSpaces b).length + 1)
  have hl' := congrFun (congrFun hl (skipSpaces b)) .ifaceNil
  simp only [DecW.plain] at hl'
  unfold unmarshalAnyW
  simp only [skipSpacesW_fst]
  revert h hl'
  cases ifaceValueW c ((skipSpaces b).length + 1) (skipSpaces b) .ifaceNil with
  | mk x k =>
    intro h e1
    simp only [] at h e1
    cases x with
    | crash x => simp only []; omega
    | ok x r =>
      obtain ⟨v, hv⟩ := ifaceValue_rest e1.symm
      have := (parseValue_suf hv).length_le
      have := skipSpacesW_snd r
      simp only []; omega
    | err x r e =>
      have := (ifaceValue_tail e1.symm).length_le
      have := skipSpacesW_snd r
      simp only []; omega

/-- The steps for a value and whatever follows it. -/
theorem ifaceValueW_any (c : DCfg) (n : Nat) {b v r : Bytes} (p : DV) (h : parseValue b = .ok v r) :
    ∃ j, Derives (.value j) v ∧ (ifaceValueW c n b p).2 ≤ 60 * levels j * v.length := by
  obtain ⟨e, j, hj⟩ := parseValue_sound h
  refine ⟨j, hj, ?_⟩
  cases n with
  | zero => simp [ifaceValueW]
  | succ n =>
    obtain ⟨k0, hk0, _, _⟩ := parseValueW_value hj (r := []) (follow_of_numStop (numStop_ws .nil))
    have hp := (ifaceValueW_per c (n + 1) (levels j) j v [] p hj (Nat.le_refl _) (follow_of_numStop (numStop_ws .nil))).1
    rw [List.append_nil] at hk0 hp
    have hl := parseValueW_lin b
    have ef := parseValueW_fst b
    rw [h] at ef
    have hlev : 1 ≤ levels j := by cases j <;> simp [levels]
    have hmul : 10 * v.length ≤ 10 * levels j * v.length := Nat.mul_le_mul_right _ (by omega)
    have h60 : 60 * levels j * v.length = 50 * levels j * v.length + 10 * levels j * v.length := by
      rw [← Nat.add_mul, ← Nat.add_mul]
    revert hl ef
    rcases hb : parseValueW b with ⟨x, k⟩
    intro hl ef
    simp only [] at ef
    subst ef
    have := ifaceValueW_cut c n p hb hk0
    obtain ⟨_, h2, _⟩ := hl
    simp only [] at h2
    have : b.length = v.length + r.length := by rw [e]; simp
    omega

/-- The levels of a document are opened by bytes of their own. -/
theorem levels_le_length {S : Sym} {b : Bytes} (h : Derives S b) :
    match S with
    | .value j => levels j ≤ b.length
    | .elems xs => levelsL xs ≤ b.length
    | .members ms => levelsM ms ≤ b.length := by
  induction h with
  | null => simp [levels]
  | tru => simp [levels]
  | fls => simp [levels]
  | num s hs => obtain ⟨c, t, rfl, _⟩ := jnumber_head hs; simp [levels]
  | str s hs => obtain ⟨t, rfl⟩ := JString.head hs; simp [levels]
  | arrNil w hw => simp [levels, levelsL]
  | arr xs b h ih => simp only [levels, List.length_cons, List.length_append] at *; omega
  | objNil w hw => simp [levels, levelsM]
  | obj ms b h ih => simp only [levels, List.length_cons, List.length_append] at *; omega
  | elemOne => simp only [levelsL, List.length_append] at *; omega
  | elemCons => simp only [levelsL, List.length_append, List.length_cons] at *; omega
  | memOne => simp only [levelsM, List.length_append, List.length_cons] at *; omega
  | memCons => simp only [levelsM, List.length_append, List.length_cons] at *; omega

/-! the bound by levels is met -/

theorem elemW_ge (d : DRes × Nat) (o : PR × Nat) (dest : DV → DV) (next : DV → Bytes → DRes × Nat) :
    d.2 ≤ (elemW d o dest next).2 := by
  obtain ⟨d, l⟩ := d
  cases d with
  | crash c => simp [elemW]
  | err x r e =>
    obtain ⟨o, k⟩ := o
    cases o <;> simp [elemW]
  | ok x r => simp [elemW, tick_snd]

theorem tower_arr : ∀ k, ∃ xs, Derives (.value (.arr xs)) (tower (k + 1))
  | 0 => ⟨[], .arrNil [] (by intro c hc; contradiction)⟩
  | k + 1 => by
    obtain ⟨j, hj⟩ := tower_arr k
    have nil : Ws [] := by intro c hc; contradiction
    have he := Derives.elemOne [] [] _ _ nil nil hj
    rw [List.nil_append, List.append_nil] at he
    exact ⟨_, .arr _ _ he⟩

theorem tower_len : ∀ k, (tower k).length = 2 * k
  | 0 => rfl
  | k + 1 => by simp [tower, tower_len k]; omega

theorem ifaceValueW_tower (c : DCfg) : ∀ k n r p, k + 1 ≤ n → (k + 1) * (k + 2) ≤ (ifaceValueW c n (tower (k + 1) ++ r) p).2 := by
  intro k
  induction k with
  | zero =>
    intro n r p hn
    obtain ⟨n, rfl⟩ : ∃ m, n = m + 1 := ⟨n - 1, by omega⟩
    obtain ⟨xs, hj⟩ := tower_arr 0
    obtain ⟨kk, hk, _, hl⟩ := parseValueW_value hj (r := r) trivial
    rw [tower_len] at hl
    simp only [ifaceValueW, hk]
    simp only [tower]
    rw [if_neg (by decide), if_pos (by decide)]
    simp only []
    omega
  | succ k ih =>
    intro n r p hn
    obtain ⟨n, rfl⟩ : ∃ m, n = m + 1 := ⟨n - 1, by omega⟩
    obtain ⟨xs, hj⟩ := tower_arr (k + 1)
    obtain ⟨kk, hk, _, hl⟩ := parseValueW_value hj (r := r) trivial
    rw [tower_len] at hl
    have hi := ih n [0x5d] .ifaceNil (by omega)
    simp only [ifaceValueW, hk]
    have et : tower (k + 1 + 1) = 0x5b :: (tower (k + 1) ++ [0x5d]) := rfl
    rw [et]
    simp only []
    rw [if_neg (by decide), if_pos (by decide)]
    simp only [decodeSliceW]
    rw [if_neg (by simp [hasNull_cons]), if_neg (by simp), tick_snd]
    have eh : tower (k + 1) ++ [0x5d] = 0x5b :: (tower k ++ [0x5d] ++ [0x5d]) := rfl
    have es : skipSpaces (tower (k + 1) ++ [0x5d]) = tower (k + 1) ++ [0x5d] := by rw [eh]; rfl
    simp only [sliceLoopW, skipSpacesW_fst, es]
    rw [if_neg (by rw [eh]; simp), if_pos (by simp), tick_snd]
    have := elemW_ge (ifaceValueW c n (tower (k + 1) ++ [0x5d]) .ifaceNil) (parseValueW (0x5b :: (tower (k + 1) ++ [0x5d])))
      (fun x => .slice [] [x]) fun x r => sliceLoopW (ifaceValueW c n) (0x5b :: (tower (k + 1) ++ [0x5d]))
        (0x5b :: (tower (k + 1) ++ [0x5d])).length [x] [] r
    simp only [List.headD_nil, List.tail_nil, List.nil_append]
    have e1 : (k + 1 + 1) * (k + 1 + 2) = (k + 1) * (k + 2) + 2 * (k + 2) := by
      simp only [Nat.add_mul, Nat.mul_add]; omega
    omega

end JC

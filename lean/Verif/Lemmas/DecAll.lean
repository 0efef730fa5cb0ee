import Verif.Lemmas.DecPres
/-! Agreement of the remaining decoders with the tree-level decoders, and of whole
types. -/
namespace JC
open Spec Props

theorem RefP.mono {P : DV → Prop} {N N' : Nat} {dec : Dec} {f : JDec} (h : RefP P N dec f) (hn : N' ≤ N) : RefP P N' dec f :=
  fun j v hj hN => h j v hj (Nat.lt_of_lt_of_le hN hn)

/-! ### pointers -/

theorem ptr_ref {P : DV → Prop} {N : Nat} {dec : Dec} {f : JDec} {z : DV} (hd : RefP P N dec f) (hz : P z)
    (PS : DV → Prop) (hnil : PS .ptrNil) (hs : ∀ v, PS (.ptr v) ↔ P v) (e : Bool) :
    RefP PS N (decodePointer e dec z) (ptrJ e f z) := by
  intro j v hj hN r hf p hp
  have hnp := hasNull_value hj r
  have sub : ∀ q, P q → (∀ x, (f j q).map DV.ptr = some x → PS x ∧ ∃ r', (dec (v ++ r) q).map .ptr = .ok x r' ∧ (r' = r ∨ r' = skipSpaces r)) ∧
      ((f j q).map DV.ptr = none → ∀ x r', (dec (v ++ r) q).map .ptr ≠ .ok x r') := by
    intro q hq
    obtain ⟨h1, h2⟩ := hd j v hj hN r hf q hq
    cases hx : f j q with
    | none =>
      refine ⟨by simp, fun _ x r' e => ?_⟩
      obtain ⟨y, ey, _⟩ := map_okD e
      exact h2 hx _ _ ey
    | some y =>
      obtain ⟨hy, r', ey, hr⟩ := h1 y hx
      refine ⟨?_, by simp⟩
      intro x hx
      simp only [Option.map_some, Option.some.injEq] at hx
      subst hx
      exact ⟨(hs _).2 hy, r', by rw [ey]; rfl, hr⟩
  have hq : P (ptrMem z p) := by
    cases p <;> simp [ptrMem] <;> try exact hz
    exact (hs _).1 hp
  cases hn : isNullJ j with
  | false =>
    have e1 : decodePointer e dec z (v ++ r) p = (dec (v ++ r) (ptrMem z p)).map .ptr := by
      unfold decodePointer; rw [hnp, hn]; cases p <;> rfl
    have e2 : ptrJ e f z j p = (f j (ptrMem z p)).map .ptr := by
      unfold ptrJ; rw [hn]; cases p <;> rfl
    rw [e1, e2]
    exact sub _ hq
  | true =>
    have hv := derives_null (by have := isNullJ_iff.1 hn; subst this; exact hj)
    by_cases hptr : (∃ w, p = .ptr w) ∧ e = true
    · obtain ⟨⟨w, rfl⟩, rfl⟩ := hptr
      have e1 : decodePointer true dec z (v ++ r) (.ptr w) = (dec (v ++ r) w).map .ptr := by
        unfold decodePointer; rw [hnp, hn]; rfl
      have e2 : ptrJ true f z j (.ptr w) = (f j w).map .ptr := by
        unfold ptrJ; rw [hn]; rfl
      rw [e1, e2]
      exact sub _ hq
    · have e1 : decodePointer e dec z (v ++ r) p = .ok .ptrNil r := by
        unfold decodePointer; rw [hnp, hn]
        have : (v ++ r).drop 4 = r := by rw [hv]; rfl
        rw [this]
        cases p <;> try rfl
        cases e
        · rfl
        · exact absurd ⟨⟨_, rfl⟩, rfl⟩ hptr
      have e2 : ptrJ e f z j p = some .ptrNil := by
        unfold ptrJ; rw [hn]
        cases p <;> try rfl
        cases e
        · rfl
        · exact absurd ⟨⟨_, rfl⟩, rfl⟩ hptr
      rw [e1, e2]
      simp only [Option.some.injEq, reduceCtorEq, false_implies, and_true]
      rintro x rfl
      exact ⟨hnil, r, rfl, .inl rfl⟩

/-! ### the string option -/

theorem quoted_ref {P : DV → Prop} {N : Nat} {dec q : Dec} {f : JDec} (hd : RefP P N dec f)
    (hnull : ∀ b p, hasNullPrefix b = true → q b p = dec b p)
    (hstr : ∀ k r p, JString k → (∀ x, okOf (q k p) = some x → q (k ++ r) p = .ok x r) ∧
      (okOf (q k p) = none → ∀ x r', q (k ++ r) p ≠ .ok x r'))
    (hP : ∀ k p x, JString k → P p → okOf (q k p) = some x → P x)
    (hother : ∀ j v r p, Derives (.value j) v → (∀ s, j ≠ .str s) → j ≠ .null → ∀ x r', q (v ++ r) p ≠ .ok x r') :
    RefP P N q (quotedJ q f) := by
  intro j v hj hN r hf p hp
  have hnp := hasNull_value hj r
  by_cases hn : j = .null
  · subst hn
    rw [hnull _ _ (by rw [hnp]; rfl)]
    exact hd _ v hj hN r hf p hp
  · by_cases hs : ∃ s, j = .str s
    · obtain ⟨s, rfl⟩ := hs
      cases hj with
      | str _ hs =>
        obtain ⟨h1, h2⟩ := hstr v r p hs
        exact ⟨fun x hx => ⟨hP v p x hs hp hx, r, h1 x hx, .inl rfl⟩, h2⟩
    · have e : quotedJ q f j p = none := by
        cases j <;> first | rfl | exact absurd rfl hn | exact absurd ⟨_, rfl⟩ hs
      rw [e]
      exact ⟨by simp, fun _ => hother j v r p hj (fun s h => hs ⟨s, h⟩) hn⟩

theorem fromString_other (dec : Dec) {j : Json} {v : Bytes} (r : Bytes) (p : DV) (hj : Derives (.value j) v) (hs : ∀ s, j ≠ .str s)
    (hn : j ≠ .null) : ∀ x r', decodeFromString dec (v ++ r) p ≠ .ok x r' := by
  intro x r'
  have hnp := hasNull_value hj r
  have : isNullJ j = false := by cases j <;> first | rfl | exact absurd rfl hn
  unfold decodeFromString
  rw [hnp, this]
  simp only [Bool.false_eq_true, if_false]
  split
  · simp
  · exact inputErr_ne
  · rename_i e; exact absurd e (unquote_other hj hs r _ _ _)

theorem fromStringToInt_other (l : Lib) (dec : Dec) {j : Json} {v : Bytes} (r : Bytes) (p : DV) (hj : Derives (.value j) v) (hs : ∀ s, j ≠ .str s)
    (hn : j ≠ .null) : ∀ x r', decodeFromStringToInt l dec (v ++ r) p ≠ .ok x r' := by
  intro x r'
  have hnp := hasNull_value hj r
  have : isNullJ j = false := by cases j <;> first | rfl | exact absurd rfl hn
  obtain ⟨c, t, e, hc⟩ := derives_head hj
  have hq : c ≠ 0x22 := by
    rintro rfl
    cases j <;> simp [headOk] at hc hs
    exact absurd hc (by decide)
  unfold decodeFromStringToInt
  rw [hnp, this]
  simp only [Bool.false_eq_true, if_false]
  rw [if_pos (by rw [e]; simp [hq])]
  simp

/-! ### bytes -/

theorem bytes_ref {Q : Ty → Prop} {m N : Nat} : RefP (Held Q · m) N decodeBytes bytesJ := by
  intro j v hj hN r hf p hp
  have hnp := hasNull_value hj r
  have other : ∀ c t, v = c :: t → c ≠ 0x22 → c ≠ 0x5b → isNullJ j = false → ∀ x r', decodeBytes (v ++ r) p ≠ .ok x r' := by
    intro c t e h1 h2 hn x r'
    unfold decodeBytes
    rw [hnp, hn]
    simp only [Bool.false_eq_true, if_false]
    rw [e]
    simp only [List.cons_append]
    rw [if_pos h1, if_neg h2]
    split <;> exact inputErr_ne
  have arr : ∀ u, v = 0x5b :: (u ++ [0x5d]) → (∃ xs, j = .arr xs) →
      (∀ x, bytesJ j p = some x → Held Q x m ∧ ∃ r', decodeBytes (v ++ r) p = .ok x r' ∧ (r' = r ∨ r' = skipSpaces r)) ∧
      (bytesJ j p = none → ∀ x r', decodeBytes (v ++ r) p ≠ .ok x r') := by
    intro u e hx
    obtain ⟨xs, rfl⟩ := hx
    have hq : ∀ q : DV, ((q = .sliceNil ∧ ∀ s sp, p ≠ .bytes s sp) ∨ ∃ s sp, p = .bytes s sp ∧ q = DV.slice (s.map byteDV) (sp.map byteDV)) →
        decodeBytes (v ++ r) p = (decodeSlice (decodeInt .uint8) (.int 0) (v ++ r) q).map (fun
          | .slice xs sp => .bytes (xs.map dvByte) (sp.map dvByte)
          | _ => .bytesNil) ∧
        bytesJ (.arr xs) p = (sliceTyJ (intJ .uint8) (.int 0) (.arr xs) q).map (fun
          | .slice xs sp => .bytes (xs.map dvByte) (sp.map dvByte)
          | _ => .bytesNil) ∧ Held Q q m := by
      intro q hq
      refine ⟨?_, ?_, ?_⟩
      · unfold decodeBytes
        rw [hnp]
        simp only [isNullJ, Bool.false_eq_true, if_false]
        rw [e]
        simp only [List.cons_append]
        rw [if_neg (by simp; omega), if_pos (by decide), if_pos trivial]
        rcases hq with ⟨rfl, hq⟩ | ⟨s, sp, rfl, rfl⟩
        · cases p <;> first | rfl | exact absurd rfl (hq _ _)
        · rfl
      · rcases hq with ⟨rfl, hq⟩ | ⟨s, sp, rfl, rfl⟩
        · cases p <;> first | rfl | exact absurd rfl (hq _ _)
        · rfl
      · rcases hq with ⟨rfl, hq⟩ | ⟨s, sp, rfl, rfl⟩
        · simp [Held]
        · simp only [Held, heldL_iff]
          constructor <;> (intro x hx; obtain ⟨a, _, rfl⟩ := List.mem_map.1 hx; simp [byteDV, Held])
    obtain ⟨q, hq'⟩ : ∃ q : DV, ((q = .sliceNil ∧ ∀ s sp, p ≠ .bytes s sp) ∨ ∃ s sp, p = .bytes s sp ∧ q = DV.slice (s.map byteDV) (sp.map byteDV)) := by
      by_cases hb : ∃ s sp, p = .bytes s sp
      · obtain ⟨s, sp, rfl⟩ := hb
        exact ⟨_, .inr ⟨s, sp, rfl, rfl⟩⟩
      · exact ⟨_, .inl ⟨rfl, fun s sp h => hb ⟨s, sp, h⟩⟩⟩
    obtain ⟨e1, e2, hh⟩ := hq q hq'
    rw [e1, e2]
    have sr := slice_ref (int_ref (Q := Q) (m := m) (N := N) .uint8) (z := .int 0) (by simp [Held]) (Held Q · m) (by simp [Held])
      (by intro d s; simp [Held, heldL_iff])
    obtain ⟨h1, h2⟩ := sr _ v hj (by omega) r hf q hh
    cases hx : sliceTyJ (intJ .uint8) (.int 0) (.arr xs) q with
    | none =>
      refine ⟨by simp, fun _ x r' e => ?_⟩
      obtain ⟨y, ey, _⟩ := map_okD e
      exact h2 hx _ _ ey
    | some y =>
      obtain ⟨hy, r', ey, hr⟩ := h1 y hx
      refine ⟨?_, by simp⟩
      intro x hx
      simp only [Option.map_some, Option.some.injEq] at hx
      subst hx
      refine ⟨?_, r', by rw [ey]; rfl, hr⟩
      split <;> simp [Held]
  cases hj with
  | null =>
    refine ⟨?_, by simp [bytesJ]⟩
    intro x hx
    simp only [bytesJ, Option.some.injEq] at hx
    subst hx
    refine ⟨by simp [Held], r, ?_, .inl rfl⟩
    unfold decodeBytes
    rw [hnp]; simp [isNullJ]
  | num s hs =>
    obtain ⟨c, t, e, hc⟩ := jnumber_head hs
    exact ⟨by simp [bytesJ], fun _ => other c t e (digit_range hc).2.2.2.1 (digit_range hc).2.2.2.2.1 rfl⟩
  | tru => exact ⟨by simp [bytesJ], fun _ => other _ _ rfl (by decide) (by decide) rfl⟩
  | fls => exact ⟨by simp [bytesJ], fun _ => other _ _ rfl (by decide) (by decide) rfl⟩
  | objNil => exact ⟨by simp [bytesJ], fun _ => other _ _ rfl (by decide) (by decide) rfl⟩
  | obj => exact ⟨by simp [bytesJ], fun _ => other _ _ rfl (by decide) (by decide) rfl⟩
  | str s hs =>
    obtain ⟨n, e⟩ := unquote_ok hs r
    have : decodeBytes (v ++ r) p = match b64Decode (unq v) with
        | none => .err p r (.other 0)
        | some s => .ok (.bytes s []) r := by
      have h2 : ¬ (v ++ r).length < 2 := by
        obtain ⟨u, hu⟩ := hs; simp; omega
      have h3 : ∃ t, v ++ r = 0x22 :: t := by
        obtain ⟨t, rfl⟩ := jstring_head hs; exact ⟨_, rfl⟩
      obtain ⟨t, h3⟩ := h3
      unfold decodeBytes
      rw [hnp]
      rw [h3] at e h2 ⊢
      simp only [isNullJ, Bool.false_eq_true, if_false]
      rw [if_neg h2, if_neg (by simp), e]
      simp only []
      cases b64Decode (unq v) <;> rfl
    rw [this]
    simp only [bytesJ]
    cases b64Decode (unq v) <;> simp [Held]
  | arrNil w hw => exact arr w rfl ⟨_, rfl⟩
  | arr xs b hb => exact arr b rfl ⟨_, rfl⟩

/-! ### interfaces -/

theorem members_keys {s : Sym} {u : Bytes} (h : Derives s u) : ∀ ms, s = .members ms → ∀ kj ∈ ms, JString kj.1 := by
  induction h with
  | memOne w1 w2 w3 w4 k j b _ _ _ _ hk =>
    intro ms e kj hm
    injection e with e; subst e
    simp only [List.mem_singleton] at hm; subst hm; exact hk
  | memCons w1 w2 w3 w4 k j b ms' bs _ _ _ _ hk _ _ _ ih =>
    intro ms e kj hm
    injection e with e; subst e
    rcases List.mem_cons.1 hm with rfl | hm
    · exact hk
    · exact ih _ rfl kj hm
  | _ => intro ms e; cases e

theorem keyJ_str {raw : Bytes} (h : JString raw) : keyJ .str raw = some (.str (unq raw)) := by
  have := decodeString_ok h [] (.string [])
  rw [List.append_nil] at this
  have hn : hasNullPrefix raw = false := by
    obtain ⟨t, rfl⟩ := jstring_head h; exact hasNull_cons (by decide)
  simp [keyJ, hn, decodeKey, this, okOf, keyOf]

theorem sliceJ_gen (c : DCfg) (z : DV) : ∀ (xs : List Json) (done : List DV),
    sliceJ (fun j _ => genJ c j) z done xs [] = (genE c xs).map fun vs => .slice (done ++ vs) [] := by
  intro xs
  induction xs with
  | nil => intro done; simp [sliceJ, genE]
  | cons j xs ih =>
    intro done
    simp only [sliceJ, genE, List.headD_nil, List.tail_nil]
    cases genJ c j with
    | none => rfl
    | some x =>
      simp only [ih, Option.map_map]
      cases genE c xs <;> simp

theorem mapJ_gen (c : DCfg) (z : DV) : ∀ (ms : List (Bytes × Json)), (∀ kj ∈ ms, JString kj.1) → ∀ m,
    mapJ .str (fun j _ => genJ c j) z ms m = genM c ms m := by
  intro ms
  induction ms with
  | nil => intro _ m; simp [mapJ, genM]
  | cons kj ms ih =>
    obtain ⟨raw, j⟩ := kj
    intro hk m
    simp only [mapJ, genM, keyJ_str (hk (raw, j) (by simp))]
    cases genJ c j with
    | none => rfl
    | some x => exact ih (fun kj h => hk kj (List.mem_cons_of_mem _ h)) _

theorem held_gen {Q : Ty → Prop} {m : Nat} {c : DCfg} {j : Json} {x : DV} (h : genJ c j = some x) : Held Q x m := by
  cases j <;> simp only [genJ] at h
  case num s =>
    split at h
    · injection h with h; subst h; simp [Held]
    · cases hp : c.lib.parseFloat false s <;> rw [hp] at h <;> simp at h
      subst h; simp [Held]
  case arr xs => cases hp : genE c xs <;> rw [hp] at h <;> simp at h; subst h; simp [Held]
  case obj xs => cases hp : genM c xs [] <;> rw [hp] at h <;> simp at h; subst h; simp [Held]
  all_goals (injection h with h; subst h; simp [Held])

/-- an inner decoder that uses up its input, seen through `ifaceEnd` -/
theorem ifaceEnd_ok {t : Ty} {b r : Bytes} {x : DV} {d : DRes} (e : d = .ok x r) (hr : r = [] ∨ r = skipSpaces []) :
    ifaceEnd t b d = .ok (.iface t x) b := by
  subst e
  have : skipSpaces r = [] := by rcases hr with rfl | rfl <;> rfl
  simp [ifaceEnd, this]

theorem ifaceEnd_no {t : Ty} {b : Bytes} {d : DRes} (h : ∀ x r, d ≠ .ok x r) : ∀ x r, ifaceEnd t b d ≠ .ok x r := by
  intro x r
  unfold ifaceEnd
  cases d with
  | crash => simp
  | err => simp
  | ok y q => exact absurd rfl (h y q)

theorem skip_nil : skipSpaces [] = [] := rfl

theorem follow_nil (j : Json) : Follow j [] := follow_of_numStop NumStop.nil

theorem ifaceEnd_ref {P : DV → Prop} {N : Nat} {dec : Dec} {f : JDec} (hd : RefP P N dec f) {j : Json} {v : Bytes}
    (hj : Derives (.value j) v) (hN : v.length < N) {q : DV} (hq : P q) (t : Ty) (r : Bytes) :
    (∀ x, f j q = some x → ifaceEnd t r (dec v q) = .ok (.iface t x) r) ∧
    (f j q = none → ∀ x r', ifaceEnd t r (dec v q) ≠ .ok x r') := by
  obtain ⟨h1, h2⟩ := hd j v hj hN [] (follow_nil j) q hq
  rw [List.append_nil] at h1 h2
  constructor
  · intro x hx
    obtain ⟨_, r', e, hr⟩ := h1 x hx
    exact ifaceEnd_ok e hr
  · intro hx
    exact ifaceEnd_no (h2 hx)

theorem ifaceValue_ref (Q : Ty → Prop) (m : Nat) (c : DCfg) : ∀ n, RefP (Held Q · m) n (ifaceValue c n) (fun j _ => genJ c j) := by
  intro n
  induction n with
  | zero => intro j v _ h; omega
  | succ n ih =>
    intro j v hj hN r hf p hp
    simp only []
    have main : (∀ x, genJ c j = some x → ifaceValue c (n + 1) (v ++ r) p = .ok x r) ∧
        (genJ c j = none → ∀ x r', ifaceValue c (n + 1) (v ++ r) p ≠ .ok x r') := by
      rw [ifaceValue]
      simp only []
      rw [parseValue_complete hj hf]
      cases hj with
      | null =>
        simp only []
        rw [if_neg (by decide), if_neg (by decide), if_neg (by decide), if_pos (by decide)]
        simp [genJ, decodeNull, hasNullPrefix, skip_nil]
      | tru =>
        simp only []
        rw [if_neg (by decide), if_neg (by decide), if_neg (by decide), if_neg (by decide), if_pos (by decide)]
        simp [genJ, decodeBool, ifaceEnd, skip_nil]
      | fls =>
        simp only []
        rw [if_neg (by decide), if_neg (by decide), if_neg (by decide), if_neg (by decide), if_pos (by decide)]
        simp [genJ, decodeBool, ifaceEnd, skip_nil]
      | num s hs =>
        obtain ⟨ch, t, e, hc⟩ := jnumber_head hs
        have hr := digit_range hc
        have key : (∀ x, genJ c (.num v) = some x → (if c.useNumber = true then ifaceEnd .number r (decodeNumber v (.number []))
            else ifaceEnd .float64 r (decodeFloat c.lib false v (.float (.fin false [0x30] (.f [] [0x30] [] (.inl rfl) .zero .none))))) = .ok x r) ∧
            (genJ c (.num v) = none → ∀ x r', (if c.useNumber = true then ifaceEnd .number r (decodeNumber v (.number []))
            else ifaceEnd .float64 r (decodeFloat c.lib false v (.float (.fin false [0x30] (.f [] [0x30] [] (.inl rfl) .zero .none))))) ≠ .ok x r') := by
          cases hu : c.useNumber with
          | true =>
            have := ifaceEnd_ref (number_ref (Q := Q) (m := m)) (.num v hs) (Nat.lt_succ_self _) (q := .number []) (by simp [Held]) .number r
            simp only [genJ, hu, if_true]
            simp only [orNull] at this
            refine ⟨?_, by simp⟩
            intro x hx
            injection hx with hx; subst hx
            exact this.1 _ rfl
          | false =>
            have := ifaceEnd_ref (float_ref (Q := Q) (m := m) c.lib false) (.num v hs) (Nat.lt_succ_self _)
              (q := .float (.fin false [0x30] (.f [] [0x30] [] (.inl rfl) .zero .none))) (by simp [Held]) .float64 r
            simp only [genJ, hu, Bool.false_eq_true, if_false]
            simp only [floatJ, orNull] at this
            cases hp : c.lib.parseFloat false v with
            | none => rw [hp] at this; exact ⟨by simp, fun _ => this.2 rfl⟩
            | some f =>
              rw [hp] at this
              refine ⟨?_, by simp⟩
              intro x hx
              simp only [Option.map_some, Option.some.injEq] at hx; subst hx
              exact this.1 _ rfl
        have hd : ch = 0x2d ∨ isDigit ch = true := by
          rcases hc with h | h
          · exact .inl h
          · exact .inr ((isDigit_iff ch).2 h)
        subst e
        simp only []
        rw [if_neg hr.2.2.2.2.2.1, if_neg hr.2.2.2.2.1, if_neg hr.2.2.2.1, if_neg hr.1,
          if_neg (fun h => h.elim hr.2.1 hr.2.2.1), if_pos hd]
        exact key
      | str s hs =>
        have e := decodeString_ok hs [] (.string [])
        rw [List.append_nil] at e
        have h1 := ifaceEnd_ok (t := .string) (b := r) e (.inl rfl)
        obtain ⟨t, rfl⟩ := jstring_head hs
        simp only []
        rw [if_neg (by decide), if_neg (by decide), if_pos (by decide)]
        rw [h1]
        simp [genJ]
      | arrNil w hw =>
        simp only []
        rw [if_neg (by decide), if_pos (by decide)]
        have sr := slice_ref ih (z := .ifaceNil) (by simp [Held]) (Held Q · m) (by simp [Held]) (by intro d s; simp [Held, heldL_iff])
        have := ifaceEnd_ref sr (.arrNil w hw) hN (q := .slice [] []) (by simp [Held, HeldL]) (.slice .iface) r
        simp only [sliceTyJ, List.append_nil, sliceJ_gen] at this
        simp only [genJ]
        cases hg : genE c [] with
        | none => rw [hg] at this; exact ⟨by simp, fun _ => this.2 rfl⟩
        | some ys =>
          rw [hg] at this
          refine ⟨?_, by simp⟩
          intro x hx
          simp only [Option.map_some, Option.some.injEq] at hx; subst hx
          exact this.1 _ rfl
      | arr xs b hb =>
        simp only []
        rw [if_neg (by decide), if_pos (by decide)]
        have sr := slice_ref ih (z := .ifaceNil) (by simp [Held]) (Held Q · m) (by simp [Held]) (by intro d s; simp [Held, heldL_iff])
        have := ifaceEnd_ref sr (.arr xs b hb) hN (q := .slice [] []) (by simp [Held, HeldL]) (.slice .iface) r
        simp only [sliceTyJ, List.append_nil, sliceJ_gen] at this
        simp only [genJ]
        cases hg : genE c xs with
        | none => rw [hg] at this; exact ⟨by simp, fun _ => this.2 rfl⟩
        | some ys =>
          rw [hg] at this
          refine ⟨?_, by simp⟩
          intro x hx
          simp only [Option.map_some, Option.some.injEq] at hx; subst hx
          exact this.1 _ rfl
      | objNil w hw =>
        simp only []
        rw [if_pos (by decide)]
        have sr := map_ref ih (z := .ifaceNil) (by simp [Held]) (Held Q · m) (by simp [Held]) (by intro d; simp [Held]) .str
        have := ifaceEnd_ref sr (.objNil w hw) hN (q := .map []) (by simp [Held]) .mapSI r
        simp only [mapTyJ] at this
        rw [mapJ_gen c _ [] (by simp)] at this
        simp only [genJ]
        cases hg : genM c [] [] with
        | none => rw [hg] at this; exact ⟨by simp, fun _ => this.2 rfl⟩
        | some ys =>
          rw [hg] at this
          refine ⟨?_, by simp⟩
          intro x hx
          simp only [Option.map_some, Option.some.injEq] at hx; subst hx
          exact this.1 _ rfl
      | obj ms b hb =>
        simp only []
        rw [if_pos (by decide)]
        have sr := map_ref ih (z := .ifaceNil) (by simp [Held]) (Held Q · m) (by simp [Held]) (by intro d; simp [Held]) .str
        have := ifaceEnd_ref sr (.obj ms b hb) hN (q := .map []) (by simp [Held]) .mapSI r
        simp only [mapTyJ] at this
        rw [mapJ_gen c _ ms (members_keys hb ms rfl)] at this
        simp only [genJ]
        cases hg : genM c ms [] with
        | none => rw [hg] at this; exact ⟨by simp, fun _ => this.2 rfl⟩
        | some ys =>
          rw [hg] at this
          refine ⟨?_, by simp⟩
          intro x hx
          simp only [Option.map_some, Option.some.injEq] at hx; subst hx
          exact this.1 _ rfl
    exact ⟨fun x hx => ⟨held_gen hx, r, main.1 x hx, .inl rfl⟩, main.2⟩

theorem parseInto_ref {P : DV → Prop} {N : Nat} {dec : Dec} {f : JDec} (hd : RefP P N dec f) : RefP P N (parseInto dec) f := by
  intro j v hj hN r hf p hp
  obtain ⟨h1, h2⟩ := hd j v hj hN r hf p hp
  unfold parseInto
  rw [skip_value hj]
  constructor
  · intro x hx
    obtain ⟨hp', r', e, hr⟩ := h1 x hx
    rw [e]
    exact ⟨hp', _, rfl, .inr (skip_or hr)⟩
  · intro hx x r'
    split
    · simp
    · simp
    · rename_i e; exact absurd e (h2 hx _ _)

/-- `dyn` agrees with `dynJ` one level down -/
def DynOk (Q : Ty → Prop) (m : Nat) (dyn : Ty → Dec) (dynJ : Ty → JDec) : Prop :=
  ∀ m', m = m' + 1 → ∀ t, Q t → ∀ N, RefP (Held Q · m') N (dyn t) (dynJ t)

theorem ifaceValue_any (Q : Ty → Prop) (m : Nat) (c : DCfg) (N : Nat) :
    RefP (Held Q · m) N (fun b p => ifaceValue c (b.length + 1) b p) (fun j _ => genJ c j) := by
  intro j v hj _ r hf p hp
  exact ifaceValue_ref Q m c ((v ++ r).length + 1) j v hj (by simp; omega) r hf p hp

theorem iface_ref {Q : Ty → Prop} {m N : Nat} {c : DCfg} {dyn : Ty → Dec} {dynJ : Ty → JDec} (hd : DynOk Q m dyn dynJ) :
    RefP (Held Q · m) N (decodeInterface c dyn) (ifaceJ c dynJ) := by
  intro j v hj hN r hf p hp
  have hnp := hasNull_value hj r
  have gen := ifaceValue_any Q m c N j v hj hN r hf p hp
  have hnull : isNullJ j = true → (v ++ r).drop 4 = r := by
    intro hn
    have := isNullJ_iff.1 hn; subst this
    rw [derives_null hj]; rfl
  by_cases hpi : ∃ t w, p = .iface (.ptr t) w
  · obtain ⟨t, w, rfl⟩ := hpi
    by_cases hw : ∃ u, w = .ptr u
    · obtain ⟨u, rfl⟩ := hw
      simp only [decodeInterface, ifaceJ, hnp]
      split
      · rename_i hn
        simp only [Bool.and_eq_true] at hn
        rw [hnull hn.2]
        simp [Held]
      · cases m with
        | zero => simp [Held] at hp
        | succ m' =>
          simp only [Held] at hp
          obtain ⟨h1, h2⟩ := parseInto_ref (hd m' rfl t hp.1 N) j v hj hN r hf u hp.2
          cases hx : dynJ t j u with
          | none =>
            refine ⟨by simp, fun _ x r' => ?_⟩
            split
            · simp
            · simp
            · rename_i e; exact absurd e (h2 hx _ _)
          | some y =>
            obtain ⟨hy, r', e, hr⟩ := h1 y hx
            rw [e]
            refine ⟨?_, by simp⟩
            intro x hx
            simp only [Option.map_some, Option.some.injEq] at hx; subst hx
            exact ⟨by simp only [Held]; exact ⟨hp.1, hy⟩, r', rfl, hr⟩
    · have e1 : decodeInterface c dyn (v ++ r) (.iface (.ptr t) w) =
          if hasNullPrefix (v ++ r) then .ok .ifaceNil ((v ++ r).drop 4) else parseInvalid (v ++ r) .ifaceNil := by
        cases w <;> first | rfl | exact absurd ⟨_, rfl⟩ hw
      have e2 : ifaceJ c dynJ j (.iface (.ptr t) w) = if isNullJ j then some .ifaceNil else none := by
        cases w <;> first | rfl | exact absurd ⟨_, rfl⟩ hw
      rw [e1, e2, hnp]
      cases hn : isNullJ j with
      | true => rw [hnull hn]; simp [Held]
      | false => simp only [Bool.false_eq_true, if_false]; exact ⟨by simp, fun _ x r' => parseInvalid_no _ _ _ _⟩
  · have e1 : decodeInterface c dyn (v ++ r) p = ifaceValue c ((v ++ r).length + 1) (v ++ r) p := by
      cases p <;> try rfl
      case iface t w => cases t <;> first | rfl | exact absurd ⟨_, _, rfl⟩ hpi
    have e2 : ifaceJ c dynJ j p = genJ c j := by
      cases p <;> try rfl
      case iface t w => cases t <;> first | rfl | exact absurd ⟨_, _, rfl⟩ hpi
    rw [e1, e2]
    exact gen

theorem ifaceM_ref {Q : Ty → Prop} {m N : Nat} {c : DCfg} {dyn : Ty → Dec} {dynJ : Ty → JDec} (hd : DynOk Q m dyn dynJ) (em : Bool) :
    RefP (Held Q · m) N (decodeIfaceM c dyn em) (ifaceMJ c dynJ em) := by
  intro j v hj hN r hf p hp
  have hnp := hasNull_value hj r
  unfold decodeIfaceM ifaceMJ
  rw [hnp]
  cases hn : isNullJ j with
  | true =>
    have hnull : (v ++ r).drop 4 = r := by
      have := isNullJ_iff.1 hn; subst this
      rw [derives_null hj]; rfl
    simp only [if_true]
    rw [hnull]; simp [Held]
  | false =>
    simp only [Bool.false_eq_true, if_false]
    by_cases hpi : ∃ t w, p = .iface t w
    · obtain ⟨t, w, rfl⟩ := hpi
      simp only []
      by_cases ht : ∃ t', t = .ptr t'
      · obtain ⟨t', rfl⟩ := ht
        by_cases hw : ∃ u, w = .ptr u
        · obtain ⟨u, rfl⟩ := hw
          simp only []
          cases m with
          | zero => simp [Held] at hp
          | succ m' =>
            simp only [Held] at hp
            obtain ⟨h1, h2⟩ := parseInto_ref (hd m' rfl t' hp.1 N) j v hj hN r hf u hp.2
            cases hx : dynJ t' j u with
            | none =>
              refine ⟨by simp, fun _ x r' e => ?_⟩
              obtain ⟨y, ey, _⟩ := map_okD e
              exact h2 hx _ _ ey
            | some y =>
              obtain ⟨hy, r', e, hr⟩ := h1 y hx
              rw [e]
              refine ⟨?_, by simp⟩
              intro x hx
              simp only [Option.map_some, Option.some.injEq] at hx; subst hx
              exact ⟨by simp only [Held]; exact ⟨hp.1, hy⟩, r', rfl, hr⟩
        · cases w <;> first | exact absurd ⟨_, rfl⟩ hw | exact ⟨by simp, fun _ x r' => parseInvalid_no _ _ _ _⟩
      · cases t <;> first | exact absurd ⟨_, rfl⟩ ht | exact ⟨by simp, fun _ x r' => typeError_no _ _ _ _⟩
    · have gen := parseInto_ref (iface_ref (c := c) (N := N) hd) j v hj hN r hf p hp
      have e2 : ifaceJ c dynJ j p = genJ c j := by
        cases p <;> try rfl
        case iface t w => exact absurd ⟨_, _, rfl⟩ hpi
      rw [e2] at gen
      cases em with
      | true => cases p <;> first | exact absurd ⟨_, _, rfl⟩ hpi | exact gen
      | false => cases p <;> first | exact absurd ⟨_, _, rfl⟩ hpi | exact ⟨by simp, fun _ x r' => typeError_no _ _ _ _⟩

/-! ### input that starts with a closing bracket -/

theorem parseValue_bracket (t v r : Bytes) : parseValue (0x5d :: t) ≠ .ok v r := by
  intro h
  obtain ⟨e, j, hj⟩ := parseValue_sound h
  obtain ⟨c, u, rfl, hc, h1, h2, _⟩ := derives_value_head hj
  injection e with e _
  exact h2 e.symm

theorem unquote_bracket (t s r : Bytes) (n : Bool) : parseStringUnquote (0x5d :: t) [] ≠ .ok s r n :=
  unquote_cons_ne (by decide)

theorem ifaceValue_rej (c : DCfg) (n : Nat) : Rej (ifaceValue c n) := by
  intro t p x r
  cases n with
  | zero => simp [ifaceValue]
  | succ n =>
    rw [ifaceValue]
    simp only []
    split
    · simp
    · rename_i e; exact absurd e (parseValue_bracket _ _ _)

theorem parseInto_rej {dec : Dec} (h : Rej dec) : Rej (parseInto dec) := by
  intro t p x r
  unfold parseInto
  rw [skipSpaces_cons_of_not (by decide)]
  split
  · simp
  · simp
  · rename_i e; exact absurd e (h _ _ _ _)

theorem iface_rej (c : DCfg) {dyn : Ty → Dec} (hd : ∀ t, Rej (dyn t)) : Rej (decodeInterface c dyn) := by
  intro t p x r
  unfold decodeInterface
  have hn : hasNullPrefix (0x5d :: t) = false := hasNull_cons (by decide)
  split
  · split
    · rw [hn]
      simp only [Bool.and_false, Bool.false_eq_true, if_false]
      split
      · simp
      · simp
      · rename_i e; exact absurd e (parseInto_rej (hd _) _ _ _ _)
    · rw [hn, if_neg (by simp)]; exact parseInvalid_no _ _ _ _
  · exact ifaceValue_rej _ _ _ _ _ _

theorem dec_rej (c : DCfg) {dyn : Ty → Dec} (hd : ∀ t, Rej (dyn t)) (t : Ty) : Rej (dec c dyn t) := by
  have hn : ∀ t, hasNullPrefix (0x5d :: t) = false := fun t => hasNull_cons (by decide)
  match t with
  | .bool =>
    intro t p x r
    simp only [dec, decodeBool, hn]
    rw [if_neg (by simp), if_neg (by simp)]
    exact inputErr_ne
  | .int k => intro t p; exact inputError_ne_ok _ k p _ _ rfl (hn t) (by decide)
  | .float32 | .float64 | .number =>
    all_goals
      intro t p x r
      simp only [dec, decodeFloat, decodeNumber, hn, Bool.false_eq_true, if_false]
      split
      · exact inputErr_ne
      · rename_i e
        obtain ⟨c, u, e2, hc⟩ := parseNumber_head e
        injection e2 with e2 _
        subst e2
        exact absurd hc (by decide)
  | .string =>
    intro t p x r
    simp only [dec, decodeString, hn, Bool.false_eq_true, if_false]
    split
    · simp
    · split
      · exact inputErr_ne
      · simp
    · rename_i e; exact absurd e (unquote_bracket _ _ _ _)
  | .bytes =>
    intro t p x r
    simp only [dec, decodeBytes, hn, Bool.false_eq_true, if_false]
    split
    · exact inputErr_ne
    · rw [if_pos (by decide), if_neg (by decide)]; exact inputErr_ne
  | .duration =>
    intro t p x r
    simp only [dec, decodeDuration, hn, Bool.false_eq_true, if_false]
    rw [if_pos (by decide)]
    split
    · exact inputErr_ne
    · rename_i z q hp
      obtain ⟨ll, e2, hll, _⟩ := parseInt_ok hp
      exfalso
      cases hll with
      | nonneg i hi =>
        have := hi.digits
        cases ll with
        | nil => exact absurd rfl this.1
        | cons d s =>
          injection e2 with e3 _
          subst e3
          exact absurd (this.2 0x5d (by simp)) (by decide)
      | neg i hi => injection e2 with e3 _; exact absurd e3 (by decide)
  | .time =>
    intro t p x r
    simp only [dec, decodeTime, hn, Bool.false_eq_true, if_false]
    rw [if_pos (.inr (by decide))]
    exact inputErr_ne
  | .raw =>
    intro t p x r
    simp only [dec, decodeRawMessage]
    split
    · exact inputErr_ne
    · rename_i e; exact absurd e (parseValue_bracket _ _ _)
  | .iface => simp only [dec]; exact iface_rej c hd
  | .ifaceM e =>
    intro t p x r
    simp only [dec, decodeIfaceM, hn, Bool.false_eq_true, if_false]
    split
    · split
      · intro e
        obtain ⟨y, ey, _⟩ := map_okD e
        exact parseInto_rej (hd _) _ _ _ _ ey
      · exact parseInvalid_no _ _ _ _
      · exact typeError_no _ _ _ _
    · split
      · exact parseInto_rej (iface_rej c hd) _ _ _ _
      · exact typeError_no _ _ _ _
  | .slice _ | .array _ _ | .map _ _ | .mapSI | .mapRaw | .struct _ =>
    all_goals
      intro t p x r
      simp only [dec, decodeSlice, decodeArray, decodeMap, decodeStruct, hn, Bool.false_eq_true, if_false]
      rw [if_pos (.inr (by decide))]
      exact inputErr_ne
  | .ptr t =>
    intro u p x r
    simp only [dec, decodePointer, hn, Bool.false_eq_true, if_false]
    intro e
    obtain ⟨y, ey, _⟩ := map_okD e
    exact dec_rej c hd t _ _ _ _ ey
  | .quoted t =>
    intro u p x r
    simp only [dec, decodeFromString, hn, Bool.false_eq_true, if_false]
    split
    · simp
    · exact inputErr_ne
    · rename_i e; exact absurd e (unquote_bracket _ _ _ _)
  | .quotedInt t =>
    intro u p x r
    simp only [dec, decodeFromStringToInt, hn, Bool.false_eq_true, if_false]
    rw [if_pos (by simp)]
    simp
  | .jsonU f | .textU f | .unsupported =>
    all_goals
      intro t p x r
      simp only [dec, decodeJSONUnmarshaler, decodeTextUnmarshaler, decodeUnmarshalTypeError]
      split
      · simp
      · rename_i e; exact absurd e (parseValue_bracket _ _ _)

/-! ### all types -/

theorem okOf_pres {P : DV → Prop} {dec : Dec} (h : Pres P dec) {b : Bytes} {p x : DV} (hp : P p) (hx : okOf (dec b p) = some x) : P x := by
  cases e : dec b p <;> rw [e] at hx <;> simp [okOf] at hx
  subst hx
  exact h _ _ _ _ hp e


mutual
theorem dec_ref {m : Nat} {c : DCfg} {dyn : Ty → Dec} {dynJ : Ty → JDec} (hl : LibOk c.lib) (hd : DynOk Ty.tree m dyn dynJ)
    (hrej : ∀ t, Rej (dyn t)) (hpr : DynPres Ty.tree m dyn) : ∀ (t : Ty), t.tree → ∀ N, RefP (Held Ty.tree · m) N (dec c dyn t) (decJ c dyn dynJ t)
  | .bool, _, N => by simp only [dec, decJ]; exact bool_ref
  | .int k, _, N => by simp only [dec, decJ]; exact int_ref k
  | .float32, _, N => by simp only [dec, decJ]; exact float_ref _ _
  | .float64, _, N => by simp only [dec, decJ]; exact float_ref _ _
  | .number, _, N => by simp only [dec, decJ]; exact number_ref
  | .string, _, N => by simp only [dec, decJ]; exact string_ref
  | .bytes, _, N => by simp only [dec, decJ]; exact bytes_ref
  | .duration, _, N => by simp only [dec, decJ]; exact duration_ref hl
  | .time, _, N => by simp only [dec, decJ]; exact time_ref hl
  | .raw, h, _ => by simp [Ty.tree] at h
  | .mapRaw, h, _ => by simp [Ty.tree] at h
  | .jsonU _, h, _ => by simp [Ty.tree] at h
  | .iface, _, N => by simp only [dec, decJ]; exact iface_ref hd
  | .ifaceM e, _, N => by simp only [dec, decJ]; exact ifaceM_ref hd e
  | .slice t, h, N => by
    simp only [Ty.tree] at h
    simp only [dec, decJ]
    exact (slice_ref (dec_ref hl hd hrej hpr t h N) (held_zero _ m t) _ (by simp [Held])
      (by intro d s; simp [Held, heldL_iff])).mono (Nat.le_succ N)
  | .array n t, h, N => by
    simp only [Ty.tree] at h
    simp only [dec, decJ]
    exact (array_ref (dec_ref hl hd hrej hpr t h N) (held_zero _ m t) (dec_rej c hrej t) _ (by intro d; simp [Held, heldL_iff]) n).mono (Nat.le_succ N)
  | .map k t, h, N => by
    simp only [Ty.tree] at h
    simp only [dec, decJ]
    exact (map_ref (dec_ref hl hd hrej hpr t h N) (held_zero _ m t) _ (by simp [Held]) (by intro d; simp [Held]) k).mono (Nat.le_succ N)
  | .mapSI, _, N => by
    simp only [dec, decJ]
    exact (map_ref (iface_ref (N := N) hd) (by simp [Held]) _ (by simp [Held]) (by intro d; simp [Held]) .str).mono (Nat.le_succ N)
  | .ptr t, h, N => by
    simp only [Ty.tree] at h
    simp only [dec, decJ]
    exact ptr_ref (dec_ref hl hd hrej hpr t h N) (held_zero _ m t) _ (by simp [Held]) (by intro v; simp [Held]) _
  | .struct fs, h, N => by
    simp only [Ty.tree] at h
    simp only [dec, decJ]
    exact (struct_ref (decF_ref hl hd hrej hpr fs h N) (by simp [Held]) _ (by intro d; simp [Held, heldL_iff]) c _).mono (Nat.le_succ N)
  | .quoted t, h, N => by
    simp only [Ty.tree] at h
    simp only [dec, decJ]
    refine quoted_ref (dec_ref hl hd hrej hpr t h N) ?_ ?_ ?_ ?_
    · intro b p hb; unfold decodeFromString; rw [if_pos hb]
    · intro k r p hk; exact decodeFromString_app hk _ r p
    · intro k p x _ hp hx; exact okOf_pres (fromString_pres (dec_pres hpr t)) hp hx
    · intro j v r p hj hs hn; exact fromString_other _ r p hj hs hn
  | .quotedInt t, h, N => by
    simp only [Ty.tree] at h
    simp only [dec, decJ]
    refine quoted_ref (dec_ref hl hd hrej hpr t h N) ?_ ?_ ?_ ?_
    · intro b p hb; unfold decodeFromStringToInt; rw [if_pos hb]
    · intro k r p hk; exact decodeFromStringToInt_app hk _ _ r p
    · intro k p x _ hp hx; exact okOf_pres (fromStringToInt_pres (dec_pres hpr t)) hp hx
    · intro j v r p hj hs hn; exact fromStringToInt_other _ _ r p hj hs hn
  | .textU f, _, N => by simp only [dec, decJ]; exact textU_ref f
  | .unsupported, _, N => by
    simp only [dec, decJ]
    intro j v _ _ r _ p _
    exact ⟨by simp, fun _ x r' => typeError_no _ _ _ _⟩
theorem decF_ref {m : Nat} {c : DCfg} {dyn : Ty → Dec} {dynJ : Ty → JDec} (hl : LibOk c.lib) (hd : DynOk Ty.tree m dyn dynJ)
    (hrej : ∀ t, Rej (dyn t)) (hpr : DynPres Ty.tree m dyn) : ∀ (fs : List (Bytes × Ty)), treeF fs → ∀ N, RefL (Held Ty.tree · m) N (decF c dyn fs) (decJF c dyn dynJ fs)
  | [], _, N => by intro i; left; simp [decF, decJF]
  | (_, t) :: fs, h, N => by
    simp only [treeF] at h
    intro i
    simp only [decF, decJF]
    cases i with
    | zero => right; exact ⟨_, _, rfl, rfl, dec_ref hl hd hrej hpr t h.1 N⟩
    | succ i => simpa using decF_ref hl hd hrej hpr fs h.2 N i
end

end JC

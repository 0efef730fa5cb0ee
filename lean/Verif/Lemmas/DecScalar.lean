import Verif.Lemmas.DecRef
import Verif.Spec.Decode
/-! Agreement of the scalar decoders with the tree-level decoders. -/
namespace JC
open Spec Props

theorem ref_orNull {P : DV → Prop} {N : Nat} {dec : Dec} {f : JDec}
    (hnull : ∀ r p, hasNullPrefix r = true → dec r p = .ok p (r.drop 4))
    (h : ∀ j v, Derives (.value j) v → j ≠ .null → ∀ r, hasNullPrefix (v ++ r) = false → Follow j r → ∀ p,
      (∀ x, f j p = some x → P x ∧ dec (v ++ r) p = .ok x r) ∧
      (f j p = none → ∀ x r', dec (v ++ r) p ≠ .ok x r')) : RefP P N dec (orNull f) := by
  intro j v hj _ r hf p hp
  by_cases hn : j = .null
  · subst hn
    rw [derives_null hj]
    refine ⟨?_, by simp [orNull]⟩
    intro x hx
    simp only [orNull, Option.some.injEq] at hx
    subst hx
    exact ⟨hp, r, by rw [hnull _ _ (hasNull_null r)]; simp, .inl rfl⟩
  · have e : orNull f j p = f j p := by cases j <;> simp_all [orNull]
    have hnp : hasNullPrefix (v ++ r) = false := by
      rw [hasNull_value hj]
      cases hb : isNullJ j with
      | false => rfl
      | true => exact absurd (isNullJ_iff.1 hb) hn
    rw [e]
    obtain ⟨h1, h2⟩ := h j v hj hn r hnp hf p
    exact ⟨fun x hx => ⟨(h1 x hx).1, r, (h1 x hx).2, .inl rfl⟩, h2⟩

theorem no_true {j : Json} {v : Bytes} (hj : Derives (.value j) v) (h : j ≠ .tru) (r : Bytes) :
    ¬ (4 ≤ (v ++ r).length ∧ (v ++ r).take 4 = bs! "true") := by
  rintro ⟨_, e⟩
  obtain ⟨c, t, rfl, hc⟩ := derives_head hj
  have : c = 0x74 := by
    have := congrArg List.head? e
    simpa using this
  subst this
  cases j <;> simp [headOk] at hc h
  exact absurd hc (by decide)

theorem no_false {j : Json} {v : Bytes} (hj : Derives (.value j) v) (h : j ≠ .fls) (r : Bytes) :
    ¬ (5 ≤ (v ++ r).length ∧ (v ++ r).take 5 = bs! "false") := by
  rintro ⟨_, e⟩
  obtain ⟨c, t, rfl, hc⟩ := derives_head hj
  have : c = 0x66 := by
    have := congrArg List.head? e
    simpa using this
  subst this
  cases j <;> simp [headOk] at hc h
  exact absurd hc (by decide)

theorem null_not_bool {b : Bytes} (h : hasNullPrefix b = true) :
    ¬ (4 ≤ b.length ∧ b.take 4 = bs! "true") ∧ ¬ (5 ≤ b.length ∧ b.take 5 = bs! "false") := by
  simp only [hasNullPrefix, Bool.and_eq_true, beq_iff_eq] at h
  constructor
  · rintro ⟨_, e⟩; rw [h.2] at e; exact absurd e (by decide)
  · rintro ⟨_, e⟩
    have e2 := congrArg (List.take 4) e
    simp only [List.take_take, Nat.reduceLeDiff, Nat.min_eq_left] at e2
    rw [h.2] at e2; exact absurd e2 (by decide)

theorem bool_ref {Q : Ty → Prop} {m N : Nat} : RefP (Held Q · m) N decodeBool (orNull fun j _ =>
    match j with
    | .tru => some (.bool true)
    | .fls => some (.bool false)
    | _ => none) := by
  apply ref_orNull
  · intro r p h
    unfold decodeBool
    rw [if_neg (null_not_bool h).1, if_neg (null_not_bool h).2, if_pos h]
  · intro j v hj hn r hnp hf p
    have other : j ≠ .tru → j ≠ .fls → ∀ x r', decodeBool (v ++ r) p ≠ .ok x r' := by
      intro h1 h2 x r'
      unfold decodeBool
      rw [if_neg (no_true hj h1 r), if_neg (no_false hj h2 r), hnp]
      exact inputErr_ne
    cases hj with
    | null => exact absurd rfl hn
    | tru => simp [decodeBool, Held]
    | fls => simp [decodeBool, Held]
    | num | str | arrNil | arr | objNil | obj => exact ⟨by simp, fun _ => other (by simp) (by simp)⟩

theorem inputError_ne_ok (b : Bytes) (k : IntKind) (p : DV) (c : UInt8) (t : Bytes) (e : b = c :: t)
    (hn : hasNullPrefix b = false) (hc : ¬ (c = 0x2d ∨ Digit c)) : ∀ x r', decodeInt k b p ≠ .ok x r' := by
  intro x r' h
  unfold decodeInt at h
  rw [hn] at h
  simp only [Bool.false_eq_true, if_false] at h
  split at h
  · rename_i he
    rcases (C10_only k b _).2 he with ⟨h1, _⟩ | ⟨l, z, e2, hl, _⟩
    · rw [hasNullPrefix, h1] at hn
      have : b.length < 4 := by
        apply Nat.lt_of_not_le
        intro h4
        simp [h4] at hn
      have := congrArg List.length h1
      simp at this; omega
    · have hl := kindLit_lit hl
      have : ∃ d s, l = d :: s ∧ (d = 0x2d ∨ Digit d) := by
        cases hl with
        | nonneg i hi =>
          have := hi.digits
          cases l with
          | nil => exact absurd rfl this.1
          | cons d s => exact ⟨d, s, rfl, .inr (this.2 d (by simp))⟩
        | neg i hi => exact ⟨_, _, rfl, .inl rfl⟩
      obtain ⟨d, s, rfl, hd⟩ := this
      rw [e] at e2
      injection e2 with e3 _
      subst e3
      exact hc hd
  · simp at h

theorem head_not_num {j : Json} {c : UInt8} (h : headOk j c) (hj : ∀ s, j ≠ .num s) : ¬ (c = 0x2d ∨ Digit c) := by
  intro hc
  have := digit_range hc
  cases j <;> simp [headOk] at h hj <;> simp [h] at this

theorem int_ref {Q : Ty → Prop} {m N : Nat} (k : IntKind) : RefP (Held Q · m) N (decodeInt k) (intJ k) := by
  apply ref_orNull
  · intro r p h; unfold decodeInt; rw [if_pos h]
  · intro j v hj hn r hnp hf p
    have other : (∀ s, j ≠ .num s) → ∀ x r', decodeInt k (v ++ r) p ≠ .ok x r' := by
      intro h
      obtain ⟨c, t, rfl, hc⟩ := derives_head hj
      exact inputError_ne_ok _ k p c (t ++ r) rfl hnp (head_not_num hc h)
    cases hj with
    | null => exact absurd rfl hn
    | num s hs =>
      have := decodeInt_num k p hs hf
      refine ⟨fun x hx => ⟨?_, this.1 x hx⟩, this.2⟩
      have h1 := this.1 x hx
      unfold decodeInt at h1
      rw [hnp] at h1
      simp only [Bool.false_eq_true, if_false] at h1
      split at h1
      · injection h1 with h1 _; subst h1; simp [Held]
      · simp at h1
    | tru | fls | str | arrNil | arr | objNil | obj => exact ⟨by simp, fun _ => other (by simp)⟩

theorem parseNumber_head {b v r : Bytes} (h : parseNumber b = .ok v r) : ∃ c t, b = c :: t ∧ (c = 0x2d ∨ Digit c) := by
  obtain ⟨rfl, hv⟩ := parseNumber_sound h
  obtain ⟨c, t, rfl, hc⟩ := jnumber_head hv
  exact ⟨c, t ++ r, rfl, hc⟩

theorem parseNumber_other {j : Json} {v : Bytes} (hj : Derives (.value j) v) (h : ∀ s, j ≠ .num s) (r : Bytes) :
    ∃ q e, parseNumber (v ++ r) = .fail q e := by
  cases hp : parseNumber (v ++ r) with
  | fail q e => exact ⟨q, e, rfl⟩
  | ok a b =>
    obtain ⟨c, t, e, hc⟩ := parseNumber_head hp
    obtain ⟨c', t', rfl, hc'⟩ := derives_head hj
    injection e with e1 _
    subst e1
    exact absurd hc (head_not_num hc' h)

theorem float_ref {Q : Ty → Prop} {m N : Nat} (l : Lib) (b : Bool) : RefP (Held Q · m) N (decodeFloat l b) (floatJ l b) := by
  apply ref_orNull
  · intro r p h; unfold decodeFloat; rw [if_pos h]
  · intro j v hj hn r hnp hf p
    have other : (∀ s, j ≠ .num s) → ∀ x r', decodeFloat l b (v ++ r) p ≠ .ok x r' := by
      intro h x r'
      obtain ⟨q, e, hp⟩ := parseNumber_other hj h r
      unfold decodeFloat
      rw [hnp, hp]
      exact inputErr_ne
    cases hj with
    | null => exact absurd rfl hn
    | num s hs =>
      unfold decodeFloat
      rw [hnp, parseNumber_complete hs hf]
      simp only [Bool.false_eq_true, if_false]
      cases l.parseFloat b v with
      | none => simp [inputErr]
      | some f => simp [Held]
    | tru | fls | str | arrNil | arr | objNil | obj => exact ⟨by simp, fun _ => other (by simp)⟩

theorem number_ref {Q : Ty → Prop} {m N : Nat} : RefP (Held Q · m) N decodeNumber (orNull fun j _ =>
    match j with
    | .num s => some (.number s)
    | _ => none) := by
  apply ref_orNull
  · intro r p h; unfold decodeNumber; rw [if_pos h]
  · intro j v hj hn r hnp hf p
    have other : (∀ s, j ≠ .num s) → ∀ x r', decodeNumber (v ++ r) p ≠ .ok x r' := by
      intro h x r'
      obtain ⟨q, e, hp⟩ := parseNumber_other hj h r
      unfold decodeNumber
      rw [hnp, hp]
      exact inputErr_ne
    cases hj with
    | null => exact absurd rfl hn
    | num s hs =>
      unfold decodeNumber
      rw [hnp, parseNumber_complete hs hf]
      simp [Held]
    | tru | fls | str | arrNil | arr | objNil | obj => exact ⟨by simp, fun _ => other (by simp)⟩

theorem unquote_other {j : Json} {v : Bytes} (hj : Derives (.value j) v) (h : ∀ s, j ≠ .str s) (r s q : Bytes) (n : Bool) :
    parseStringUnquote (v ++ r) [] ≠ .ok s q n := by
  intro e
  have := unquote_head e
  obtain ⟨c, t, rfl, hc⟩ := derives_head hj
  simp at this; subst this
  cases j <;> simp [headOk] at hc h
  exact absurd hc (by decide)

theorem string_ref {Q : Ty → Prop} {m N : Nat} : RefP (Held Q · m) N decodeString (orNull fun j _ =>
    match j with
    | .str raw => some (.string (unq raw))
    | _ => none) := by
  apply ref_orNull
  · intro r p h; unfold decodeString; rw [if_pos h]
  · intro j v hj hn r hnp hf p
    have other : (∀ s, j ≠ .str s) → ∀ x r', decodeString (v ++ r) p ≠ .ok x r' := by
      intro h x r'
      unfold decodeString
      rw [hnp]
      simp only [Bool.false_eq_true, if_false]
      split
      · simp
      · split
        · exact inputErr_ne
        · simp
      · rename_i e; exact absurd e (unquote_other hj h r _ _ _)
    cases hj with
    | null => exact absurd rfl hn
    | str s hs => rw [decodeString_ok hs]; simp [Held]
    | tru | fls | num | arrNil | arr | objNil | obj => exact ⟨by simp, fun _ => other (by simp)⟩

theorem jchars_quote {s : Bytes} (h : JChars s) {a b : Bytes} (e : s = a ++ 0x22 :: b) (ha : 0x22 ∉ a) : (0x5c : UInt8) ∈ a := by
  induction h generalizing a b with
  | nil => simp at e
  | plain c t h1 h2 h3 _ ih =>
    cases a with
    | nil => injection e with e1 _; exact absurd e1 h2
    | cons d a =>
      injection e with e1 e2
      exact List.mem_cons_of_mem _ (ih e2 (fun hh => ha (List.mem_cons_of_mem _ hh)))
  | esc e' t h1 _ _ | uni h1 h2 h3 h4 t _ _ _ _ _ _ =>
    all_goals
      cases a with
      | nil => injection e with e1 _; exact absurd e1 (by decide)
      | cons d a => injection e with e1 _; rw [← e1]; simp

/-- the first quote after the opening one either closes the literal or follows a backslash -/
theorem quote_index {s : Bytes} (h : JChars s) :
    (0x22 ∉ s ∧ ∀ r, indexByte (s ++ 0x22 :: r) 0x22 = some s.length) ∨
    ∃ a, (0x5c : UInt8) ∈ a ∧ ∀ r, ∃ i, indexByte (s ++ 0x22 :: r) 0x22 = some i ∧ (s ++ 0x22 :: r).take i = a := by
  by_cases hq : (0x22 : UInt8) ∈ s
  · right
    obtain ⟨a, b, e, ha⟩ : ∃ a b, s = a ++ 0x22 :: b ∧ (0x22 : UInt8) ∉ a := by
      clear h
      induction s with
      | nil => simp at hq
      | cons c t ih =>
        by_cases hc : c = 0x22
        · subst hc; exact ⟨[], t, rfl, by simp⟩
        · have : (0x22 : UInt8) ∈ t := by
            rcases List.mem_cons.1 hq with h | h
            · exact absurd h.symm hc
            · exact h
          obtain ⟨a, b, e, ha⟩ := ih this
          refine ⟨c :: a, b, by rw [e]; rfl, ?_⟩
          intro hh
          rcases List.mem_cons.1 hh with h | h
          · exact hc h.symm
          · exact ha h
    refine ⟨a, jchars_quote h e ha, fun r => ⟨a.length, ?_, ?_⟩⟩
    · rw [e, List.append_assoc, List.cons_append, indexByte_append ha]
    · rw [e, List.append_assoc]; simp
  · exact .inl ⟨hq, fun r => indexByte_append hq⟩

theorem duration_ref {Q : Ty → Prop} {m N : Nat} {l : Lib} (hl : LibOk l) : RefP (Held Q · m) N (decodeDuration l) (orNull fun j p =>
    match j with
    | .num s => okOf (decodeDuration l s p)
    | .str raw => okOf (decodeDuration l raw p)
    | _ => none) := by
  apply ref_orNull
  · intro r p h; unfold decodeDuration; rw [if_pos h]
  · intro j v hj hn r hnp hf p
    have heldInt : ∀ b x q, hasNullPrefix b = false → decodeDuration l b p = .ok x q → Held Q x m := by
      intro b x q hb h
      unfold decodeDuration at h
      rw [hb] at h
      simp only [Bool.false_eq_true, if_false] at h
      split at h
      · exact absurd h inputErr_ne
      · split at h
        · split at h
          · exact absurd h inputErr_ne
          · injection h with h _; subst h; simp [Held]
        · split at h
          · exact absurd h inputErr_ne
          · split at h
            · exact absurd h inputErr_ne
            · split at h
              · exact absurd h inputErr_ne
              · injection h with h _; subst h; simp [Held]
    have other : (∀ s, j ≠ .num s) → (∀ s, j ≠ .str s) → ∀ x r', decodeDuration l (v ++ r) p ≠ .ok x r' := by
      intro h1 h2 x r'
      obtain ⟨c, t, e, hc⟩ := derives_head hj
      have hq : c ≠ 0x22 := by
        rintro rfl
        cases j <;> simp [headOk] at hc h2
        exact absurd hc (by decide)
      unfold decodeDuration
      rw [hnp]
      simp only [Bool.false_eq_true, if_false]
      split
      · exact inputErr_ne
      · rename_i heq
        rw [e] at heq
        injection heq with e1 _
        subst e1
        rw [if_pos hq]
        split
        · exact inputErr_ne
        · rename_i z q hp
          obtain ⟨ll, e2, hll, _⟩ := parseInt_ok hp
          exfalso
          have : ∃ d s, ll = d :: s ∧ (d = 0x2d ∨ Digit d) := by
            cases hll with
            | nonneg i hi =>
              have := hi.digits
              cases ll with
              | nil => exact absurd rfl this.1
              | cons d s => exact ⟨d, s, rfl, .inr (this.2 d (by simp))⟩
            | neg i hi => exact ⟨_, _, rfl, .inl rfl⟩
          obtain ⟨d, s, rfl, hd⟩ := this
          rw [e] at e2
          injection e2 with e3 _
          subst e3
          exact head_not_num hc h1 hd
    cases hj with
    | null => exact absurd rfl hn
    | num s hs =>
      obtain ⟨c, t, e, hc⟩ := jnumber_head hs
      have hq : c ≠ 0x22 := (digit_range hc).2.2.2.1
      have key : ∀ r, decodeDuration l (v ++ r) p = match parseInt (v ++ r) with
          | .fail _ _ => inputErr (v ++ r) p
          | .ok z r => .ok (.int z) r := by
        intro r
        unfold decodeDuration
        rw [hasNull_num hs, e]
        simp only [Bool.false_eq_true, if_false, List.cons_append]
        rw [if_pos hq]
        cases parseInt (c :: (t ++ r)) <;> rfl
      have k0 := key []
      rw [List.append_nil] at k0
      obtain ⟨p1, p2, p3⟩ := parseInt_num hs hf
      constructor
      · intro x hx
        simp only [] at hx
        have : decodeDuration l (v ++ r) p = .ok x r := by
          rw [key]
          rw [k0] at hx
          cases hp : parseInt v with
          | fail => rw [hp] at hx; simp [inputErr, okOf] at hx
          | ok z q =>
            rw [hp] at hx
            simp only [okOf, Option.some.injEq] at hx
            obtain rfl := p3 z q hp
            rw [p2 z hp]; simp [hx]
        exact ⟨heldInt _ _ _ hnp this, this⟩
      · intro hn' x r' h
        simp only [] at hn'
        rw [key] at h
        cases hp : parseInt (v ++ r) with
        | fail => rw [hp] at h; exact absurd h inputErr_ne
        | ok z q =>
          rw [k0, (p1 z q hp).2] at hn'
          simp [okOf] at hn'
    | str s hs =>
      obtain ⟨u, hu⟩ := hs
      have key : ∀ r, decodeDuration l (0x22 :: (u ++ [0x22]) ++ r) p = match indexByte (u ++ 0x22 :: r) (ch! '"') with
          | none => inputErr (0x22 :: (u ++ [0x22]) ++ r) p
          | some i => match l.parseDuration ((u ++ 0x22 :: r).take i) with
            | none => inputErr (0x22 :: (u ++ [0x22]) ++ r) p
            | some v => .ok (.int v) ((u ++ 0x22 :: r).drop (i + 1)) := by
        intro r
        unfold decodeDuration
        have : hasNullPrefix (0x22 :: (u ++ [0x22]) ++ r) = false := hasNull_cons (by decide)
        rw [this]
        simp only [Bool.false_eq_true, if_false, List.cons_append]
        rw [if_neg (by simp), if_neg (by simp; omega), List.append_assoc]
        rfl
      have k0 := key []
      rw [List.append_nil] at k0
      rcases quote_index hu with ⟨_, hi⟩ | ⟨a, ha, hi⟩
      · have k : ∀ r, decodeDuration l (0x22 :: (u ++ [0x22]) ++ r) p = match l.parseDuration u with
            | none => inputErr (0x22 :: (u ++ [0x22]) ++ r) p
            | some v => .ok (.int v) r := by
          intro r
          rw [key, hi r]
          simp only []
          rw [List.take_left, ← List.length_singleton (a := (0x22 : UInt8)), ← List.length_append]
          have : u ++ 0x22 :: r = (u ++ [0x22]) ++ r := by simp
          rw [this, List.drop_left]
        have k0 := k []
        rw [List.append_nil] at k0
        simp only []
        rw [k0, k]
        cases l.parseDuration u <;> simp [okOf, inputErr, Held]
      · have k : ∀ r, decodeDuration l (0x22 :: (u ++ [0x22]) ++ r) p = inputErr (0x22 :: (u ++ [0x22]) ++ r) p := by
          intro r
          obtain ⟨i, h1, h2⟩ := hi r
          rw [key, h1]
          simp only [h2]
          cases hd : l.parseDuration a with
          | none => rfl
          | some z => exact absurd rfl (hl.duration a z hd _ ha).2
        have k0 := k []
        rw [List.append_nil] at k0
        simp only []
        rw [k0, k]
        simp [okOf, inputErr]
    | tru | fls | arrNil | arr | objNil | obj => exact ⟨by simp, fun _ => other (by simp) (by simp)⟩

theorem time_ref {Q : Ty → Prop} {m N : Nat} {l : Lib} (hl : LibOk l) : RefP (Held Q · m) N (decodeTime l) (orNull fun j p =>
    match j with
    | .str raw => okOf (decodeTime l raw p)
    | _ => none) := by
  apply ref_orNull
  · intro r p h; unfold decodeTime; rw [if_pos h]
  · intro j v hj hn r hnp hf p
    have other : (∀ s, j ≠ .str s) → ∀ x r', decodeTime l (v ++ r) p ≠ .ok x r' := by
      intro h2 x r'
      obtain ⟨c, t, e, hc⟩ := derives_head hj
      have hq : c ≠ 0x22 := by
        rintro rfl
        cases j <;> simp [headOk] at hc h2
        exact absurd hc (by decide)
      unfold decodeTime
      rw [hnp]
      simp only [Bool.false_eq_true, if_false]
      split
      · exact inputErr_ne
      · rename_i heq
        rw [e] at heq
        injection heq with e1 _
        subst e1
        rw [if_pos (.inr hq)]
        exact inputErr_ne
    cases hj with
    | null => exact absurd rfl hn
    | str s hs =>
      obtain ⟨u, hu⟩ := hs
      have key : ∀ r, decodeTime l (0x22 :: (u ++ [0x22]) ++ r) p = match indexByte (u ++ 0x22 :: r) (ch! '"') with
          | none => inputErr (0x22 :: (u ++ [0x22]) ++ r) p
          | some i => match l.parseTime ((u ++ 0x22 :: r).take i) with
            | none => inputErr (0x22 :: (u ++ [0x22]) ++ r) p
            | some v => .ok (.time v) ((u ++ 0x22 :: r).drop (i + 1)) := by
        intro r
        unfold decodeTime
        have : hasNullPrefix (0x22 :: (u ++ [0x22]) ++ r) = false := hasNull_cons (by decide)
        rw [this]
        simp only [Bool.false_eq_true, if_false, List.cons_append]
        rw [if_neg (by simp; omega), List.append_assoc]
        rfl
      rcases quote_index hu with ⟨_, hi⟩ | ⟨a, ha, hi⟩
      · have k : ∀ r, decodeTime l (0x22 :: (u ++ [0x22]) ++ r) p = match l.parseTime u with
            | none => inputErr (0x22 :: (u ++ [0x22]) ++ r) p
            | some v => .ok (.time v) r := by
          intro r
          rw [key, hi r]
          simp only []
          rw [List.take_left, ← List.length_singleton (a := (0x22 : UInt8)), ← List.length_append]
          have : u ++ 0x22 :: r = (u ++ [0x22]) ++ r := by simp
          rw [this, List.drop_left]
        have k0 := k []
        rw [List.append_nil] at k0
        simp only []
        rw [k0, k]
        cases l.parseTime u <;> simp [okOf, inputErr, Held]
      · have k : ∀ r, decodeTime l (0x22 :: (u ++ [0x22]) ++ r) p = inputErr (0x22 :: (u ++ [0x22]) ++ r) p := by
          intro r
          obtain ⟨i, h1, h2⟩ := hi r
          rw [key, h1]
          simp only [h2]
          cases hd : l.parseTime a with
          | none => rfl
          | some z => exact absurd rfl (hl.time a z hd _ ha).2
        have k0 := k []
        rw [List.append_nil] at k0
        simp only []
        rw [k0, k]
        simp [okOf, inputErr]
    | tru | fls | num | arrNil | arr | objNil | obj => exact ⟨by simp, fun _ => other (by simp)⟩

theorem textU_other (f : Bytes → Option Err) {j : Json} {v : Bytes} (hj : Derives (.value j) v) {r : Bytes} (hf : Follow j r)
    (h1 : j ≠ .null) (h2 : ∀ s, j ≠ .str s) (p x : DV) (r' : Bytes) : decodeTextUnmarshaler f (v ++ r) p ≠ .ok x r' := by
  unfold decodeTextUnmarshaler
  rw [parseValue_complete hj hf]
  obtain ⟨c, t, rfl, hc⟩ := derives_head hj
  have e1 : c ≠ 0x6e := by
    rintro rfl
    cases j <;> simp [headOk] at hc h1
    exact absurd hc (by decide)
  have e2 : c ≠ 0x22 := by
    rintro rfl
    cases j <;> simp [headOk] at hc h2
    exact absurd hc (by decide)
  simp only []
  rw [if_neg e1, if_neg e2]
  simp

theorem textU_ref {Q : Ty → Prop} {m N : Nat} (f : Bytes → Option Err) :
    RefP (Held Q · m) N (decodeTextUnmarshaler f) (textUJ f) := by
  intro j v hj _ r hf p hp
  cases hj with
  | null =>
    refine ⟨?_, by simp [textUJ, orNull]⟩
    intro x hx
    simp only [textUJ, orNull, Option.some.injEq] at hx
    subst hx
    refine ⟨hp, r, ?_, .inl rfl⟩
    unfold decodeTextUnmarshaler
    rw [parseValue_complete .null (by simp [Follow])]
    simp [parseNull]
  | str s hs =>
    rw [textU_str f hs]
    simp only [textUJ, orNull]
    cases f (unq v) with
    | some e => simp
    | none =>
      refine ⟨?_, by simp⟩
      intro x hx
      injection hx with hx
      subst hx
      exact ⟨by simp [Held], r, rfl, .inl rfl⟩
  | num s hs => exact ⟨by simp [textUJ, orNull], fun _ => textU_other f (.num _ hs) hf (by simp) (by simp) p⟩
  | tru => exact ⟨by simp [textUJ, orNull], fun _ => textU_other f .tru hf (by simp) (by simp) p⟩
  | fls => exact ⟨by simp [textUJ, orNull], fun _ => textU_other f .fls hf (by simp) (by simp) p⟩
  | arrNil w h => exact ⟨by simp [textUJ, orNull], fun _ => textU_other f (.arrNil w h) hf (by simp) (by simp) p⟩
  | arr xs b h => exact ⟨by simp [textUJ, orNull], fun _ => textU_other f (.arr xs b h) hf (by simp) (by simp) p⟩
  | objNil w h => exact ⟨by simp [textUJ, orNull], fun _ => textU_other f (.objNil w h) hf (by simp) (by simp) p⟩
  | obj xs b h => exact ⟨by simp [textUJ, orNull], fun _ => textU_other f (.obj xs b h) hf (by simp) (by simp) p⟩

end JC

import Verif.Lemmas.DecScalar
/-! Agreement of the loops over elements and members with the tree-level decoders. -/
namespace JC
open Spec Props

theorem skip_value {j : Json} {v : Bytes} (h : Derives (.value j) v) (r : Bytes) : skipSpaces (v ++ r) = v ++ r := by
  obtain ⟨c, t, rfl, hc, _⟩ := derives_value_head h
  exact skipSpaces_cons_of_not hc

theorem skip_ws_value {j : Json} {w v : Bytes} (hw : Ws w) (h : Derives (.value j) v) (r : Bytes) :
    skipSpaces (w ++ (v ++ r)) = v ++ r := by
  rw [skipSpaces_ws_append hw, skip_value h]

theorem skip_ws_cons {w : Bytes} (hw : Ws w) {c : UInt8} (hc : isSpace c = false) (r : Bytes) :
    skipSpaces (w ++ c :: r) = c :: r := by
  rw [skipSpaces_ws_append hw, skipSpaces_cons_of_not hc]

theorem skip_or {r r' : Bytes} (h : r' = r ∨ r' = skipSpaces r) : skipSpaces r' = skipSpaces r := by
  rcases h with rfl | rfl
  · rfl
  · exact skipSpaces_idem r

/-! ### slices -/

def sliceElem (dec : Dec) (z : DV) (input : Bytes) (n : Nat) (done mem : List DV) (b : Bytes) : DRes :=
  match dec b (mem.headD z) with
  | .crash c => .crash c
  | .err x _ e =>
    match parseValue input with
    | .fail r e2 => .err (.slice done (x :: mem.tail)) r e2
    | .ok _ r => .err (.slice done (x :: mem.tail)) r e
  | .ok x r => sliceLoop dec z input n (done ++ [x]) mem.tail r

theorem sliceLoop_succ (dec : Dec) (z : DV) (input : Bytes) (n : Nat) (done mem : List DV) (b : Bytes) :
    sliceLoop dec z input (n + 1) done mem b =
      if (skipSpaces b).head? = some 0x5d then .ok (.slice done mem) (skipSpaces b).tail
      else if done.isEmpty then sliceElem dec z input n done mem (skipSpaces b)
      else match skipSpaces b with
        | [] => .err (.slice done mem) (skipSpaces b) .syntax
        | c :: t => if c ≠ 0x2c then .err (.slice done mem) (skipSpaces b) .syntax
          else sliceElem dec z input n done mem (skipSpaces t) := by
  rw [sliceLoop]
  unfold sliceElem
  rfl

theorem sliceLoop_skip {dec : Dec} {z : DV} {input : Bytes} {n : Nat} {done mem : List DV} {b b' : Bytes}
    (h : skipSpaces b = skipSpaces b') : sliceLoop dec z input n done mem b = sliceLoop dec z input n done mem b' := by
  cases n with
  | zero => rfl
  | succ n => rw [sliceLoop_succ, sliceLoop_succ, h]

theorem sliceLoop_close {dec : Dec} {z : DV} {input : Bytes} {n : Nat} {done mem : List DV} {b r : Bytes}
    (h : skipSpaces b = 0x5d :: r) : sliceLoop dec z input (n + 1) done mem b = .ok (.slice done mem) r := by
  rw [sliceLoop_succ, h]; simp

theorem sliceLoop_comma {dec : Dec} {z : DV} {input : Bytes} {n : Nat} {done mem : List DV} {b r : Bytes}
    (hd : done ≠ []) (h : skipSpaces b = 0x2c :: r) :
    sliceLoop dec z input (n + 1) done mem b = sliceElem dec z input n done mem (skipSpaces r) := by
  rw [sliceLoop_succ, h]
  have : done.isEmpty = false := by cases done <;> simp_all
  simp [this]

theorem sliceElem_none {dec : Dec} {z : DV} {input : Bytes} {n : Nat} {done mem : List DV} {b : Bytes}
    (h : ∀ x r, dec b (mem.headD z) ≠ .ok x r) : ∀ x r, sliceElem dec z input n done mem b ≠ .ok x r := by
  intro x r
  unfold sliceElem
  split
  · simp
  · split <;> simp
  · rename_i e; exact absurd e (h _ _)

theorem mem_headD {P : DV → Prop} {mem : List DV} {z : DV} (hz : P z) (h : ∀ x ∈ mem, P x) : P (mem.headD z) := by
  cases mem with
  | nil => exact hz
  | cons a t => exact h a (by simp)

theorem mem_tail {P : DV → Prop} {mem : List DV} (h : ∀ x ∈ mem, P x) : ∀ x ∈ mem.tail, P x :=
  fun x hx => h x (List.mem_of_mem_tail hx)

theorem mem_snoc {P : DV → Prop} {done : List DV} {x : DV} (h : ∀ x ∈ done, P x) (hx : P x) : ∀ y ∈ done ++ [x], P y := by
  intro y hy
  rcases List.mem_append.1 hy with hy | hy
  · exact h y hy
  · rw [List.mem_singleton.1 hy]; exact hx

theorem slice_elems {P : DV → Prop} {N : Nat} {dec : Dec} {f : JDec} {z : DV} (hd : RefP P N dec f) (hz : P z) (input : Bytes) :
    ∀ (xs : List Json) (m : Bytes), Derives (.elems xs) m → m.length < N → ∀ (done mem : List DV) (n : Nat) (r : Bytes), m.length < n →
      (∀ x ∈ done, P x) → (∀ x ∈ mem, P x) →
      (∀ x, sliceJ f z done xs mem = some x → (∃ d s, x = .slice d s ∧ (∀ y ∈ d, P y) ∧ ∀ y ∈ s, P y) ∧
        sliceElem dec z input n done mem (skipSpaces (m ++ 0x5d :: r)) = .ok x r) ∧
      (sliceJ f z done xs mem = none → ∀ x r', sliceElem dec z input n done mem (skipSpaces (m ++ 0x5d :: r)) ≠ .ok x r') := by
  intro xs
  induction xs with
  | nil => intro m h; cases h
  | cons j xs ih =>
    intro m h hN done mem n r hn hdone hmem
    have step : ∀ w1 b T, Ws w1 → Derives (.value j) b → b.length < N → NumStop T →
        (∀ x, f j (mem.headD z) = some x → P x ∧
          sliceElem dec z input n done mem (skipSpaces (w1 ++ (b ++ T))) = sliceLoop dec z input n (done ++ [x]) mem.tail T) ∧
        (f j (mem.headD z) = none → ∀ x r', sliceElem dec z input n done mem (skipSpaces (w1 ++ (b ++ T))) ≠ .ok x r') := by
      intro w1 b T hw hj hb hT
      rw [skip_ws_value hw hj]
      obtain ⟨h1, h2⟩ := hd j b hj hb T (follow_of_numStop hT) (mem.headD z) (mem_headD hz hmem)
      constructor
      · intro x hx
        obtain ⟨hp, r', e, hr⟩ := h1 x hx
        refine ⟨hp, ?_⟩
        rw [sliceElem, e]
        exact sliceLoop_skip (skip_or hr)
      · intro hx
        exact sliceElem_none (h2 hx)
    obtain ⟨n, rfl⟩ : ∃ k, n = k + 1 := ⟨n - 1, by omega⟩
    cases h with
    | elemOne w1 w2 _ b hw1 hw2 hj =>
      have e : w1 ++ b ++ w2 ++ 0x5d :: r = w1 ++ (b ++ (w2 ++ 0x5d :: r)) := by simp
      simp only [List.length_append] at hN
      obtain ⟨s1, s2⟩ := step w1 b (w2 ++ 0x5d :: r) hw1 hj (by omega) (numStop_ws_cons hw2 (by simp))
      rw [e]
      simp only [sliceJ]
      cases hf : f j (mem.headD z) with
      | none => exact ⟨by simp, fun _ => s2 hf⟩
      | some x =>
        obtain ⟨hp, es⟩ := s1 x hf
        rw [es, sliceLoop_close (skip_ws_cons hw2 (by decide) r)]
        simp only [Option.some.injEq, reduceCtorEq, false_implies, and_true]
        rintro y rfl
        exact ⟨⟨_, _, rfl, mem_snoc hdone hp, mem_tail hmem⟩, rfl⟩
    | elemCons w1 w2 _ b _ bs hw1 hw2 hj hbs =>
      have e : w1 ++ b ++ w2 ++ 0x2c :: bs ++ 0x5d :: r = w1 ++ (b ++ (w2 ++ 0x2c :: (bs ++ 0x5d :: r))) := by simp
      simp only [List.length_append, List.length_cons] at hN hn
      obtain ⟨s1, s2⟩ := step w1 b (w2 ++ 0x2c :: (bs ++ 0x5d :: r)) hw1 hj (by omega) (numStop_ws_cons hw2 (by simp))
      rw [e]
      simp only [sliceJ]
      cases hf : f j (mem.headD z) with
      | none => exact ⟨by simp, fun _ => s2 hf⟩
      | some x =>
        obtain ⟨hp, es⟩ := s1 x hf
        rw [es, sliceLoop_comma (by simp) (skip_ws_cons hw2 (by decide) _)]
        exact ih bs hbs (by omega) (done ++ [x]) mem.tail n r (by omega) (mem_snoc hdone hp) (mem_tail hmem)

def sliceMem : DV → List DV
  | .slice xs sp => xs ++ sp
  | _ => []

def arrMem : DV → List DV
  | .array xs => xs
  | _ => []

theorem slice_ref {P : DV → Prop} {N : Nat} {dec : Dec} {f : JDec} {z : DV} (hd : RefP P N dec f) (hz : P z)
    (PS : DV → Prop) (hnil : PS .sliceNil)
    (hs : ∀ d s, PS (.slice d s) ↔ (∀ y ∈ d, P y) ∧ ∀ y ∈ s, P y) :
    RefP PS (N + 1) (decodeSlice dec z) (sliceTyJ f z) := by
  intro j v hj hN r hf p hp
  have hnp := hasNull_value hj r
  have hmem : ∀ x ∈ (sliceMem p), P x := by
    cases p <;> simp [sliceMem, arrMem]
    case slice xs sp =>
      rintro x (hx | hx)
      · exact ((hs _ _).1 hp).1 x hx
      · exact ((hs _ _).1 hp).2 x hx
  have other : ∀ c t, v = c :: t → c ≠ 0x5b → isNullJ j = false → ∀ x r', decodeSlice dec z (v ++ r) p ≠ .ok x r' := by
    intro c t e hc hn x r'
    unfold decodeSlice
    rw [hnp, hn]
    simp only [Bool.false_eq_true, if_false]
    rw [e]
    simp only [List.cons_append]
    rw [if_pos (.inr hc)]
    exact inputErr_ne
  have open_ : ∀ u, v = 0x5b :: (u ++ [0x5d]) → isNullJ j = false → decodeSlice dec z (v ++ r) p =
      sliceLoop dec z (v ++ r) ((v ++ r).length + 1) [] (sliceMem p) (u ++ 0x5d :: r) := by
    intro u e hn
    unfold decodeSlice
    rw [hnp, hn]
    simp only [Bool.false_eq_true, if_false]
    rw [e]
    simp only [List.cons_append, List.append_assoc, List.nil_append]
    rw [if_neg (by simp; omega)]
    cases p <;> rfl
  cases hj with
  | null =>
    refine ⟨?_, by simp [sliceTyJ]⟩
    intro x hx
    simp only [sliceTyJ, Option.some.injEq] at hx
    subst hx
    refine ⟨hnil, r, ?_, .inl rfl⟩
    unfold decodeSlice
    rw [hnp]; simp [isNullJ]
  | num s hs' =>
    obtain ⟨c, t, e, hc⟩ := jnumber_head hs'
    exact ⟨by simp [sliceTyJ], fun _ => other c t e (digit_range hc).2.2.2.2.1 rfl⟩
  | str s hs' =>
    obtain ⟨t, e⟩ := jstring_head hs'
    exact ⟨by simp [sliceTyJ], fun _ => other _ t e (by decide) rfl⟩
  | tru => exact ⟨by simp [sliceTyJ], fun _ => other _ _ rfl (by decide) rfl⟩
  | fls => exact ⟨by simp [sliceTyJ], fun _ => other _ _ rfl (by decide) rfl⟩
  | objNil => exact ⟨by simp [sliceTyJ], fun _ => other _ _ rfl (by decide) rfl⟩
  | obj => exact ⟨by simp [sliceTyJ], fun _ => other _ _ rfl (by decide) rfl⟩
  | arrNil w hw =>
    rw [open_ w rfl rfl, sliceLoop_close (skip_ws_cons hw (by decide) r)]
    simp only [sliceTyJ, sliceJ, Option.some.injEq, reduceCtorEq, false_implies, and_true]
    rintro x rfl
    exact ⟨(hs _ _).2 ⟨by simp, hmem⟩, r, rfl, .inl rfl⟩
  | arr xs b hb =>
    rw [open_ b rfl rfl]
    obtain ⟨c, t, e, h1, h2⟩ := derives_elems_head hb (0x5d :: r)
    rw [sliceLoop_succ, if_neg (by rw [e]; simpa using h2), if_pos (by rfl : (List.isEmpty ([] : List DV)) = true)]
    simp only [List.length_cons, List.length_append] at hN
    obtain ⟨k1, k2⟩ := slice_elems hd hz (0x5b :: (b ++ [0x5d]) ++ r) xs b hb (by simp at hN; omega) [] (sliceMem p)
      (0x5b :: (b ++ [0x5d]) ++ r).length r (by simp; omega) (by simp) hmem
    refine ⟨?_, k2⟩
    intro x hx
    obtain ⟨⟨d, s, rfl, hd', hs'⟩, e2⟩ := k1 x hx
    exact ⟨(hs _ _).2 ⟨hd', hs'⟩, r, e2, .inl rfl⟩

/-! ### arrays -/

theorem arrayRest_skip {p : DV} {n : Nat} {b b' : Bytes} (h : skipSpaces b = skipSpaces b') : arrayRest p n b = arrayRest p n b' := by
  cases n with
  | zero => rfl
  | succ n => simp only [arrayRest]; rw [h]

theorem arrayRest_close {p : DV} {n : Nat} {b r : Bytes} (h : skipSpaces b = 0x5d :: r) : arrayRest p (n + 1) b = .ok p r := by
  simp only [arrayRest]; rw [h]; simp

/-- the rest of an array is skipped, with or without a leading comma -/
theorem arrayRest_elems (p : DV) : ∀ (xs : List Json) (m : Bytes), Derives (.elems xs) m → ∀ (n : Nat) (r : Bytes), m.length < n →
    arrayRest p (n + 1) (0x2c :: (m ++ 0x5d :: r)) = .ok p r ∧ arrayRest p (n + 1) (m ++ 0x5d :: r) = .ok p r := by
  intro xs
  induction xs with
  | nil => intro m h; cases h
  | cons j xs ih =>
    intro m h n r hn
    have one : ∀ w1 b T, Ws w1 → Derives (.value j) b → NumStop T →
        arrayRest p (n + 1) (0x2c :: (w1 ++ (b ++ T))) = arrayRest p n T ∧
        arrayRest p (n + 1) (w1 ++ (b ++ T)) = arrayRest p n T := by
      intro w1 b T hw hj hT
      have e := skip_ws_value hw hj T
      have hp := parseValue_complete hj (follow_of_numStop (j := j) hT)
      constructor
      · simp only [arrayRest]
        rw [skipSpaces_cons_of_not (by decide)]
        simp [e, hp]
      · obtain ⟨c, t, rfl, hc, h1, h2, _⟩ := derives_value_head hj
        simp only [arrayRest]
        rw [e]
        simp only [List.cons_append]
        rw [if_neg h2, if_neg h1]
        rw [List.cons_append] at hp
        rw [hp]
    obtain ⟨n, rfl⟩ : ∃ k, n = k + 1 := ⟨n - 1, by omega⟩
    cases h with
    | elemOne w1 w2 _ b hw1 hw2 hj =>
      have e : w1 ++ b ++ w2 ++ 0x5d :: r = w1 ++ (b ++ (w2 ++ 0x5d :: r)) := by simp
      obtain ⟨o1, o2⟩ := one w1 b (w2 ++ 0x5d :: r) hw1 hj (numStop_ws_cons hw2 (by simp))
      rw [e, o1, o2, arrayRest_close (skip_ws_cons hw2 (by decide) r)]
      simp
    | elemCons w1 w2 _ b _ bs hw1 hw2 hj hbs =>
      have e : w1 ++ b ++ w2 ++ 0x2c :: bs ++ 0x5d :: r = w1 ++ (b ++ (w2 ++ 0x2c :: (bs ++ 0x5d :: r))) := by simp
      simp only [List.length_append, List.length_cons] at hn
      obtain ⟨o1, o2⟩ := one w1 b (w2 ++ 0x2c :: (bs ++ 0x5d :: r)) hw1 hj (numStop_ws_cons hw2 (by simp))
      have hsk : skipSpaces (w2 ++ 0x2c :: (bs ++ 0x5d :: r)) = skipSpaces (0x2c :: (bs ++ 0x5d :: r)) := by
        rw [skip_ws_cons hw2 (by decide), skipSpaces_cons_of_not (by decide)]
      rw [e, o1, o2, arrayRest_skip hsk, (ih bs hbs n r (by omega)).1]
      simp

def arrayElem (dec : Dec) (z : DV) (done : List DV) (n : Nat) (mem : List DV) (b : Bytes) : DRes :=
  match dec b (mem.headD z) with
  | .crash c => .crash c
  | .err x r e => .err (.array (done ++ x :: mem.tail)) r e
  | .ok x r => arrayElems dec z false (done ++ [x]) n mem.tail r

theorem arrayElems_first (dec : Dec) (z : DV) (done : List DV) (n : Nat) (mem : List DV) (b : Bytes) :
    arrayElems dec z true done (n + 1) mem b = arrayElem dec z done n mem (skipSpaces b) := by
  rw [arrayElems]; rfl

theorem arrayElems_next (dec : Dec) (z : DV) (done : List DV) (n : Nat) (mem : List DV) (b : Bytes) :
    arrayElems dec z false done (n + 1) mem b = match skipSpaces b with
      | [] => .err (.array (done ++ mem)) (skipSpaces b) .syntax
      | c :: t =>
        if c = 0x2c then arrayElem dec z done n mem (skipSpaces t)
        else if c = 0x5d then .ok (.array (done ++ mem)) t
        else .err (.array (done ++ mem)) (skipSpaces b) .syntax := by
  rw [arrayElems]; rfl

theorem arrayElem_none {dec : Dec} {z : DV} {n : Nat} {done mem : List DV} {b : Bytes}
    (h : ∀ x r, dec b (mem.headD z) ≠ .ok x r) : ∀ x r, arrayElem dec z done n mem b ≠ .ok x r := by
  intro x r
  unfold arrayElem
  split
  · simp
  · simp
  · rename_i e; exact absurd e (h _ _)

theorem arrayElems_skip {dec : Dec} {z : DV} {n : Nat} {done mem : List DV} {b b' : Bytes} (hn : n ≠ 0)
    (h : skipSpaces b = skipSpaces b') : arrayElems dec z false done n mem b = arrayElems dec z false done n mem b' := by
  cases n with
  | zero => exact absurd rfl hn
  | succ n => rw [arrayElems_next, arrayElems_next, h]

theorem arrayRest_of {p : DV} {b r : Bytes} (h : skipSpaces b = 0x5d :: r) : arrayRest p (b.length + 1) b = .ok p r :=
  arrayRest_close h

theorem mem_append' {P : DV → Prop} {a b : List DV} (ha : ∀ x ∈ a, P x) (hb : ∀ x ∈ b, P x) : ∀ x ∈ a ++ b, P x := by
  intro x hx
  rcases List.mem_append.1 hx with hx | hx
  · exact ha x hx
  · exact hb x hx

theorem array_elems {P : DV → Prop} {N : Nat} {dec : Dec} {f : JDec} {z : DV} (hd : RefP P N dec f) (hz : P z) :
    ∀ (xs : List Json) (m : Bytes), Derives (.elems xs) m → m.length < N → ∀ (done : List DV) (n : Nat) (mem : List DV) (r : Bytes),
      (∀ x ∈ done, P x) → (∀ x ∈ mem, P x) →
      (∀ x, arrayJ f z done (n + 1) xs mem = some x → (∃ d, x = .array d ∧ (∀ y ∈ d, P y)) ∧
        arrayElem dec z done n mem (skipSpaces (m ++ 0x5d :: r)) = .ok x r) ∧
      (arrayJ f z done (n + 1) xs mem = none → ∀ x r', arrayElem dec z done n mem (skipSpaces (m ++ 0x5d :: r)) ≠ .ok x r') := by
  intro xs
  induction xs with
  | nil => intro m h; cases h
  | cons j xs ih =>
    intro m h hN done n mem r hdone hmem
    have step : ∀ w1 b T, Ws w1 → Derives (.value j) b → b.length < N → NumStop T →
        (∀ x, f j (mem.headD z) = some x → P x ∧ ∃ r', (r' = T ∨ r' = skipSpaces T) ∧
          arrayElem dec z done n mem (skipSpaces (w1 ++ (b ++ T))) = arrayElems dec z false (done ++ [x]) n mem.tail r') ∧
        (f j (mem.headD z) = none → ∀ x r', arrayElem dec z done n mem (skipSpaces (w1 ++ (b ++ T))) ≠ .ok x r') := by
      intro w1 b T hw hj hb hT
      rw [skip_ws_value hw hj]
      obtain ⟨h1, h2⟩ := hd j b hj hb T (follow_of_numStop hT) (mem.headD z) (mem_headD hz hmem)
      constructor
      · intro x hx
        obtain ⟨hp, r', e, hr⟩ := h1 x hx
        refine ⟨hp, r', hr, ?_⟩
        rw [arrayElem, e]
      · intro hx
        exact arrayElem_none (h2 hx)
    cases h with
    | elemOne w1 w2 _ b hw1 hw2 hj =>
      have e : w1 ++ b ++ w2 ++ 0x5d :: r = w1 ++ (b ++ (w2 ++ 0x5d :: r)) := by simp
      simp only [List.length_append] at hN
      obtain ⟨s1, s2⟩ := step w1 b (w2 ++ 0x5d :: r) hw1 hj (by omega) (numStop_ws_cons hw2 (by simp))
      rw [e]
      simp only [arrayJ]
      cases hf : f j (mem.headD z) with
      | none => exact ⟨by simp, fun _ => s2 hf⟩
      | some x =>
        obtain ⟨hp, r', hr, es⟩ := s1 x hf
        have hsk : skipSpaces r' = 0x5d :: r := by rw [skip_or hr]; exact skip_ws_cons hw2 (by decide) r
        have : arrayElems dec z false (done ++ [x]) n mem.tail r' = .ok (.array (done ++ [x] ++ mem.tail)) r := by
          cases n with
          | zero => rw [arrayElems]; exact arrayRest_of hsk
          | succ n => rw [arrayElems_next, hsk]; simp
        rw [es, this]
        have hj' : arrayJ f z (done ++ [x]) n [] mem.tail = some (.array (done ++ [x] ++ mem.tail)) := by
          cases n <;> rfl
        simp only [hj']
        simp only [Option.some.injEq, reduceCtorEq, false_implies, and_true]
        rintro y rfl
        exact ⟨⟨_, rfl, mem_append' (mem_snoc hdone hp) (mem_tail hmem)⟩, rfl⟩
    | elemCons w1 w2 _ b _ bs hw1 hw2 hj hbs =>
      have e : w1 ++ b ++ w2 ++ 0x2c :: bs ++ 0x5d :: r = w1 ++ (b ++ (w2 ++ 0x2c :: (bs ++ 0x5d :: r))) := by simp
      simp only [List.length_append, List.length_cons] at hN
      obtain ⟨s1, s2⟩ := step w1 b (w2 ++ 0x2c :: (bs ++ 0x5d :: r)) hw1 hj (by omega) (numStop_ws_cons hw2 (by simp))
      rw [e]
      simp only [arrayJ]
      cases hf : f j (mem.headD z) with
      | none => exact ⟨by simp, fun _ => s2 hf⟩
      | some x =>
        obtain ⟨hp, r', hr, es⟩ := s1 x hf
        have hsk : skipSpaces r' = 0x2c :: (bs ++ 0x5d :: r) := by rw [skip_or hr]; exact skip_ws_cons hw2 (by decide) _
        rw [es]
        cases n with
        | zero =>
          have : arrayElems dec z false (done ++ [x]) 0 mem.tail r' = .ok (.array (done ++ [x] ++ mem.tail)) r := by
            rw [arrayElems]
            have hsk' : skipSpaces r' = skipSpaces (0x2c :: (bs ++ 0x5d :: r)) := by
              rw [hsk, skipSpaces_cons_of_not (by decide)]
            rw [arrayRest_skip hsk']
            have hlen := skipSpaces_length_le r'
            rw [hsk] at hlen
            simp only [List.length_cons, List.length_append] at hlen
            exact (arrayRest_elems _ xs bs hbs _ r (by omega)).1
          rw [this]
          simp only [arrayJ, Option.some.injEq, reduceCtorEq, false_implies, and_true]
          rintro y rfl
          exact ⟨⟨_, rfl, mem_append' (mem_snoc hdone hp) (mem_tail hmem)⟩, rfl⟩
        | succ n =>
          rw [arrayElems_next, hsk]
          simp only [if_true]
          exact ih bs hbs (by omega) (done ++ [x]) n mem.tail r (mem_snoc hdone hp) (mem_tail hmem)

theorem array_ref {P : DV → Prop} {N : Nat} {dec : Dec} {f : JDec} {z : DV} (hd : RefP P N dec f) (hz : P z) (hrej : Rej dec)
    (PS : DV → Prop) (hs : ∀ d, PS (.array d) ↔ ∀ y ∈ d, P y) (k : Nat) :
    RefP PS (N + 1) (decodeArray k dec z) (arrayTyJ k f z) := by
  intro j v hj hN r hf p hp
  have hnp := hasNull_value hj r
  have hmem : ∀ x ∈ (arrMem p), P x := by
    cases p <;> simp [sliceMem, arrMem]
    case array xs => exact (hs _).1 hp
  have other : ∀ c t, v = c :: t → c ≠ 0x5b → isNullJ j = false → ∀ x r', decodeArray k dec z (v ++ r) p ≠ .ok x r' := by
    intro c t e hc hn x r'
    unfold decodeArray
    rw [hnp, hn]
    simp only [Bool.false_eq_true, if_false]
    rw [e]
    simp only [List.cons_append]
    rw [if_pos (.inr hc)]
    exact inputErr_ne
  have open_ : ∀ u, v = 0x5b :: (u ++ [0x5d]) → isNullJ j = false → decodeArray k dec z (v ++ r) p =
      arrayElems dec z true [] k (arrMem p) (u ++ 0x5d :: r) := by
    intro u e hn
    unfold decodeArray
    rw [hnp, hn]
    simp only [Bool.false_eq_true, if_false]
    rw [e]
    simp only [List.cons_append, List.append_assoc, List.nil_append]
    rw [if_neg (by simp; omega)]
    cases p <;> rfl
  cases hj with
  | null =>
    refine ⟨?_, by simp [arrayTyJ]⟩
    intro x hx
    simp only [arrayTyJ, Option.some.injEq] at hx
    subst hx
    refine ⟨hp, r, ?_, .inl rfl⟩
    unfold decodeArray
    rw [hnp]; simp [isNullJ]
  | num s hs' =>
    obtain ⟨c, t, e, hc⟩ := jnumber_head hs'
    exact ⟨by simp [arrayTyJ], fun _ => other c t e (digit_range hc).2.2.2.2.1 rfl⟩
  | str s hs' =>
    obtain ⟨t, e⟩ := jstring_head hs'
    exact ⟨by simp [arrayTyJ], fun _ => other _ t e (by decide) rfl⟩
  | tru => exact ⟨by simp [arrayTyJ], fun _ => other _ _ rfl (by decide) rfl⟩
  | fls => exact ⟨by simp [arrayTyJ], fun _ => other _ _ rfl (by decide) rfl⟩
  | objNil => exact ⟨by simp [arrayTyJ], fun _ => other _ _ rfl (by decide) rfl⟩
  | obj => exact ⟨by simp [arrayTyJ], fun _ => other _ _ rfl (by decide) rfl⟩
  | arrNil w hw =>
    rw [open_ w rfl rfl]
    have hsk := skip_ws_cons hw (c := 0x5d) (by decide) r
    cases k with
    | zero =>
      rw [arrayElems, arrayRest_of hsk]
      have ej : arrayTyJ 0 f z (.arr []) p = some (.array ([] ++ arrMem p)) := by cases p <;> rfl
      rw [ej]
      simp only [ne_eq, not_true_eq_false, false_and, if_false, Option.some.injEq, reduceCtorEq, false_implies, and_true]
      rintro x rfl
      exact ⟨(hs _).2 (by simpa using hmem), r, rfl, .inl rfl⟩
    | succ k =>
      rw [arrayElems_first, hsk]
      refine ⟨by simp [arrayTyJ], fun _ => ?_⟩
      exact arrayElem_none (fun x r' => hrej r _ x r')
  | arr xs b hb =>
    rw [open_ b rfl rfl]
    have hxs : xs ≠ [] := by rintro rfl; cases hb
    have ej : arrayTyJ k f z (.arr xs) p = arrayJ f z [] k xs (arrMem p) := by
      simp only [arrayTyJ]
      rw [if_neg (fun h => hxs h.2)]
      cases p <;> rfl
    rw [ej]
    cases k with
    | zero =>
      rw [arrayElems]
      have := (arrayRest_elems (.array ([] ++ (arrMem p))) xs b hb (b ++ 0x5d :: r).length r (by simp)).2
      rw [this]
      simp only [arrayJ, Option.some.injEq, reduceCtorEq, false_implies, and_true]
      rintro x rfl
      exact ⟨(hs _).2 (by simpa using hmem), r, rfl, .inl rfl⟩
    | succ k =>
      rw [arrayElems_first]
      simp only [List.length_cons, List.length_append] at hN
      obtain ⟨k1, k2⟩ := array_elems hd hz xs b hb (by simp at hN; omega) [] k _ r (by simp) hmem
      refine ⟨?_, k2⟩
      intro x hx
      obtain ⟨⟨d, rfl, hd'⟩, e2⟩ := k1 x hx
      exact ⟨(hs _).2 hd', r, e2, .inl rfl⟩

end JC

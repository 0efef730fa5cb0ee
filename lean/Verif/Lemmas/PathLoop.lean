import Verif.Lemmas.Path
import Verif.Lemmas.DecMild
import Verif.Lemmas.DecFrame
import Verif.Spec.Path
/-! Where the path of an error leads: the loops of the decoders. -/
namespace JC
open Spec Props

/-- the error of a decoder on a value: its path is one of `S` -/
def PathErr (P : DV → Prop) (pd : PDec) (S : Json → List Bytes → Prop) : Prop := ∀ j v, Derives (.value j) v → ∀ r, Follow j r →
  ∀ p, P p → ∀ x r' s, pd (v ++ r) p = (.err x r' .unmarshalType, s) → S j s

theorem ok_of_erases {pd : PDec} {d : Dec} (he : Erases pd d) {b : Bytes} {p x : DV} {r : Bytes} {s : List Bytes}
    (h : pd b p = (.ok x r, s)) : d b p = .ok x r := by
  rw [← he b p, h]

theorem decimal_fmtNat (i : Nat) : Decimal i (fmtNat i) := ⟨fmtNat_jint i, (fmtNat_val i).1⟩

theorem under_type (s : Bytes) (p : List Bytes) : under s .unmarshalType p = s :: p := by simp [under]

theorem inputErrP_type {b : Bytes} {p x : DV} {r : Bytes} {e : Err} {s : List Bytes} (h : (inputErr b p, ([] : List Bytes)) = (.err x r e, s)) :
    s = [] := by
  injection h with _ h; exact h.symm

/-! ### slices -/

def sliceElemP (dec : PDec) (z : DV) (input : Bytes) (n : Nat) (done mem : List DV) (b : Bytes) : PRes :=
  match dec b (mem.headD z) with
  | (.crash c, _) => (.crash c, [])
  | (.err x _ e, s) =>
    match parseValue input with
    | .fail r e2 => (.err (.slice done (x :: mem.tail)) r e2, [])
    | .ok _ r => (.err (.slice done (x :: mem.tail)) r e, under (fmtNat done.length) e s)
  | (.ok x r, _) => sliceLoopP dec z input n (done ++ [x]) mem.tail r

theorem sliceLoopP_succ (dec : PDec) (z : DV) (input : Bytes) (n : Nat) (done mem : List DV) (b : Bytes) :
    sliceLoopP dec z input (n + 1) done mem b =
      if (skipSpaces b).head? = some 0x5d then (.ok (.slice done mem) (skipSpaces b).tail, [])
      else if done.isEmpty then sliceElemP dec z input n done mem (skipSpaces b)
      else match skipSpaces b with
        | [] => (.err (.slice done mem) (skipSpaces b) .syntax, [])
        | c :: t => if c ≠ 0x2c then (.err (.slice done mem) (skipSpaces b) .syntax, [])
          else sliceElemP dec z input n done mem (skipSpaces t) := by
  rw [sliceLoopP]; unfold sliceElemP; rfl

theorem sliceLoopP_skip {dec : PDec} {z : DV} {input : Bytes} {n : Nat} {done mem : List DV} {b b' : Bytes}
    (h : skipSpaces b = skipSpaces b') : sliceLoopP dec z input n done mem b = sliceLoopP dec z input n done mem b' := by
  cases n with
  | zero => rfl
  | succ n => rw [sliceLoopP_succ, sliceLoopP_succ, h]

theorem sliceLoopP_close {dec : PDec} {z : DV} {input : Bytes} {n : Nat} {done mem : List DV} {b r : Bytes}
    (h : skipSpaces b = 0x5d :: r) : sliceLoopP dec z input (n + 1) done mem b = (.ok (.slice done mem) r, []) := by
  rw [sliceLoopP_succ, h]; simp

theorem sliceLoopP_comma {dec : PDec} {z : DV} {input : Bytes} {n : Nat} {done mem : List DV} {b r : Bytes}
    (hd : done ≠ []) (h : skipSpaces b = 0x2c :: r) :
    sliceLoopP dec z input (n + 1) done mem b = sliceElemP dec z input n done mem (skipSpaces r) := by
  rw [sliceLoopP_succ, h]
  have : done.isEmpty = false := by cases done <;> simp_all
  simp [this]

/-- what an error of a list says: an element and its index, counted from `k` -/
def ElemPath (S : Json → List Bytes → Prop) (k : Nat) (xs : List Json) (s : List Bytes) : Prop :=
  ∃ (i : Nat) (x : Json) (s' : List Bytes), xs[i]? = some x ∧ s = fmtNat (k + i) :: s' ∧ S x s'

theorem elemPath_tail {S : Json → List Bytes → Prop} {k : Nat} {j : Json} {xs : List Json} {s : List Bytes}
    (h : ElemPath S (k + 1) xs s) : ElemPath S k (j :: xs) s := by
  obtain ⟨i, x, s', h1, h2, h3⟩ := h
  exact ⟨i + 1, x, s', by simpa using h1, by rw [h2]; congr 2; omega, h3⟩

theorem slice_elems_path {P : DV → Prop} {S : Json → List Bytes → Prop} {pd : PDec} {d : Dec} {z : DV} (he : Erases pd d) (hd : TrailOk d)
    (hm : PathErr P pd S) (hz : P z) {input rin : Bytes} (hin : ∃ v, parseValue input = .ok v rin) :
    ∀ (xs : List Json) (m : Bytes), Derives (.elems xs) m → ∀ (done mem : List DV) (n : Nat) (r : Bytes) x r' s, (∀ x ∈ mem, P x) →
      sliceElemP pd z input n done mem (skipSpaces (m ++ 0x5d :: r)) = (.err x r' .unmarshalType, s) → ElemPath S done.length xs s := by
  intro xs
  induction xs with
  | nil => intro m h; cases h
  | cons j xs ih =>
    intro m h done mem n r x r' s hmem herr
    have step : ∀ w1 b T, Ws w1 → Derives (.value j) b → NumStop T →
        sliceElemP pd z input n done mem (skipSpaces (w1 ++ (b ++ T))) = (.err x r' .unmarshalType, s) →
        ElemPath S done.length (j :: xs) s ∨ ∃ y, sliceLoopP pd z input n (done ++ [y]) mem.tail T = (.err x r' .unmarshalType, s) := by
      intro w1 b T hw hj hT h
      rw [skip_ws_value hw hj] at h
      unfold sliceElemP at h
      split at h
      · simp at h
      · rename_i e2
        obtain ⟨vin, hin⟩ := hin
        rw [hin] at h
        simp only [Prod.mk.injEq] at h
        obtain ⟨h, h'⟩ := h
        injection h with _ _ h; subst h
        rw [under_type] at h'
        exact .inl ⟨0, j, _, rfl, h'.symm, hm j b hj T (follow_of_numStop hT) _ (mem_headD hz hmem) _ _ _ e2⟩
      · rename_i y r2 _ e2
        refine .inr ⟨y, ?_⟩
        rw [← h]
        exact sliceLoopP_skip (skip_or (hd j b hj T (follow_of_numStop hT) _ _ _ (ok_of_erases he e2))).symm
    cases h with
    | elemOne w1 w2 _ b hw1 hw2 hj =>
      have e' : w1 ++ b ++ w2 ++ 0x5d :: r = w1 ++ (b ++ (w2 ++ 0x5d :: r)) := by simp
      rw [e'] at herr
      rcases step w1 b _ hw1 hj (numStop_ws_cons hw2 (by simp)) herr with h | ⟨y, h⟩
      · exact h
      · cases n with
        | zero => simp [sliceLoopP] at h
        | succ n =>
          rw [sliceLoopP_close (skip_ws_cons hw2 (by decide) r)] at h
          simp at h
    | elemCons w1 w2 _ b _ bs hw1 hw2 hj hbs =>
      have e' : w1 ++ b ++ w2 ++ 0x2c :: bs ++ 0x5d :: r = w1 ++ (b ++ (w2 ++ 0x2c :: (bs ++ 0x5d :: r))) := by simp
      rw [e'] at herr
      rcases step w1 b _ hw1 hj (numStop_ws_cons hw2 (by simp)) herr with h | ⟨y, h⟩
      · exact h
      · cases n with
        | zero => simp [sliceLoopP] at h
        | succ n =>
          rw [sliceLoopP_comma (by simp) (skip_ws_cons hw2 (by decide) _)] at h
          have := ih bs hbs _ _ _ _ _ _ _ (mem_tail hmem) h
          rw [List.length_append] at this
          exact elemPath_tail this

theorem decodeSliceP_eq (dec : PDec) (z : DV) (b : Bytes) (p : DV) : decodeSliceP dec z b p =
    if hasNullPrefix b then (.ok .sliceNil (b.drop 4), [])
    else match b with
      | [] => (inputErr b p, [])
      | c :: t =>
        if b.length < 2 ∨ c ≠ 0x5b then (inputErr b p, [])
        else sliceLoopP dec z b (b.length + 1) [] (sliceMem p) t := by
  cases p <;> rfl

/-- what an error of a decoder for slices says -/
def SlicePath (S : Json → List Bytes → Prop) (j : Json) (s : List Bytes) : Prop :=
  (s = [] ∧ j ≠ .null ∧ ∀ xs, j ≠ .arr xs) ∨ ∃ xs, j = .arr xs ∧ ElemPath S 0 xs s

theorem slice_path {P PS : DV → Prop} {S : Json → List Bytes → Prop} {pd : PDec} {d : Dec} {z : DV} (he : Erases pd d) (hd : TrailOk d)
    (hm : PathErr P pd S) (hz : P z) (hs : ∀ d s, PS (.slice d s) → ∀ y ∈ d ++ s, P y) :
    PathErr PS (decodeSliceP pd z) (SlicePath S) := by
  intro j v hj r hf p hp x r' s h
  have hpv := parseValue_complete hj hf
  have hnp := hasNull_value hj r
  rw [decodeSliceP_eq] at h
  split at h
  · simp at h
  · rename_i hnn
    obtain ⟨c, t, rfl, hc⟩ := derives_head hj
    simp only [List.cons_append] at h hpv
    split at h
    · rename_i hb0
      refine .inl ⟨inputErrP_type h, ?_, ?_⟩
      · rintro rfl; rw [hnp] at hnn; simp [isNullJ] at hnn
      · rintro xs rfl
        simp only [headOk] at hc
        subst hc
        rcases hb0 with hb0 | hb0
        · cases hj <;> simp at hb0 <;> omega
        · exact hb0 rfl
    · rename_i hb0
      have hc5 : c = 0x5b := Classical.byContradiction fun h => hb0 (.inr h)
      subst hc5
      cases hj with
      | num s hs => exact absurd rfl (digit_range hc).2.2.2.2.1
      | str s hs => simp [headOk] at hc
      | arrNil w hw =>
        rw [show w ++ [0x5d] ++ r = w ++ 0x5d :: r by simp, sliceLoopP_close (skip_ws_cons hw (by decide) r)] at h
        simp at h
      | arr xs b hb =>
        obtain ⟨c, t, eh, h1, h2⟩ := derives_elems_head hb (0x5d :: r)
        rw [show b ++ [0x5d] ++ r = b ++ 0x5d :: r by simp, sliceLoopP_succ, if_neg (by rw [eh]; simpa using h2),
          if_pos (by rfl : (List.isEmpty ([] : List DV)) = true)] at h
        rw [show b ++ [0x5d] ++ r = b ++ 0x5d :: r by simp] at hpv
        refine .inr ⟨xs, rfl, slice_elems_path he hd hm hz ⟨_, hpv⟩ xs b hb _ _ _ _ _ _ _ ?_ h⟩
        cases p <;> simp [sliceMem] <;> exact fun x hx => hs _ _ hp x (by simpa using hx)

/-! ### arrays -/

/-- at a closing bracket a decoder does not report a type -/
def NoBr (d : Dec) : Prop := ∀ t p x r, d (0x5d :: t) p ≠ .err x r .unmarshalType

def arrayElemP (dec : PDec) (z : DV) (done : List DV) (n : Nat) (mem : List DV) (b : Bytes) : PRes :=
  match dec b (mem.headD z) with
  | (.crash c, _) => (.crash c, [])
  | (.err x r e, s) => (.err (.array (done ++ x :: mem.tail)) r e, under (fmtNat done.length) e s)
  | (.ok x r, _) => arrayElemsP dec z false (done ++ [x]) n mem.tail r

theorem arrayElemsP_first (dec : PDec) (z : DV) (done : List DV) (n : Nat) (mem : List DV) (b : Bytes) :
    arrayElemsP dec z true done (n + 1) mem b = arrayElemP dec z done n mem (skipSpaces b) := by
  rw [arrayElemsP]; rfl

theorem arrayElemsP_next (dec : PDec) (z : DV) (done : List DV) (n : Nat) (mem : List DV) (b : Bytes) :
    arrayElemsP dec z false done (n + 1) mem b = match skipSpaces b with
      | [] => (.err (.array (done ++ mem)) (skipSpaces b) .syntax, [])
      | c :: t =>
        if c = 0x2c then arrayElemP dec z done n mem (skipSpaces t)
        else if c = 0x5d then (.ok (.array (done ++ mem)) t, [])
        else (.err (.array (done ++ mem)) (skipSpaces b) .syntax, []) := by
  rw [arrayElemsP]; rfl

/-- as `ElemPath`, among the first `n` elements -/
def ElemPathN (S : Json → List Bytes → Prop) (k n : Nat) (xs : List Json) (s : List Bytes) : Prop :=
  ∃ (i : Nat) (x : Json) (s' : List Bytes), i < n ∧ xs[i]? = some x ∧ s = fmtNat (k + i) :: s' ∧ S x s'

theorem elemPathN_tail {S : Json → List Bytes → Prop} {k n : Nat} {j : Json} {xs : List Json} {s : List Bytes}
    (h : ElemPathN S (k + 1) n xs s) : ElemPathN S k (n + 1) (j :: xs) s := by
  obtain ⟨i, x, s', h0, h1, h2, h3⟩ := h
  exact ⟨i + 1, x, s', by omega, by simpa using h1, by rw [h2]; congr 2; omega, h3⟩

theorem array_elems_path {P : DV → Prop} {S : Json → List Bytes → Prop} {pd : PDec} {d : Dec} {z : DV} (he : Erases pd d) (hd : TrailOk d)
    (hm : PathErr P pd S) (hz : P z) :
    ∀ (xs : List Json) (m : Bytes), Derives (.elems xs) m → ∀ (done : List DV) (n : Nat) (mem : List DV) (r : Bytes) x r' s, (∀ x ∈ mem, P x) →
      arrayElemP pd z done n mem (skipSpaces (m ++ 0x5d :: r)) = (.err x r' .unmarshalType, s) → ElemPathN S done.length (n + 1) xs s := by
  intro xs
  induction xs with
  | nil => intro m h; cases h
  | cons j xs ih =>
    intro m h done n mem r x r' s hmem e
    have step : ∀ w1 b T, Ws w1 → Derives (.value j) b → NumStop T →
        arrayElemP pd z done n mem (skipSpaces (w1 ++ (b ++ T))) = (.err x r' .unmarshalType, s) →
        ElemPathN S done.length (n + 1) (j :: xs) s ∨
        ∃ y r2, (r2 = T ∨ r2 = skipSpaces T) ∧ arrayElemsP pd z false (done ++ [y]) n mem.tail r2 = (.err x r' .unmarshalType, s) := by
      intro w1 b T hw hj hT h
      rw [skip_ws_value hw hj] at h
      unfold arrayElemP at h
      split at h
      · simp at h
      · rename_i e2
        simp only [Prod.mk.injEq] at h
        obtain ⟨h, h'⟩ := h
        injection h with _ _ h; subst h
        rw [under_type] at h'
        exact .inl ⟨0, j, _, by omega, rfl, h'.symm, hm j b hj T (follow_of_numStop hT) _ (mem_headD hz hmem) _ _ _ e2⟩
      · rename_i y r2 _ e2
        exact .inr ⟨y, r2, hd j b hj T (follow_of_numStop hT) _ _ _ (ok_of_erases he e2), h⟩
    cases h with
    | elemOne w1 w2 _ b hw1 hw2 hj =>
      have e' : w1 ++ b ++ w2 ++ 0x5d :: r = w1 ++ (b ++ (w2 ++ 0x5d :: r)) := by simp
      rw [e'] at e
      rcases step w1 b _ hw1 hj (numStop_ws_cons hw2 (by simp)) e with h | ⟨y, r2, hr, h⟩
      · exact h
      · have hsk : skipSpaces r2 = 0x5d :: r := by rw [skip_or hr]; exact skip_ws_cons hw2 (by decide) r
        cases n with
        | zero => rw [arrayElemsP, arrayRest_of hsk] at h; simp at h
        | succ n =>
          rw [arrayElemsP_next, hsk] at h
          simp only [] at h
          rw [if_neg (by decide), if_pos trivial] at h
          simp at h
    | elemCons w1 w2 _ b _ bs hw1 hw2 hj hbs =>
      have e' : w1 ++ b ++ w2 ++ 0x2c :: bs ++ 0x5d :: r = w1 ++ (b ++ (w2 ++ 0x2c :: (bs ++ 0x5d :: r))) := by simp
      rw [e'] at e
      rcases step w1 b _ hw1 hj (numStop_ws_cons hw2 (by simp)) e with h | ⟨y, r2, hr, h⟩
      · exact h
      · have hsk : skipSpaces r2 = 0x2c :: (bs ++ 0x5d :: r) := by rw [skip_or hr]; exact skip_ws_cons hw2 (by decide) _
        cases n with
        | zero =>
          have hlen := skipSpaces_length_le r2
          rw [hsk] at hlen
          simp only [List.length_cons, List.length_append] at hlen
          rw [arrayElemsP, arrayRest_skip (b' := 0x2c :: (bs ++ 0x5d :: r)) (by rw [hsk, skipSpaces_cons_of_not (by decide)]),
            (arrayRest_elems _ xs bs hbs _ r (by omega)).1] at h
          simp at h
        | succ n =>
          rw [arrayElemsP_next, hsk] at h
          simp only [if_true] at h
          have := ih bs hbs _ _ _ _ _ _ _ (mem_tail hmem) h
          rw [List.length_append] at this
          exact elemPathN_tail this

/-- what an error of a decoder for arrays says -/
def ArrayPath (n : Nat) (S : Json → List Bytes → Prop) (j : Json) (s : List Bytes) : Prop :=
  (s = [] ∧ j ≠ .null ∧ ∀ xs, j ≠ .arr xs) ∨ ∃ xs, j = .arr xs ∧ ElemPathN S 0 n xs s

def arrayMem : DV → List DV
  | .array xs => xs
  | _ => []

theorem decodeArrayP_eq (n : Nat) (dec : PDec) (z : DV) (b : Bytes) (p : DV) : decodeArrayP n dec z b p =
    if hasNullPrefix b then (.ok p (b.drop 4), [])
    else match b with
      | [] => (inputErr b p, [])
      | c :: t =>
        if b.length < 2 ∨ c ≠ 0x5b then (inputErr b p, [])
        else arrayElemsP dec z true [] n (arrayMem p) t := by
  cases p <;> rfl

theorem array_path {P PS : DV → Prop} {S : Json → List Bytes → Prop} {pd : PDec} {d : Dec} {z : DV} (he : Erases pd d) (hd : TrailOk d)
    (hm : PathErr P pd S) (hrej : Rej d) (hbr : NoBr d) (hz : P z) (hs : ∀ d, PS (.array d) → ∀ y ∈ d, P y) (n : Nat) :
    PathErr PS (decodeArrayP n pd z) (ArrayPath n S) := by
  intro j v hj r hf p hp x r' s h
  have hnp := hasNull_value hj r
  rw [decodeArrayP_eq] at h
  split at h
  · simp at h
  · rename_i hnn
    obtain ⟨c, t, rfl, hc⟩ := derives_head hj
    simp only [List.cons_append] at h
    split at h
    · rename_i hb0
      refine .inl ⟨inputErrP_type h, ?_, ?_⟩
      · rintro rfl; rw [hnp] at hnn; simp [isNullJ] at hnn
      · rintro xs rfl
        simp only [headOk] at hc
        subst hc
        rcases hb0 with hb0 | hb0
        · cases hj <;> simp at hb0 <;> omega
        · exact hb0 rfl
    · rename_i hb0
      have hc5 : c = 0x5b := Classical.byContradiction fun h => hb0 (.inr h)
      subst hc5
      cases hj with
      | num s hs => exact absurd rfl (digit_range hc).2.2.2.2.1
      | str s hs => simp [headOk] at hc
      | arrNil w hw =>
        have hsk := skip_ws_cons hw (c := 0x5d) (by decide) r
        rw [show w ++ [0x5d] ++ r = w ++ 0x5d :: r by simp] at h
        cases n with
        | zero => rw [arrayElemsP, arrayRest_of hsk] at h; simp at h
        | succ n =>
          rw [arrayElemsP_first, hsk] at h
          unfold arrayElemP at h
          split at h
          · simp at h
          · rename_i y r2 e s2 e2
            simp only [Prod.mk.injEq] at h
            injection h.1 with _ _ h3; subst h3
            have := he (0x5d :: r) ((arrayMem p).headD z)
            rw [e2] at this
            exact absurd this.symm (hbr _ _ _ _)
          · rename_i e2
            exact absurd (ok_of_erases he e2) (hrej _ _ _ _)
      | arr xs b hb =>
        rw [show b ++ [0x5d] ++ r = b ++ 0x5d :: r by simp] at h
        cases n with
        | zero =>
          rw [arrayElemsP, (arrayRest_elems _ xs b hb (b ++ 0x5d :: r).length r (by simp)).2] at h
          simp at h
        | succ n =>
          rw [arrayElemsP_first] at h
          refine .inr ⟨xs, rfl, array_elems_path he hd hm hz xs b hb _ _ _ _ _ _ _ ?_ h⟩
          cases p <;> simp [arrayMem] <;> exact fun x hx => hs _ hp x hx

/-! ### maps -/

def mapMemberP (k : KTy) (dec : PDec) (z p : DV) (fresh : Bool) (input : Bytes) (n : Nat) (m : List (MK × DV)) (b : Bytes) : PRes :=
  match memberKey (decodeKey k) true b with
  | .inl c => (.crash c, [])
  | .inr (.inl (r, e)) => (.err (if fresh then p else .map m) r e, [])
  | .inr (.inr (kv, b)) =>
    match dec b z with
    | (.crash c, _) => (.crash c, [])
    | (.err _ _ e, s) =>
      match parseValue input with
      | .fail r e2 => (.err (if fresh then p else .map m) r e2, [])
      | .ok _ r => (.err (if fresh then p else .map m) r e, under (keyShown k (keyOf kv)) e s)
    | (.ok v r, _) => mapLoopP k dec z p fresh input n false (mapSet (keyOf kv) v m) r

section
variable {k : KTy} {dec : PDec} {z p : DV} {fresh : Bool} {input : Bytes} {n : Nat} {m : List (MK × DV)}

theorem mapLoopP_close {first : Bool} {b r : Bytes} (h : skipSpaces b = 0x7d :: r) :
    mapLoopP k dec z p fresh input (n + 1) first m b = (.ok (.map m) r, []) := by
  rw [mapLoopP]; simp only [h]; simp

theorem mapLoopP_comma {b t : Bytes} (h : skipSpaces b = 0x2c :: t) :
    mapLoopP k dec z p fresh input (n + 1) false m b = mapMemberP k dec z p fresh input n m (skipSpaces t) := by
  rw [mapLoopP, mapMemberP]; simp only [h]
  rw [if_neg (by simp), memberKey_comma]
  rfl

theorem mapLoopP_first {b : Bytes} (h : (skipSpaces b).head? ≠ some 0x7d) :
    mapLoopP k dec z p fresh input (n + 1) true m b = mapMemberP k dec z p fresh input n m (skipSpaces b) := by
  rw [mapLoopP, mapMemberP]
  simp only []
  rw [if_neg h]
  rfl

theorem mapLoopP_skip {first : Bool} {b b' : Bytes} (h : skipSpaces b = skipSpaces b') :
    mapLoopP k dec z p fresh input n first m b = mapLoopP k dec z p fresh input n first m b' := by
  cases n with
  | zero => rfl
  | succ n => rw [mapLoopP, mapLoopP]; simp only [h]
end

theorem objectKeyError_type (b : Bytes) (e : Err) : (objectKeyError b e).2 ≠ .unmarshalType := by
  unfold objectKeyError
  repeat' split
  all_goals simp_all

/-- an error in a key is not about a type -/
theorem memberKey_type {key : Bytes → DRes} {first : Bool} {b r : Bytes} : memberKey key first b ≠ .inr (.inl (r, .unmarshalType)) := by
  have one : ∀ b, memberKey key true b ≠ .inr (.inl (r, .unmarshalType)) := by
    intro b h
    unfold memberKey at h
    simp only [if_true] at h
    split at h
    · simp at h
    · split at h
      · simp at h
      · rename_i r0 e0 _
        injection h with h; injection h with h
        exact objectKeyError_type r0 e0 (by rw [h])
      · split at h
        · simp at h
        · split at h <;> simp at h
  cases first with
  | true => exact one b
  | false =>
    cases b with
    | nil => simp [memberKey]
    | cons c t =>
      by_cases hc : c = 0x2c
      · subst hc; rw [memberKey_comma]; exact one _
      · simp [memberKey, hc]

theorem jstring_unq {raw : Bytes} (h : JString raw) : KeyMeans raw (unq raw) := (keyMeans_unq h _).2 rfl

/-- the key that a member is reported with -/
theorem decodeKey_text {k : KTy} {raw r : Bytes} {d : DV} {r' : Bytes} (hk : JString raw) (h : decodeKey k (raw ++ r) = .ok d r') :
    KeyText k raw (keyShown k (keyOf d)) := by
  have hn : hasNullPrefix (raw ++ r) = false := by
    obtain ⟨t, rfl⟩ := jstring_head hk; exact hasNull_cons (by decide)
  cases k with
  | text tk =>
    rw [decodeKey_text_str tk hk] at h
    cases ha : tk.answer (unq raw) with
    | some e => rw [ha] at h; simp at h
    | none =>
      rw [ha] at h
      injection h with h _; subst h
      exact ⟨_, jstring_unq hk, ha, rfl⟩
  | str =>
    simp only [decodeKey, decodeString_ok hk] at h
    injection h with h _; subst h
    exact jstring_unq hk
  | int k =>
    obtain ⟨nn, hu⟩ := unquote_ok hk r
    simp only [decodeKey, decodeFromString, hn, Bool.false_eq_true, if_false, hu] at h
    have fin : ∀ l s z, unq raw = l ++ s → Ws s → (IntLit l z ∨ (l = bs! "null" ∧ z = 0)) → KeyText (.int k) raw (keyShown (.int k) (keyOf (.int z))) := by
      intro l s z e hs hl
      refine ⟨l, s, z, fmtNat z.natAbs, e ▸ jstring_unq hk, hs, hl, decimal_fmtNat _, ?_⟩
      simp only [keyOf, keyShown, MK.text, fmtInt]
    split at h
    · simp at h
    · simp at h
    · rename_i p v' ed
      split at h
      · simp at h
      · rename_i hs
        injection h with h _; subst h
        have hw : Ws v' := skipSpaces_eq_nil (by simpa using hs)
        unfold decodeInt at ed
        split at ed
        · rename_i hn2
          injection ed with e3 e4
          subst e3 e4
          exact fin _ _ 0 (hasNull_take hn2) hw (.inr ⟨rfl, rfl⟩)
        · rename_i hn2
          simp only [] at ed
          split at ed
          · rename_i he
            injection ed with e3 e4
            rcases (C10_only k (unq raw) _).2 he with ⟨h1, _⟩ | ⟨l, z, e5, hl, _, hz, _⟩
            · exfalso
              apply hn2
              have : (unq raw).length ≥ 4 := by
                have := congrArg List.length h1
                simp at this; omega
              simp [hasNullPrefix, h1, this]
            · rw [e4] at e5
              rw [← e3, hz]
              exact fin l v' z e5 hw (.inl (kindLit_int hl))
          · simp at ed

/-- what an error of an object says: a member and its key -/
def MemberPath (T : Bytes → Bytes → Prop) (S : Json → List Bytes → Prop) (ms : List (Bytes × Json)) (s : List Bytes) : Prop :=
  ∃ raw x d s', (raw, x) ∈ ms ∧ T raw d ∧ s = d :: s' ∧ S x s'

theorem memberPath_tail {T : Bytes → Bytes → Prop} {S : Json → List Bytes → Prop} {m : Bytes × Json} {ms : List (Bytes × Json)} {s : List Bytes}
    (h : MemberPath T S ms s) : MemberPath T S (m :: ms) s := by
  obtain ⟨raw, x, d, s', h1, h2, h3, h4⟩ := h
  exact ⟨raw, x, d, s', List.mem_cons_of_mem _ h1, h2, h3, h4⟩

theorem map_members_path {P : DV → Prop} {S : Json → List Bytes → Prop} {pd : PDec} {d : Dec} {z : DV} (he : Erases pd d) (hd : TrailOk d)
    (hm : PathErr P pd S) (hz : P z) (k : KTy) (p : DV) (fresh : Bool) {input rin : Bytes} (hin : ∃ v, parseValue input = .ok v rin) :
    ∀ (ms : List (Bytes × Json)) (u : Bytes), Derives (.members ms) u → ∀ (m : List (MK × DV)) (n : Nat) (r : Bytes) x r' s,
      mapMemberP k pd z p fresh input n m (skipSpaces (u ++ 0x7d :: r)) = (.err x r' .unmarshalType, s) → MemberPath (KeyText k) S ms s := by
  intro ms
  induction ms with
  | nil => intro u h; cases h
  | cons kj ms ih =>
    intro u h m n r x r' s herr
    obtain ⟨raw, j⟩ := kj
    have step : ∀ w1 w2 w3 b T, Ws w1 → JString raw → Ws w2 → Ws w3 → Derives (.value j) b → NumStop T →
        mapMemberP k pd z p fresh input n m (skipSpaces (w1 ++ (raw ++ (w2 ++ 0x3a :: (w3 ++ (b ++ T)))))) = (.err x r' .unmarshalType, s) →
        MemberPath (KeyText k) S ((raw, j) :: ms) s ∨ ∃ m', mapLoopP k pd z p fresh input n false m' T = (.err x r' .unmarshalType, s) := by
      intro w1 w2 w3 b T hw1 hk hw2 hw3 hj hT h
      rw [skipSpaces_ws_append hw1, jstring_skip hk] at h
      cases hkey : decodeKey k (raw ++ (w2 ++ 0x3a :: (w3 ++ (b ++ T)))) with
      | crash | err =>
        all_goals
          exfalso
          unfold mapMemberP at h
          split at h
          · simp at h
          · rename_i hmk
            simp only [Prod.mk.injEq] at h
            injection h.1 with _ _ h; subst h
            exact memberKey_type hmk
          · rename_i hmk
            exact memberKey_no (key := decodeKey k) (by intro x r; rw [hkey]; simp) _ hmk
      | ok d rr =>
        have := decodeKey_rest hk k _ hkey
        subst this
        rw [mapMemberP, memberKey_ok hk hw2 hkey, skip_ws_value hw3 hj] at h
        simp only [] at h
        split at h
        · simp at h
        · rename_i e2
          obtain ⟨vin, hin⟩ := hin
          rw [hin] at h
          simp only [Prod.mk.injEq] at h
          obtain ⟨h, h'⟩ := h
          injection h with _ _ h; subst h
          rw [under_type] at h'
          exact .inl ⟨raw, j, _, _, by simp, decodeKey_text hk hkey, h'.symm, hm j b hj T (follow_of_numStop hT) _ hz _ _ _ e2⟩
        · rename_i y r2 _ e2
          refine .inr ⟨mapSet (keyOf d) y m, ?_⟩
          rw [← h]
          exact mapLoopP_skip (skip_or (hd j b hj T (follow_of_numStop hT) _ _ _ (ok_of_erases he e2))).symm
    cases h with
    | memOne w1 w2 w3 w4 _ _ b hw1 hw2 hw3 hw4 hk hj =>
      have e' : w1 ++ raw ++ w2 ++ 0x3a :: (w3 ++ b ++ w4) ++ 0x7d :: r =
          w1 ++ (raw ++ (w2 ++ 0x3a :: (w3 ++ (b ++ (w4 ++ 0x7d :: r))))) := by simp
      rw [e'] at herr
      rcases step w1 w2 w3 b _ hw1 hk hw2 hw3 hj (numStop_ws_cons hw4 (by simp)) herr with h | ⟨m', h⟩
      · exact h
      · cases n with
        | zero => simp [mapLoopP] at h
        | succ n =>
          rw [mapLoopP_close (skip_ws_cons hw4 (by decide) r)] at h
          simp at h
    | memCons w1 w2 w3 w4 _ _ b _ bs hw1 hw2 hw3 hw4 hk hj hbs =>
      have e' : w1 ++ raw ++ w2 ++ 0x3a :: (w3 ++ b ++ w4 ++ 0x2c :: bs) ++ 0x7d :: r =
          w1 ++ (raw ++ (w2 ++ 0x3a :: (w3 ++ (b ++ (w4 ++ 0x2c :: (bs ++ 0x7d :: r)))))) := by simp
      rw [e'] at herr
      rcases step w1 w2 w3 b _ hw1 hk hw2 hw3 hj (numStop_ws_cons hw4 (by simp)) herr with h | ⟨m', h⟩
      · exact h
      · cases n with
        | zero => simp [mapLoopP] at h
        | succ n =>
          rw [mapLoopP_comma (skip_ws_cons hw4 (by decide) _)] at h
          exact memberPath_tail (ih bs hbs _ _ _ _ _ _ h)

/-- what an error of a decoder for objects says -/
def ObjPath (T : Bytes → Bytes → Prop) (S : Json → List Bytes → Prop) (j : Json) (s : List Bytes) : Prop :=
  (s = [] ∧ j ≠ .null ∧ ∀ ms, j ≠ .obj ms) ∨ ∃ ms, j = .obj ms ∧ MemberPath T S ms s

theorem not_obj {j : Json} {c : UInt8} {t : Bytes} {r : Bytes} (hj : Derives (.value j) (c :: t)) (hc : headOk j c)
    (hnn : ¬ hasNullPrefix ((c :: t) ++ r) = true) (hb0 : (c :: (t ++ r)).length < 2 ∨ c ≠ 0x7b) : j ≠ .null ∧ ∀ ms, j ≠ .obj ms := by
  have hnp := hasNull_value hj r
  constructor
  · rintro rfl; rw [hnp] at hnn; simp [isNullJ] at hnn
  · rintro xs rfl
    simp only [headOk] at hc
    subst hc
    rcases hb0 with hb0 | hb0
    · cases hj <;> simp at hb0 <;> omega
    · exact hb0 rfl

theorem map_path {P : DV → Prop} (PS : DV → Prop) {S : Json → List Bytes → Prop} {pd : PDec} {d : Dec} {z : DV} (he : Erases pd d) (hd : TrailOk d)
    (hm : PathErr P pd S) (hz : P z) (k : KTy) : PathErr PS (decodeMapP k pd z) (ObjPath (KeyText k) S) := by
  intro j v hj r hf p _ x r' s h
  have hpv := parseValue_complete hj hf
  have loop : ∀ (b : Bytes) (fresh : Bool) n (m : List (MK × DV)) (ms : List (Bytes × Json)) (input : Bytes), (∃ v, parseValue input = .ok v r) →
      Derives (.members ms) b → mapLoopP k pd z p fresh input n true m (b ++ 0x7d :: r) = (.err x r' .unmarshalType, s) →
      MemberPath (KeyText k) S ms s := by
    intro b fresh n m ms input hin hb h
    cases n with
    | zero => simp [mapLoopP] at h
    | succ n =>
      obtain ⟨t, eh⟩ := derives_members_head hb (0x7d :: r)
      rw [mapLoopP_first (by rw [eh]; simp)] at h
      exact map_members_path he hd hm hz k p fresh hin ms b hb _ _ _ _ _ _ h
  have close : ∀ (w : Bytes) (fresh : Bool) n (m : List (MK × DV)) (input : Bytes), Ws w →
      mapLoopP k pd z p fresh input n true m (w ++ 0x7d :: r) ≠ (.err x r' .unmarshalType, s) := by
    intro w fresh n m input hw h
    cases n with
    | zero => simp [mapLoopP] at h
    | succ n =>
      rw [mapLoopP_close (skip_ws_cons hw (by decide) r)] at h
      simp at h
  unfold decodeMapP at h
  split at h
  · simp at h
  · rename_i hnn
    obtain ⟨c, t, rfl, hc⟩ := derives_head hj
    simp only [List.cons_append] at h hpv
    split at h
    · rename_i hb0
      exact .inl ⟨inputErrP_type h, not_obj hj hc hnn hb0⟩
    · rename_i hb0
      have hc5 : c = 0x7b := Classical.byContradiction fun h => hb0 (.inr h)
      subst hc5
      cases hj with
      | num s hs => exact absurd rfl (digit_range hc).2.2.2.2.2.1
      | str s hs => simp [headOk] at hc
      | objNil w hw =>
        rw [show w ++ [0x7d] ++ r = w ++ 0x7d :: r by simp] at h
        split at h
        · exact absurd h (close _ _ _ _ _ hw)
        · exact absurd h (close _ _ _ _ _ hw)
      | obj ms b hb =>
        rw [show b ++ [0x7d] ++ r = b ++ 0x7d :: r by simp] at h hpv
        split at h
        · exact .inr ⟨ms, rfl, loop _ _ _ _ _ _ ⟨_, hpv⟩ hb h⟩
        · exact .inr ⟨ms, rfl, loop _ _ _ _ _ _ ⟨_, hpv⟩ hb h⟩

/-! ### structs -/

def structFieldP (c : DCfg) (names : List Bytes) (decs : List PDec) (input : Bytes) (n : Nat) (fs : List DV) (k b : Bytes) : PRes :=
  match pickField c names k with
  | none =>
    if c.disallowUnknown then (.err (.struct fs) b (.other 2), [])
    else match parseValue b with
      | .fail r e => (.err (.struct fs) r e, [])
      | .ok _ r => structLoopP c names decs input n false fs r
  | some i =>
    match decs[i]? with
    | none => (.crash .panic, [])
    | some dec =>
      match dec b (fs.getD i (.user none)) with
      | (.crash c, _) => (.crash c, [])
      | (.err x _ e, s) =>
        match parseValue input with
        | .fail r e2 => (.err (.struct (fs.set i x)) r e2, [])
        | .ok _ r => (.err (.struct (fs.set i x)) r e, under k e s)
      | (.ok x r, _) => structLoopP c names decs input n false (fs.set i x) r

def structMemberP (c : DCfg) (names : List Bytes) (decs : List PDec) (input : Bytes) (n : Nat) (fs : List DV) (b : Bytes) : PRes :=
  match memberKey fieldKey true b with
  | .inl c => (.crash c, [])
  | .inr (.inl (r, e)) => (.err (.struct fs) r e, [])
  | .inr (.inr (kv, b)) => structFieldP c names decs input n fs (match kv with | .string s => s | _ => []) b

section
variable {c : DCfg} {names : List Bytes} {decs : List PDec} {input : Bytes} {n : Nat} {fs : List DV}

theorem structLoopP_succ {first : Bool} {b : Bytes} :
    structLoopP c names decs input (n + 1) first fs b =
      if (skipSpaces b).head? = some 0x7d then (.ok (.struct fs) (skipSpaces b).tail, [])
      else match memberKey fieldKey first (skipSpaces b) with
        | .inl c => (.crash c, [])
        | .inr (.inl (r, e)) => (.err (.struct fs) r e, [])
        | .inr (.inr (kv, b)) => structFieldP c names decs input n fs (match kv with | .string s => s | _ => []) b := by
  rw [structLoopP]; rfl

theorem structLoopP_close {first : Bool} {b r : Bytes} (h : skipSpaces b = 0x7d :: r) :
    structLoopP c names decs input (n + 1) first fs b = (.ok (.struct fs) r, []) := by
  rw [structLoopP_succ, h]; simp

theorem structLoopP_comma {b t : Bytes} (h : skipSpaces b = 0x2c :: t) :
    structLoopP c names decs input (n + 1) false fs b = structMemberP c names decs input n fs (skipSpaces t) := by
  rw [structLoopP_succ, structMemberP, h, memberKey_comma]
  rw [if_neg (by simp)]

theorem structLoopP_first {b : Bytes} (h : (skipSpaces b).head? ≠ some 0x7d) :
    structLoopP c names decs input (n + 1) true fs b = structMemberP c names decs input n fs (skipSpaces b) := by
  rw [structLoopP_succ, structMemberP, if_neg h]

theorem structLoopP_skip {first : Bool} {b b' : Bytes} (h : skipSpaces b = skipSpaces b') :
    structLoopP c names decs input n first fs b = structLoopP c names decs input n first fs b' := by
  cases n with
  | zero => rfl
  | succ n => rw [structLoopP_succ, structLoopP_succ, h]

theorem structMemberP_ok {k w T : Bytes} (hk : JString k) (hw : Ws w) :
    structMemberP c names decs input n fs (k ++ (w ++ 0x3a :: T)) = structFieldP c names decs input n fs (unq k) (skipSpaces T) := by
  obtain ⟨nn, e⟩ := unquote_ok hk (w ++ 0x3a :: T)
  have : fieldKey (k ++ (w ++ 0x3a :: T)) = .ok (.string (unq k)) (w ++ 0x3a :: T) := by
    unfold fieldKey; rw [e]
  rw [structMemberP, memberKey_ok hk hw this]
end

/-- what an error of a struct says: a member, and the field that it is for -/
def FieldPath (c : DCfg) (names : List Bytes) (Ss : Nat → Json → List Bytes → Prop) (ms : List (Bytes × Json)) (s : List Bytes) : Prop :=
  ∃ raw x d s' i, (raw, x) ∈ ms ∧ KeyMeans raw d ∧ pickField c names d = some i ∧ s = d :: s' ∧ Ss i x s'

theorem fieldPath_tail {c : DCfg} {names : List Bytes} {Ss : Nat → Json → List Bytes → Prop} {m : Bytes × Json} {ms : List (Bytes × Json)}
    {s : List Bytes} (h : FieldPath c names Ss ms s) : FieldPath c names Ss (m :: ms) s := by
  obtain ⟨raw, x, d, s', i, h1, h2, h3, h4, h5⟩ := h
  exact ⟨raw, x, d, s', i, List.mem_cons_of_mem _ h1, h2, h3, h4, h5⟩

theorem struct_members_path {P : DV → Prop} {Ss : Nat → Json → List Bytes → Prop} {pds : List PDec} {ds : List Dec}
    (he : ∀ (i : Nat) pd, pds[i]? = some pd → ∃ d, ds[i]? = some d ∧ Erases pd d) (hd : ∀ d ∈ ds, TrailOk d)
    (hm : ∀ (i : Nat) pd, pds[i]? = some pd → PathErr P pd (Ss i))
    (hpr : ∀ d ∈ ds, Pres P d) (hu : P (.user none)) {c : DCfg} (names : List Bytes) {input r : Bytes}
    (hin : ∃ v, parseValue input = .ok v r) :
    ∀ (ms : List (Bytes × Json)) (u : Bytes), Derives (.members ms) u → ∀ (cells : List DV) (n : Nat) x r' s, (∀ y ∈ cells, P y) →
      structMemberP c names pds input n cells (skipSpaces (u ++ 0x7d :: r)) = (.err x r' .unmarshalType, s) → FieldPath c names Ss ms s := by
  intro ms
  induction ms with
  | nil => intro u h; cases h
  | cons kj ms ih =>
    intro u h cells n x r' s hcells herr
    obtain ⟨raw, j⟩ := kj
    obtain ⟨vin, hin'⟩ := hin
    have hget : ∀ i, P (cells.getD i (.user none)) := by
      intro i
      rw [List.getD_eq_getElem?_getD]
      cases hg : cells[i]? with
      | none => exact hu
      | some y => exact hcells y (List.mem_of_getElem? hg)
    have step : ∀ w1 w2 w3 b T, Ws w1 → JString raw → Ws w2 → Ws w3 → Derives (.value j) b → NumStop T →
        structMemberP c names pds input n cells (skipSpaces (w1 ++ (raw ++ (w2 ++ 0x3a :: (w3 ++ (b ++ T)))))) = (.err x r' .unmarshalType, s) →
        FieldPath c names Ss ((raw, j) :: ms) s ∨
        ∃ cells', (∀ y ∈ cells', P y) ∧ structLoopP c names pds input n false cells' T = (.err x r' .unmarshalType, s) := by
      intro w1 w2 w3 b T hw1 hk hw2 hw3 hj hT h
      rw [skipSpaces_ws_append hw1, jstring_skip hk, structMemberP_ok hk hw2, skip_ws_value hw3 hj] at h
      unfold structFieldP at h
      split at h
      · split at h
        · simp at h
        · rw [parseValue_complete hj (follow_of_numStop hT)] at h
          exact .inr ⟨_, hcells, h⟩
      · rename_i i hpick
        split at h
        · simp at h
        · rename_i pd hdec
          obtain ⟨d, hdd, hed⟩ := he i pd hdec
          have hmem := List.mem_of_getElem? hdd
          split at h
          · simp at h
          · rename_i e2
            rw [hin'] at h
            simp only [Prod.mk.injEq] at h
            obtain ⟨h, h'⟩ := h
            injection h with _ _ h; subst h
            rw [under_type] at h'
            exact .inl ⟨raw, j, _, _, i, by simp, jstring_unq hk, hpick, h'.symm,
              hm i pd hdec j b hj T (follow_of_numStop hT) _ (hget i) _ _ _ e2⟩
          · rename_i y r2 _ e2
            have e2 := ok_of_erases hed e2
            have hsk := (skip_or (hd _ hmem j b hj T (follow_of_numStop hT) _ _ _ e2)).symm
            refine .inr ⟨cells.set i y, ?_, (structLoopP_skip hsk).trans h⟩
            intro q hq
            rcases List.mem_or_eq_of_mem_set hq with h' | rfl
            · exact hcells q h'
            · exact hpr _ hmem _ _ _ _ (hget i) e2
    cases h with
    | memOne w1 w2 w3 w4 _ _ b hw1 hw2 hw3 hw4 hk hj =>
      have e' : w1 ++ raw ++ w2 ++ 0x3a :: (w3 ++ b ++ w4) ++ 0x7d :: r =
          w1 ++ (raw ++ (w2 ++ 0x3a :: (w3 ++ (b ++ (w4 ++ 0x7d :: r))))) := by simp
      rw [e'] at herr
      rcases step w1 w2 w3 b (w4 ++ 0x7d :: r) hw1 hk hw2 hw3 hj (numStop_ws_cons hw4 (by simp)) herr with h | ⟨m', _, h⟩
      · exact h
      · cases n with
        | zero => simp [structLoopP] at h
        | succ n =>
          rw [structLoopP_close (skip_ws_cons hw4 (by decide) r)] at h
          simp at h
    | memCons w1 w2 w3 w4 _ _ b _ bs hw1 hw2 hw3 hw4 hk hj hbs =>
      have e' : w1 ++ raw ++ w2 ++ 0x3a :: (w3 ++ b ++ w4 ++ 0x2c :: bs) ++ 0x7d :: r =
          w1 ++ (raw ++ (w2 ++ 0x3a :: (w3 ++ (b ++ (w4 ++ 0x2c :: (bs ++ 0x7d :: r)))))) := by simp
      rw [e'] at herr
      rcases step w1 w2 w3 b (w4 ++ 0x2c :: (bs ++ 0x7d :: r)) hw1 hk hw2 hw3 hj (numStop_ws_cons hw4 (by simp)) herr with h | ⟨m', hm', h⟩
      · exact h
      · cases n with
        | zero => simp [structLoopP] at h
        | succ n =>
          rw [structLoopP_comma (skip_ws_cons hw4 (by decide) _)] at h
          exact fieldPath_tail (ih bs hbs _ _ _ _ _ hm' h)

theorem decodeStructP_eq (c : DCfg) (names : List Bytes) (decs : List PDec) (b : Bytes) (p : DV) : decodeStructP c names decs b p =
    if hasNullPrefix b then (.ok p (b.drop 4), [])
    else match b with
      | [] => (inputErr b p, [])
      | ch :: t =>
        if b.length < 2 ∨ ch ≠ 0x7b then (inputErr b p, [])
        else structLoopP c names decs b (b.length + 1) true (structMem p) t := by
  cases p <;> rfl

/-- what an error of a decoder for structs says -/
def StructPath (c : DCfg) (names : List Bytes) (Ss : Nat → Json → List Bytes → Prop) (j : Json) (s : List Bytes) : Prop :=
  (s = [] ∧ j ≠ .null ∧ ∀ ms, j ≠ .obj ms) ∨ ∃ ms, j = .obj ms ∧ FieldPath c names Ss ms s

theorem struct_path {P PS : DV → Prop} {Ss : Nat → Json → List Bytes → Prop} {pds : List PDec} {ds : List Dec}
    (he : ∀ (i : Nat) pd, pds[i]? = some pd → ∃ d, ds[i]? = some d ∧ Erases pd d) (hd : ∀ d ∈ ds, TrailOk d)
    (hm : ∀ (i : Nat) pd, pds[i]? = some pd → PathErr P pd (Ss i))
    (hpr : ∀ d ∈ ds, Pres P d) (hu : P (.user none)) (hs : ∀ d, PS (.struct d) → ∀ y ∈ d, P y) {c : DCfg} (names : List Bytes) :
    PathErr PS (decodeStructP c names pds) (StructPath c names Ss) := by
  intro j v hj r hf p hp x r' s h
  have hpv := parseValue_complete hj hf
  rw [decodeStructP_eq] at h
  split at h
  · simp at h
  · rename_i hnn
    obtain ⟨ch, t, rfl, hc'⟩ := derives_head hj
    simp only [List.cons_append] at hpv h
    split at h
    · rename_i hb0
      exact .inl ⟨inputErrP_type h, not_obj hj hc' hnn hb0⟩
    · rename_i hb0
      have hc5 : ch = 0x7b := Classical.byContradiction fun h => hb0 (.inr h)
      subst hc5
      cases hj with
      | num s hs => exact absurd rfl (digit_range hc').2.2.2.2.2.1
      | str s hs => simp [headOk] at hc'
      | objNil w hw =>
        rw [show w ++ [0x7d] ++ r = w ++ 0x7d :: r by simp, structLoopP_close (skip_ws_cons hw (by decide) r)] at h
        simp at h
      | obj ms b hb =>
        have e' : b ++ [0x7d] ++ r = b ++ 0x7d :: r := by simp
        obtain ⟨t, eh⟩ := derives_members_head hb (0x7d :: r)
        rw [e'] at hpv
        rw [e', structLoopP_first (by rw [eh]; simp)] at h
        exact .inr ⟨ms, rfl, struct_members_path he hd hm hpr hu names ⟨_, hpv⟩ ms b hb _ _ _ _ _
          (by cases p <;> simp [structMem] <;> exact fun x hx => hs _ hp x hx) h⟩

end JC

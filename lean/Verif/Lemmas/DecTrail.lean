import Verif.Props.Decode
import Verif.Spec.Trailing
/-! What decoders leave behind: on a value followed by anything, a decoder that
succeeds leaves exactly what follows, and one that fails leaves something that is
not blank or reports a syntax error. -/
namespace JC
open Spec Props

/-- success on a value leaves what follows the value -/
def TrailOk (dec : Dec) : Prop := ∀ j v, Derives (.value j) v → ∀ r, Follow j r → ∀ p x r', dec (v ++ r) p = .ok x r' →
  r' = r ∨ r' = skipSpaces r

/-- failure on a value before a remainder that is not blank -/
def TrailErr (P : DV → Prop) (dec : Dec) : Prop := ∀ j v, Derives (.value j) v → ∀ r, Follow j r → skipSpaces r ≠ [] →
  ∀ p, P p → ∀ x r' e, dec (v ++ r) p = .err x r' e → e = .syntax ∨ skipSpaces r' ≠ []

theorem ok_of_ref {P : DV → Prop} {dec : Dec} {f : JDec} (h : ∀ N, RefP P N dec f) {j : Json} {v r : Bytes}
    (hj : Derives (.value j) v) (hf : Follow j r) {p x : DV} {r' : Bytes} (hp : P p) (e : dec (v ++ r) p = .ok x r') :
    r' = r ∨ r' = skipSpaces r := by
  obtain ⟨h1, h2⟩ := h (v.length + 1) j v hj (by omega) r hf p hp
  cases hx : f j p with
  | none => exact absurd e (h2 hx x r')
  | some y =>
    obtain ⟨_, r'', e', hr⟩ := h1 y hx
    rw [e] at e'
    injection e' with _ e'
    subst e'; exact hr

/-- contents are finite, so they satisfy some bound -/
theorem held_any (v : DV) : ∃ n, Held (fun _ => True) v n := by
  obtain ⟨n, h⟩ := held_exists v
  exact ⟨n, h n (Nat.le_refl n)⟩

theorem trailOk_ref {dec : Dec} {f : JDec} (h : ∀ m N, RefP (Held (fun _ => True) · m) N dec f) : TrailOk dec := by
  intro j v hj r hf p x r' e
  obtain ⟨m, hm⟩ := held_any p
  exact ok_of_ref (h m) hj hf hm e

theorem null_drop {j : Json} {v r : Bytes} (hj : Derives (.value j) v) (hn : hasNullPrefix (v ++ r) = true) : (v ++ r).drop 4 = r := by
  rw [hasNull_value hj] at hn
  have := isNullJ_iff.1 hn; subst this
  rw [derives_null hj]; rfl

theorem value_not_blank {j : Json} {v : Bytes} (hj : Derives (.value j) v) (r : Bytes) : skipSpaces (v ++ r) ≠ [] := by
  rw [skip_value hj]
  obtain ⟨c, t, rfl, _⟩ := derives_head hj
  simp

/-! ### loops -/

theorem slice_elems_trail {dec : Dec} {z : DV} (hd : TrailOk dec) (input : Bytes) :
    ∀ (xs : List Json) (m : Bytes), Derives (.elems xs) m → ∀ (done mem : List DV) (n : Nat) (r : Bytes) x r',
      sliceElem dec z input n done mem (skipSpaces (m ++ 0x5d :: r)) = .ok x r' → r' = r := by
  intro xs
  induction xs with
  | nil => intro m h; cases h
  | cons j xs ih =>
    intro m h done mem n r x r' e
    have step : ∀ w1 b T, Ws w1 → Derives (.value j) b → NumStop T →
        sliceElem dec z input n done mem (skipSpaces (w1 ++ (b ++ T))) = .ok x r' →
        ∃ y, sliceLoop dec z input n (done ++ [y]) mem.tail T = .ok x r' := by
      intro w1 b T hw hj hT h
      rw [skip_ws_value hw hj] at h
      unfold sliceElem at h
      split at h
      · simp at h
      · split at h <;> simp at h
      · rename_i y r2 e2
        refine ⟨y, ?_⟩
        rw [← h]
        exact sliceLoop_skip (skip_or (hd j b hj T (follow_of_numStop hT) _ _ _ e2)).symm
    cases n with
    | zero =>
      cases h with
      | elemOne w1 w2 _ b hw1 hw2 hj =>
        have e' : w1 ++ b ++ w2 ++ 0x5d :: r = w1 ++ (b ++ (w2 ++ 0x5d :: r)) := by simp
        rw [e'] at e
        obtain ⟨y, h⟩ := step w1 b _ hw1 hj (numStop_ws_cons hw2 (by simp)) e
        simp [sliceLoop] at h
      | elemCons w1 w2 _ b _ bs hw1 hw2 hj hbs =>
        have e' : w1 ++ b ++ w2 ++ 0x2c :: bs ++ 0x5d :: r = w1 ++ (b ++ (w2 ++ 0x2c :: (bs ++ 0x5d :: r))) := by simp
        rw [e'] at e
        obtain ⟨y, h⟩ := step w1 b _ hw1 hj (numStop_ws_cons hw2 (by simp)) e
        simp [sliceLoop] at h
    | succ n =>
      cases h with
      | elemOne w1 w2 _ b hw1 hw2 hj =>
        have e' : w1 ++ b ++ w2 ++ 0x5d :: r = w1 ++ (b ++ (w2 ++ 0x5d :: r)) := by simp
        rw [e'] at e
        obtain ⟨y, h⟩ := step w1 b _ hw1 hj (numStop_ws_cons hw2 (by simp)) e
        rw [sliceLoop_close (skip_ws_cons hw2 (by decide) r)] at h
        injection h with _ h; exact h.symm
      | elemCons w1 w2 _ b _ bs hw1 hw2 hj hbs =>
        have e' : w1 ++ b ++ w2 ++ 0x2c :: bs ++ 0x5d :: r = w1 ++ (b ++ (w2 ++ 0x2c :: (bs ++ 0x5d :: r))) := by simp
        rw [e'] at e
        obtain ⟨y, h⟩ := step w1 b _ hw1 hj (numStop_ws_cons hw2 (by simp)) e
        rw [sliceLoop_comma (by simp) (skip_ws_cons hw2 (by decide) _)] at h
        exact ih bs hbs _ _ _ _ _ _ h

theorem slice_trailOk {dec : Dec} {z : DV} (hd : TrailOk dec) : TrailOk (decodeSlice dec z) := by
  intro j v hj r hf p x r' e
  rw [decodeSlice_eq] at e
  split at e
  · rename_i hn
    injection e with _ e
    rw [null_drop hj hn] at e
    exact .inl e.symm
  · obtain ⟨c, t, rfl, hc⟩ := derives_head hj
    simp only [List.cons_append] at e
    split at e
    · exact absurd e inputErr_ne
    · rename_i hb0
      have hc5 : c = 0x5b := Classical.byContradiction fun h => hb0 (.inr h)
      subst hc5
      cases hj with
      | num s hs => exact absurd rfl (digit_range hc).2.2.2.2.1
      | str s hs => simp [headOk] at hc
      | arrNil w hw =>
        rw [show w ++ [0x5d] ++ r = w ++ 0x5d :: r by simp, sliceLoop_close (skip_ws_cons hw (by decide) r)] at e
        injection e with _ e; exact .inl e.symm
      | arr xs b hb =>
        obtain ⟨c, t, eh, h1, h2⟩ := derives_elems_head hb (0x5d :: r)
        rw [show b ++ [0x5d] ++ r = b ++ 0x5d :: r by simp, sliceLoop_succ, if_neg (by rw [eh]; simpa using h2),
          if_pos (by rfl : (List.isEmpty ([] : List DV)) = true)] at e
        exact .inl (slice_elems_trail hd _ xs b hb _ _ _ _ _ _ e)

theorem array_elems_trail {dec : Dec} {z : DV} (hd : TrailOk dec) :
    ∀ (xs : List Json) (m : Bytes), Derives (.elems xs) m → ∀ (done : List DV) (n : Nat) (mem : List DV) (r : Bytes) x r',
      arrayElem dec z done n mem (skipSpaces (m ++ 0x5d :: r)) = .ok x r' → r' = r := by
  intro xs
  induction xs with
  | nil => intro m h; cases h
  | cons j xs ih =>
    intro m h done n mem r x r' e
    have step : ∀ w1 b T, Ws w1 → Derives (.value j) b → NumStop T →
        arrayElem dec z done n mem (skipSpaces (w1 ++ (b ++ T))) = .ok x r' →
        ∃ y r2, (r2 = T ∨ r2 = skipSpaces T) ∧ arrayElems dec z false (done ++ [y]) n mem.tail r2 = .ok x r' := by
      intro w1 b T hw hj hT h
      rw [skip_ws_value hw hj] at h
      unfold arrayElem at h
      split at h
      · simp at h
      · simp at h
      · rename_i y r2 e2
        exact ⟨y, r2, hd j b hj T (follow_of_numStop hT) _ _ _ e2, h⟩
    cases h with
    | elemOne w1 w2 _ b hw1 hw2 hj =>
      have e' : w1 ++ b ++ w2 ++ 0x5d :: r = w1 ++ (b ++ (w2 ++ 0x5d :: r)) := by simp
      rw [e'] at e
      obtain ⟨y, r2, hr, h⟩ := step w1 b _ hw1 hj (numStop_ws_cons hw2 (by simp)) e
      have hsk : skipSpaces r2 = 0x5d :: r := by rw [skip_or hr]; exact skip_ws_cons hw2 (by decide) r
      cases n with
      | zero => rw [arrayElems, arrayRest_of hsk] at h; injection h with _ h; exact h.symm
      | succ n =>
        rw [arrayElems_next, hsk] at h
        simp only [] at h
        rw [if_neg (by decide), if_pos trivial] at h
        injection h with _ h; exact h.symm
    | elemCons w1 w2 _ b _ bs hw1 hw2 hj hbs =>
      have e' : w1 ++ b ++ w2 ++ 0x2c :: bs ++ 0x5d :: r = w1 ++ (b ++ (w2 ++ 0x2c :: (bs ++ 0x5d :: r))) := by simp
      rw [e'] at e
      obtain ⟨y, r2, hr, h⟩ := step w1 b _ hw1 hj (numStop_ws_cons hw2 (by simp)) e
      have hsk : skipSpaces r2 = 0x2c :: (bs ++ 0x5d :: r) := by rw [skip_or hr]; exact skip_ws_cons hw2 (by decide) _
      cases n with
      | zero =>
        have hlen := skipSpaces_length_le r2
        rw [hsk] at hlen
        simp only [List.length_cons, List.length_append] at hlen
        rw [arrayElems, arrayRest_skip (b' := 0x2c :: (bs ++ 0x5d :: r)) (by rw [hsk, skipSpaces_cons_of_not (by decide)]),
          (arrayRest_elems _ xs bs hbs _ r (by omega)).1] at h
        injection h with _ h; exact h.symm
      | succ n =>
        rw [arrayElems_next, hsk] at h
        simp only [if_true] at h
        exact ih bs hbs _ _ _ _ _ _ h

theorem array_trailOk {dec : Dec} {z : DV} (hd : TrailOk dec) (hrej : Rej dec) (k : Nat) : TrailOk (decodeArray k dec z) := by
  intro j v hj r hf p x r' e
  rw [decodeArray_eq] at e
  split at e
  · rename_i hn
    injection e with _ e
    rw [null_drop hj hn] at e
    exact .inl e.symm
  · obtain ⟨c, t, rfl, hc⟩ := derives_head hj
    simp only [List.cons_append] at e
    split at e
    · exact absurd e inputErr_ne
    · rename_i hb0
      have hc5 : c = 0x5b := Classical.byContradiction fun h => hb0 (.inr h)
      subst hc5
      cases hj with
      | num s hs => exact absurd rfl (digit_range hc).2.2.2.2.1
      | str s hs => simp [headOk] at hc
      | arrNil w hw =>
        have hsk := skip_ws_cons hw (c := 0x5d) (by decide) r
        rw [show w ++ [0x5d] ++ r = w ++ 0x5d :: r by simp] at e
        cases k with
        | zero => rw [arrayElems, arrayRest_of hsk] at e; injection e with _ e; exact .inl e.symm
        | succ k =>
          rw [arrayElems_first, hsk] at e
          exact absurd e (arrayElem_none (fun x r' => hrej r _ x r') _ _)
      | arr xs b hb =>
        rw [show b ++ [0x5d] ++ r = b ++ 0x5d :: r by simp] at e
        cases k with
        | zero =>
          rw [arrayElems, (arrayRest_elems _ xs b hb (b ++ 0x5d :: r).length r (by simp)).2] at e
          injection e with _ e; exact .inl e.symm
        | succ k =>
          rw [arrayElems_first] at e
          exact .inl (array_elems_trail hd xs b hb _ _ _ _ _ _ e)

theorem decodeKey_rest {k : Bytes} (h : JString k) (kt : KTy) (r : Bytes) {d : DV} {r' : Bytes} (e : decodeKey kt (k ++ r) = .ok d r') :
    r' = r := by
  obtain ⟨h1, h2⟩ := decodeKey_app h kt r
  cases hk : keyJ kt k with
  | none => exact absurd e (h2 hk _ _)
  | some kv =>
    obtain ⟨d', e', _⟩ := h1 kv hk
    rw [e] at e'; injection e' with _ e'

theorem map_members_trail {dec : Dec} {z : DV} (hd : TrailOk dec) (k : KTy) (p : DV) (fresh : Bool) (input : Bytes) :
    ∀ (ms : List (Bytes × Json)) (u : Bytes), Derives (.members ms) u → ∀ (m : List (MK × DV)) (n : Nat) (r : Bytes) x r',
      mapMember k dec z p fresh input n m (skipSpaces (u ++ 0x7d :: r)) = .ok x r' → r' = r := by
  intro ms
  induction ms with
  | nil => intro u h; cases h
  | cons kj ms ih =>
    intro u h m n r x r' e
    obtain ⟨raw, j⟩ := kj
    have step : ∀ w1 w2 w3 b T, Ws w1 → JString raw → Ws w2 → Ws w3 → Derives (.value j) b → NumStop T →
        mapMember k dec z p fresh input n m (skipSpaces (w1 ++ (raw ++ (w2 ++ 0x3a :: (w3 ++ (b ++ T)))))) = .ok x r' →
        ∃ m', mapLoopD k dec z p fresh input n false m' T = .ok x r' := by
      intro w1 w2 w3 b T hw1 hk hw2 hw3 hj hT h
      rw [skipSpaces_ws_append hw1, jstring_skip hk] at h
      cases hkey : decodeKey k (raw ++ (w2 ++ 0x3a :: (w3 ++ (b ++ T)))) with
      | crash | err =>
        all_goals exact absurd h (mapMember_key (memberKey_no (by intro x r; rw [hkey]; simp)) _ _)
      | ok d rr =>
        have := decodeKey_rest hk k _ hkey
        subst this
        rw [mapMember, memberKey_ok hk hw2 hkey, skip_ws_value hw3 hj] at h
        simp only [] at h
        split at h
        · simp at h
        · split at h <;> simp at h
        · rename_i y r2 e2
          refine ⟨mapSet (keyOf d) y m, ?_⟩
          rw [← h]
          exact mapLoopD_skip (skip_or (hd j b hj T (follow_of_numStop hT) _ _ _ e2)).symm
    cases h with
    | memOne w1 w2 w3 w4 _ _ b hw1 hw2 hw3 hw4 hk hj =>
      have e' : w1 ++ raw ++ w2 ++ 0x3a :: (w3 ++ b ++ w4) ++ 0x7d :: r =
          w1 ++ (raw ++ (w2 ++ 0x3a :: (w3 ++ (b ++ (w4 ++ 0x7d :: r))))) := by simp
      rw [e'] at e
      obtain ⟨m', h⟩ := step w1 w2 w3 b _ hw1 hk hw2 hw3 hj (numStop_ws_cons hw4 (by simp)) e
      cases n with
      | zero => simp [mapLoopD] at h
      | succ n =>
        rw [mapLoopD_close (skip_ws_cons hw4 (by decide) r)] at h
        injection h with _ h; exact h.symm
    | memCons w1 w2 w3 w4 _ _ b _ bs hw1 hw2 hw3 hw4 hk hj hbs =>
      have e' : w1 ++ raw ++ w2 ++ 0x3a :: (w3 ++ b ++ w4 ++ 0x2c :: bs) ++ 0x7d :: r =
          w1 ++ (raw ++ (w2 ++ 0x3a :: (w3 ++ (b ++ (w4 ++ 0x2c :: (bs ++ 0x7d :: r)))))) := by simp
      rw [e'] at e
      obtain ⟨m', h⟩ := step w1 w2 w3 b _ hw1 hk hw2 hw3 hj (numStop_ws_cons hw4 (by simp)) e
      cases n with
      | zero => simp [mapLoopD] at h
      | succ n =>
        rw [mapLoopD_comma (skip_ws_cons hw4 (by decide) _)] at h
        exact ih bs hbs _ _ _ _ _ h

theorem map_trailOk {dec : Dec} {z : DV} (hd : TrailOk dec) (k : KTy) : TrailOk (decodeMap k dec z) := by
  intro j v hj r hf p x r' e
  have loop : ∀ (b : Bytes) (fresh : Bool) n (m : List (MK × DV)) (ms : List (Bytes × Json)) (input : Bytes), Derives (.members ms) b →
      mapLoopD k dec z p fresh input n true m (b ++ 0x7d :: r) = .ok x r' → r' = r := by
    intro b fresh n m ms input hb h
    cases n with
    | zero => simp [mapLoopD] at h
    | succ n =>
      obtain ⟨t, eh⟩ := derives_members_head hb (0x7d :: r)
      rw [mapLoopD_first (by rw [eh]; simp)] at h
      exact map_members_trail hd k p fresh input ms b hb _ _ _ _ _ h
  have close : ∀ (w : Bytes) (fresh : Bool) n (m : List (MK × DV)) (input : Bytes), Ws w →
      mapLoopD k dec z p fresh input n true m (w ++ 0x7d :: r) = .ok x r' → r' = r := by
    intro w fresh n m input hw h
    cases n with
    | zero => simp [mapLoopD] at h
    | succ n =>
      rw [mapLoopD_close (skip_ws_cons hw (by decide) r)] at h
      injection h with _ h; exact h.symm
  unfold decodeMap at e
  split at e
  · rename_i hn
    injection e with _ e
    rw [null_drop hj hn] at e
    exact .inl e.symm
  · obtain ⟨c, t, rfl, hc⟩ := derives_head hj
    simp only [List.cons_append] at e
    split at e
    · exact absurd e inputErr_ne
    · rename_i hb0
      have hc5 : c = 0x7b := Classical.byContradiction fun h => hb0 (.inr h)
      subst hc5
      left
      cases hj with
      | num s hs => exact absurd rfl (digit_range hc).2.2.2.2.2.1
      | str s hs => simp [headOk] at hc
      | objNil w hw =>
        rw [show w ++ [0x7d] ++ r = w ++ 0x7d :: r by simp] at e
        split at e
        · exact close _ _ _ _ _ hw e
        · exact close _ _ _ _ _ hw e
      | obj ms b hb =>
        rw [show b ++ [0x7d] ++ r = b ++ 0x7d :: r by simp] at e
        split at e
        · exact loop _ _ _ _ _ _ hb e
        · exact loop _ _ _ _ _ _ hb e

/-- the members of a struct: what follows is left, or an unknown member is reported with its value and the rest -/
theorem struct_members_trail {decs : List Dec} (hd : ∀ d ∈ decs, TrailOk d) (c : DCfg) (names : List Bytes) (input : Bytes) {r : Bytes}
    (hin : ∃ v, parseValue input = .ok v r) :
    ∀ (ms : List (Bytes × Json)) (u : Bytes), Derives (.members ms) u → ∀ (cells : List DV) (n : Nat),
      (∀ x r', structMember c names decs input n cells (skipSpaces (u ++ 0x7d :: r)) = .ok x r' → r' = r) ∧
      (∀ x r' e, structMember c names decs input n cells (skipSpaces (u ++ 0x7d :: r)) = .err x r' e → r' = r ∨ skipSpaces r' ≠ []) := by
  intro ms
  induction ms with
  | nil => intro u h; cases h
  | cons kj ms ih =>
    intro u h cells n
    obtain ⟨raw, j⟩ := kj
    obtain ⟨vin, hin'⟩ := hin
    have step : ∀ w1 w2 w3 b T, Ws w1 → JString raw → Ws w2 → Ws w3 → Derives (.value j) b → NumStop T → ∀ q,
        structMember c names decs input n cells (skipSpaces (w1 ++ (raw ++ (w2 ++ 0x3a :: (w3 ++ (b ++ T)))))) = q →
        (∃ cells', structLoopD c names decs input n false cells' T = q) ∨ (∃ x e, q = .err x r e) ∨
        (∃ x r' e, q = .err x r' e ∧ skipSpaces r' ≠ []) ∨ (∃ c, q = .crash c) := by
      intro w1 w2 w3 b T hw1 hk hw2 hw3 hj hT q h
      rw [skipSpaces_ws_append hw1, jstring_skip hk, structMember_ok hk hw2, skip_ws_value hw3 hj] at h
      unfold structField at h
      split at h
      · split at h
        · exact .inr (.inr (.inl ⟨_, _, _, h.symm, value_not_blank hj T⟩))
        · rw [parseValue_complete hj (follow_of_numStop hT)] at h
          exact .inl ⟨_, h⟩
      · split at h
        · exact .inr (.inr (.inr ⟨_, h.symm⟩))
        · rename_i hdec
          split at h
          · exact .inr (.inr (.inr ⟨_, h.symm⟩))
          · rw [hin'] at h
            exact .inr (.inl ⟨_, _, h.symm⟩)
          · rename_i y r2 e2
            left
            have hsk := (skip_or (hd _ (List.mem_of_getElem? hdec) j b hj T (follow_of_numStop hT) _ _ _ e2)).symm
            exact ⟨_, (structLoopD_skip hsk).trans h⟩
    have fin : ∀ q, (∃ x e, q = DRes.err x r e) ∨ (∃ x r' e, q = DRes.err x r' e ∧ skipSpaces r' ≠ []) ∨ (∃ c, q = DRes.crash c) →
        (∀ x r', q = .ok x r' → r' = r) ∧ (∀ x r' e, q = .err x r' e → r' = r ∨ skipSpaces r' ≠ []) := by
      rintro q (⟨x, e, rfl⟩ | ⟨x, r', e, rfl, hr⟩ | ⟨c, rfl⟩)
      · refine ⟨by simp, ?_⟩
        intro x' r'' e' h
        injection h with _ h; exact .inl h.symm
      · refine ⟨by simp, ?_⟩
        intro x' r'' e' h
        injection h with _ h; subst h; exact .inr hr
      · simp
    cases h with
    | memOne w1 w2 w3 w4 _ _ b hw1 hw2 hw3 hw4 hk hj =>
      have e' : w1 ++ raw ++ w2 ++ 0x3a :: (w3 ++ b ++ w4) ++ 0x7d :: r =
          w1 ++ (raw ++ (w2 ++ 0x3a :: (w3 ++ (b ++ (w4 ++ 0x7d :: r))))) := by simp
      rw [e']
      rcases step w1 w2 w3 b (w4 ++ 0x7d :: r) hw1 hk hw2 hw3 hj (numStop_ws_cons hw4 (by simp)) _ rfl with ⟨m', h⟩ | h
      · rw [← h]
        cases n with
        | zero => simp [structLoopD]
        | succ n =>
          rw [structLoopD_close (skip_ws_cons hw4 (by decide) r)]
          simp
      · exact fin _ h
    | memCons w1 w2 w3 w4 _ _ b _ bs hw1 hw2 hw3 hw4 hk hj hbs =>
      have e' : w1 ++ raw ++ w2 ++ 0x3a :: (w3 ++ b ++ w4 ++ 0x2c :: bs) ++ 0x7d :: r =
          w1 ++ (raw ++ (w2 ++ 0x3a :: (w3 ++ (b ++ (w4 ++ 0x2c :: (bs ++ 0x7d :: r)))))) := by simp
      rw [e']
      rcases step w1 w2 w3 b (w4 ++ 0x2c :: (bs ++ 0x7d :: r)) hw1 hk hw2 hw3 hj (numStop_ws_cons hw4 (by simp)) _ rfl with ⟨m', h⟩ | h
      · rw [← h]
        cases n with
        | zero => simp [structLoopD]
        | succ n =>
          rw [structLoopD_comma (skip_ws_cons hw4 (by decide) _)]
          exact ih bs hbs _ _
      · exact fin _ h

theorem inputErr_value {j : Json} {v r : Bytes} (hj : Derives (.value j) v) (hf : Follow j r) (p : DV) :
    inputErr (v ++ r) p = .err p (skipSpaces r) .unmarshalType := by
  obtain ⟨c, t, rfl, _⟩ := derives_head hj
  unfold inputErr inputError
  rw [parseValue_complete hj hf]
  simp

theorem struct_trail {decs : List Dec} (hd : ∀ d ∈ decs, TrailOk d) (c : DCfg) (names : List Bytes) {j : Json} {v : Bytes}
    (hj : Derives (.value j) v) {r : Bytes} (hf : Follow j r) (p : DV) :
    (∀ x r', decodeStruct c names decs (v ++ r) p = .ok x r' → r' = r) ∧
    (∀ x r' e, decodeStruct c names decs (v ++ r) p = .err x r' e → r' = r ∨ r' = skipSpaces r ∨ skipSpaces r' ≠ []) := by
  have hp := parseValue_complete hj hf
  have hie := inputErr_value hj hf p
  rw [decodeStruct_eq]
  split
  · rename_i hn
    rw [null_drop hj hn]; simp
  · obtain ⟨ch, t, rfl, hc⟩ := derives_head hj
    simp only [List.cons_append] at hp hie ⊢
    split
    · rw [hie]
      refine ⟨by simp, ?_⟩
      intro x' r'' e' h
      injection h with _ h; exact .inr (.inl h.symm)
    · rename_i hb0
      have hc5 : ch = 0x7b := Classical.byContradiction fun h => hb0 (.inr h)
      subst hc5
      cases hj with
      | num s hs => exact absurd rfl (digit_range hc).2.2.2.2.2.1
      | str s hs => simp [headOk] at hc
      | objNil w hw =>
        rw [show w ++ [0x7d] ++ r = w ++ 0x7d :: r by simp, structLoopD_close (skip_ws_cons hw (by decide) r)]
        simp
      | obj ms b hb =>
        have e : b ++ [0x7d] ++ r = b ++ 0x7d :: r := by simp
        obtain ⟨t, eh⟩ := derives_members_head hb (0x7d :: r)
        rw [e] at hp
        rw [e, structLoopD_first (by rw [eh]; simp)]
        obtain ⟨h1, h2⟩ := struct_members_trail hd c names (0x7b :: (b ++ 0x7d :: r)) ⟨_, hp⟩ ms b hb (structMem p)
          (0x7b :: (b ++ 0x7d :: r)).length
        refine ⟨h1, fun x r' e he => ?_⟩
        rcases h2 x r' e he with h | h
        · exact .inl h
        · exact .inr (.inr h)

theorem struct_trailOk {decs : List Dec} (hd : ∀ d ∈ decs, TrailOk d) (c : DCfg) (names : List Bytes) :
    TrailOk (decodeStruct c names decs) := by
  intro j v hj r hf p x r' e
  exact .inl ((struct_trail hd c names hj hf p).1 x r' e)

/-! ### success, all types -/

theorem parseInto_trailOk {dec : Dec} (hd : TrailOk dec) : TrailOk (parseInto dec) := by
  intro j v hj r hf p x r' e
  unfold parseInto at e
  rw [skip_value hj] at e
  split at e
  · simp at e
  · simp at e
  · rename_i e2
    injection e with _ e
    subst e
    exact .inr (skip_or (hd j v hj r hf _ _ _ e2))

theorem quoted_trailOk {dec q : Dec} (hd : TrailOk dec)
    (hnull : ∀ b p, hasNullPrefix b = true → q b p = dec b p)
    (hstr : ∀ k r p, JString k → (∀ x, okOf (q k p) = some x → q (k ++ r) p = .ok x r) ∧
      (okOf (q k p) = none → ∀ x r', q (k ++ r) p ≠ .ok x r'))
    (hother : ∀ j v r p, Derives (.value j) v → (∀ s, j ≠ .str s) → j ≠ .null → ∀ x r', q (v ++ r) p ≠ .ok x r') :
    TrailOk q := by
  intro j v hj r hf p x r' e
  have hnp := hasNull_value hj r
  by_cases hn : j = .null
  · subst hn
    rw [hnull _ _ (by rw [hnp]; rfl)] at e
    exact hd _ v hj r hf p _ _ e
  · by_cases hs : ∃ s, j = .str s
    · obtain ⟨s, rfl⟩ := hs
      cases hj with
      | str _ hs =>
        obtain ⟨h1, h2⟩ := hstr v r p hs
        cases hx : okOf (q v p) with
        | none => exact absurd e (h2 hx _ _)
        | some y =>
          rw [h1 y hx] at e
          injection e with _ e; exact .inl e.symm
    · exact absurd e (hother j v r p hj (fun s h => hs ⟨s, h⟩) hn x r')

theorem map_trailOk' {dec q : Dec} {g : DV → DV} {h : DV → DV} (hd : TrailOk dec) (e : ∀ b p, q b p = (dec b (h p)).map g) : TrailOk q := by
  intro j v hj r hf p x r' he
  rw [e] at he
  obtain ⟨y, ey, _⟩ := map_okD he
  exact hd j v hj r hf _ _ _ ey

theorem ptr_trailOk {dec : Dec} {z : DV} (hd : TrailOk dec) (ep : Bool) : TrailOk (decodePointer ep dec z) := by
  intro j v hj r hf p x r' e
  unfold decodePointer at e
  split at e
  · rename_i hn
    have hdrop := null_drop hj hn
    split at e
    · split at e
      · obtain ⟨y, ey, _⟩ := map_okD e
        exact hd j v hj r hf _ _ _ ey
      · injection e with _ e; rw [hdrop] at e; exact .inl e.symm
    · injection e with _ e; rw [hdrop] at e; exact .inl e.symm
  · obtain ⟨y, ey, _⟩ := map_okD e
    exact hd j v hj r hf _ _ _ ey

theorem raw_trailOk : TrailOk decodeRawMessage := by
  intro j v hj r hf p x r' e
  unfold decodeRawMessage at e
  rw [parseValue_complete hj hf] at e
  injection e with _ e; exact .inl e.symm

theorem jsonU_trailOk (f : Bytes → Option Err) : TrailOk (decodeJSONUnmarshaler f) := by
  intro j v hj r hf p x r' e
  unfold decodeJSONUnmarshaler at e
  rw [parseValue_complete hj hf] at e
  simp only [] at e
  split at e
  · injection e with _ e; exact .inl e.symm
  · split at e
    · simp at e
    · injection e with _ e; exact .inl e.symm

/-- decoding into an interface that holds no pointer leaves what follows, always -/
theorem ifaceValue_left (c : DCfg) (n : Nat) {j : Json} {v : Bytes} (hj : Derives (.value j) v) {r : Bytes} (hf : Follow j r) (p : DV) :
    (∃ x, ifaceValue c n (v ++ r) p = .ok x r) ∨ (∃ x e, ifaceValue c n (v ++ r) p = .err x r e) ∨ ∃ x, ifaceValue c n (v ++ r) p = .crash x := by
  have hend : ∀ t d, (∃ x, ifaceEnd t r d = .ok x r) ∨ (∃ x e, ifaceEnd t r d = .err x r e) ∨ ∃ x, ifaceEnd t r d = .crash x := by
    intro t d
    unfold ifaceEnd
    cases d with
    | crash c => exact .inr (.inr ⟨_, rfl⟩)
    | err => exact .inr (.inl ⟨_, _, rfl⟩)
    | ok x r' =>
      simp only []
      split
      · exact .inr (.inl ⟨_, _, rfl⟩)
      · exact .inl ⟨_, rfl⟩
  cases n with
  | zero => exact .inr (.inr ⟨_, rfl⟩)
  | succ n =>
    rw [ifaceValue]
    simp only [parseValue_complete hj hf]
    split
    · exact .inr (.inr ⟨_, rfl⟩)
    · split
      · exact hend _ _
      · split
        · exact hend _ _
        · split
          · exact hend _ _
          · split
            · split
              · exact .inr (.inr ⟨_, rfl⟩)
              · exact .inr (.inl ⟨_, _, rfl⟩)
              · split
                · exact .inr (.inl ⟨_, _, rfl⟩)
                · exact .inl ⟨_, rfl⟩
            · split
              · exact hend _ _
              · split
                · split
                  · exact hend _ _
                  · exact hend _ _
                · exact .inr (.inl ⟨_, _, rfl⟩)

theorem iface_trailOk (c : DCfg) {dyn : Ty → Dec} (hd : ∀ t, TrailOk (dyn t)) : TrailOk (decodeInterface c dyn) := by
  intro j v hj r hf p x r' e
  unfold decodeInterface at e
  split at e
  · split at e
    · split at e
      · rename_i hn
        simp only [Bool.and_eq_true] at hn
        injection e with _ e; rw [null_drop hj hn.2] at e; exact .inl e.symm
      · split at e
        · simp at e
        · simp at e
        · rename_i e2
          injection e with _ e; subst e
          exact parseInto_trailOk (hd _) j v hj r hf _ _ _ e2
    · split at e
      · rename_i hn
        injection e with _ e; rw [null_drop hj hn] at e; exact .inl e.symm
      · exact absurd e (parseInvalid_no _ _ _ _)
  · rcases ifaceValue_left c ((v ++ r).length + 1) hj hf p with ⟨y, h⟩ | ⟨y, e', h⟩ | ⟨y, h⟩ <;> rw [h] at e <;> simp at e
    exact .inl e.2.symm

theorem ifaceM_trailOk (c : DCfg) {dyn : Ty → Dec} (hd : ∀ t, TrailOk (dyn t)) (em : Bool) : TrailOk (decodeIfaceM c dyn em) := by
  intro j v hj r hf p x r' e
  unfold decodeIfaceM at e
  split at e
  · rename_i hn
    injection e with _ e; rw [null_drop hj hn] at e; exact .inl e.symm
  · split at e
    · split at e
      · obtain ⟨y, ey, _⟩ := map_okD e
        exact parseInto_trailOk (hd _) j v hj r hf _ _ _ ey
      · exact absurd e (parseInvalid_no _ _ _ _)
      · exact absurd e (typeError_no _ _ _ _)
    · split at e
      · exact parseInto_trailOk (iface_trailOk c hd) j v hj r hf _ _ _ e
      · exact absurd e (typeError_no _ _ _ _)

mutual
theorem dec_trailOk {c : DCfg} {dyn : Ty → Dec} (hl : LibOk c.lib) (hd : ∀ t, TrailOk (dyn t)) (hrej : ∀ t, Rej (dyn t)) :
    ∀ t, TrailOk (dec c dyn t)
  | .bool => by simp only [dec]; exact trailOk_ref fun _ _ => bool_ref
  | .int k => by simp only [dec]; exact trailOk_ref fun _ _ => int_ref k
  | .float32 => by simp only [dec]; exact trailOk_ref fun _ _ => float_ref _ _
  | .float64 => by simp only [dec]; exact trailOk_ref fun _ _ => float_ref _ _
  | .number => by simp only [dec]; exact trailOk_ref fun _ _ => number_ref
  | .string => by simp only [dec]; exact trailOk_ref fun _ _ => string_ref
  | .bytes => by simp only [dec]; exact trailOk_ref fun _ _ => bytes_ref
  | .duration => by simp only [dec]; exact trailOk_ref fun _ _ => duration_ref hl
  | .time => by simp only [dec]; exact trailOk_ref fun _ _ => time_ref hl
  | .raw => by simp only [dec]; exact raw_trailOk
  | .iface => by simp only [dec]; exact iface_trailOk c hd
  | .ifaceM e => by simp only [dec]; exact ifaceM_trailOk c hd e
  | .slice t => by simp only [dec]; exact slice_trailOk (dec_trailOk hl hd hrej t)
  | .array n t => by simp only [dec]; exact array_trailOk (dec_trailOk hl hd hrej t) (dec_rej c hrej t) n
  | .map k t => by simp only [dec]; exact map_trailOk (dec_trailOk hl hd hrej t) k
  | .mapSI => by simp only [dec]; exact map_trailOk (iface_trailOk c hd) .str
  | .mapRaw => by simp only [dec]; exact map_trailOk raw_trailOk .str
  | .ptr t => by simp only [dec]; exact ptr_trailOk (dec_trailOk hl hd hrej t) _
  | .struct fs => by simp only [dec]; exact struct_trailOk (decF_trailOk hl hd hrej fs) c _
  | .quoted t => by
    simp only [dec]
    refine quoted_trailOk (dec_trailOk hl hd hrej t) ?_ ?_ ?_
    · intro b p hb; unfold decodeFromString; rw [if_pos hb]
    · intro k r p hk; exact decodeFromString_app hk _ r p
    · intro j v r p hj hs hn; exact fromString_other _ r p hj hs hn
  | .quotedInt t => by
    simp only [dec]
    refine quoted_trailOk (dec_trailOk hl hd hrej t) ?_ ?_ ?_
    · intro b p hb; unfold decodeFromStringToInt; rw [if_pos hb]
    · intro k r p hk; exact decodeFromStringToInt_app hk _ _ r p
    · intro j v r p hj hs hn; exact fromStringToInt_other _ _ r p hj hs hn
  | .jsonU f => by simp only [dec]; exact jsonU_trailOk f
  | .textU f => by simp only [dec]; exact trailOk_ref fun _ _ => textU_ref f
  | .unsupported => by
    intro j v _ r _ p x r' e
    exact absurd e (typeError_no _ _ _ _)
theorem decF_trailOk {c : DCfg} {dyn : Ty → Dec} (hl : LibOk c.lib) (hd : ∀ t, TrailOk (dyn t)) (hrej : ∀ t, Rej (dyn t)) :
    ∀ fs, ∀ d ∈ decF c dyn fs, TrailOk d
  | [] => by simp [decF]
  | (_, t) :: fs => by
    intro d h
    simp only [decF, List.mem_cons] at h
    rcases h with rfl | h
    · exact dec_trailOk hl hd hrej t
    · exact decF_trailOk hl hd hrej fs d h
end

theorem decN_trailOk {c : DCfg} (hl : LibOk c.lib) : ∀ n t, TrailOk (decN c n t)
  | 0, t => by
    simp only [decN]
    exact dec_trailOk hl (fun t j v _ r _ p x r' e => by simp at e) (fun t b p x r h => by simp at h) t
  | n + 1, t => by
    simp only [decN]
    exact dec_trailOk hl (decN_trailOk hl n) (decN_rej c n) t

/-! ### failure -/

theorem skip_skip_ne {r : Bytes} (h : skipSpaces r ≠ []) : skipSpaces (skipSpaces r) ≠ [] := by rw [skipSpaces_idem]; exact h

theorem inputErr_trail {j : Json} {v r : Bytes} (hj : Derives (.value j) v) (hf : Follow j r) (hr : skipSpaces r ≠ []) {p x : DV} {r' : Bytes}
    {e : Err} (h : inputErr (v ++ r) p = .err x r' e) : e = .syntax ∨ skipSpaces r' ≠ [] := by
  rw [inputErr_value hj hf] at h
  injection h with _ h
  subst h
  exact .inr (skip_skip_ne hr)

theorem posLoop_other {m : Int} {w : Int → Int} {c : UInt8} {t : Bytes} (hc : ¬ Digit c) : posLoop m w 0 0 (c :: t) = .noDigit := by
  unfold posLoop
  rw [if_pos, if_pos rfl]
  unfold Digit at hc
  simp only [UInt8.le_iff_toNat_le, UInt8.lt_iff_toNat_lt, gt_iff_lt, UInt8.reduceToNat] at *
  omega

theorem intFinish_trail {j : Json} {v r : Bytes} (hj : Derives (.value j) v) (hf : Follow j r) (hr : skipSpaces r ≠ []) {n : Nat} {l : DigLoop}
    (hl : l = .noDigit ∨ ∃ s, j = .num s) {r' : Bytes} {e : Err} (h : intFinish (v ++ r) n l = .fail r' e) :
    e = .syntax ∨ skipSpaces r' ≠ [] := by
  have hie := inputErr_value hj hf (.bool true)
  unfold inputErr at hie
  injection hie with _ h1 h2
  cases l with
  | overflow =>
    simp only [intFinish] at h
    injection h with h _; subst h; exact .inr (value_not_blank hj r)
  | noDigit =>
    simp only [intFinish, h1] at h
    injection h with h _; subst h; exact .inr (skip_skip_ne hr)
  | stop x cnt =>
    simp only [reduceCtorEq, false_or] at hl
    obtain ⟨s, rfl⟩ := hl
    cases hj with
    | num _ hs =>
      simp only [intFinish, intTail, parseNumber_complete hs hf] at h
      split at h
      · split at h
        · injection h with h _; subst h; exact .inr hr
        · simp at h
      · simp at h

theorem parseInt_trail {j : Json} {v r : Bytes} (hj : Derives (.value j) v) (hf : Follow j r) (hr : skipSpaces r ≠ []) {r' : Bytes} {e : Err}
    (h : parseInt (v ++ r) = .fail r' e) : e = .syntax ∨ skipSpaces r' ≠ [] := by
  by_cases hnum : ∃ s, j = .num s
  · unfold parseInt at h
    repeat' split at h
    all_goals first
      | (injection h with _ h; exact .inl h.symm)
      | exact intFinish_trail hj hf hr (.inr hnum) h
  · have hc := derives_head hj
    obtain ⟨c, t, e1, hc⟩ := hc
    have hnd : ¬ (c = 0x2d ∨ Digit c) := by
      intro hd
      have hdr := digit_range hd
      cases j <;> simp only [headOk] at hc <;> simp_all
    have : parseInt (v ++ r) = intFinish (v ++ r) 0 .noDigit := by
      rw [e1]
      unfold parseInt
      simp only [List.cons_append]
      rw [if_neg (fun h => hnd (.inl h)), if_neg, posLoop_other (fun h => hnd (.inr h))]
      rintro ⟨rfl, _⟩
      exact hnd (.inr (by unfold Digit; decide))
    rw [this] at h
    exact intFinish_trail hj hf hr (.inl rfl) h

theorem parseUint_trail {j : Json} {v r : Bytes} (hj : Derives (.value j) v) (hf : Follow j r) (hr : skipSpaces r ≠ []) {r' : Bytes} {e : Err}
    (h : parseUint (v ++ r) = .fail r' e) : e = .syntax ∨ skipSpaces r' ≠ [] := by
  by_cases hnum : ∃ s, j = .num s
  · unfold parseUint at h
    repeat' split at h
    all_goals first
      | (injection h with _ h; exact .inl h.symm)
      | exact intFinish_trail hj hf hr (.inr hnum) h
  · have hc := derives_head hj
    obtain ⟨c, t, e1, hc⟩ := hc
    have hnd : ¬ (c = 0x2d ∨ Digit c) := by
      intro hd
      have hdr := digit_range hd
      cases j <;> simp only [headOk] at hc <;> simp_all
    have : parseUint (v ++ r) = intFinish (v ++ r) 0 .noDigit := by
      rw [e1]
      unfold parseUint
      simp only [List.cons_append]
      rw [if_neg, posLoop_other (fun h => hnd (.inr h))]
      rintro ⟨rfl, _⟩
      exact hnd (.inr (by unfold Digit; decide))
    rw [this] at h
    exact intFinish_trail hj hf hr (.inl rfl) h

/-- what is left by a parsed integer that is out of range -/
theorem parseInt_rest {j : Json} {v r : Bytes} (hj : Derives (.value j) v) (hf : Follow j r) {z : Int} {r' : Bytes}
    (h : parseInt (v ++ r) = .ok z r') : r' = r := by
  obtain ⟨l, e, hl, _, hst⟩ := parseInt_ok h
  by_cases hnum : ∃ s, j = .num s
  · obtain ⟨s, rfl⟩ := hnum
    cases hj with
    | num _ hs => exact (jnumber_intLit hs hf hl hst e).2.symm
  · exfalso
    obtain ⟨c, t, e1, hc⟩ := derives_head hj
    have hnd : ¬ (c = 0x2d ∨ Digit c) := by
      intro hd
      have hdr := digit_range hd
      cases j <;> simp only [headOk] at hc <;> simp_all
    rw [e1] at e
    cases hl with
    | nonneg i hi =>
      have hd := hi.digits
      cases l with
      | nil => exact hd.1 rfl
      | cons a x =>
        injection e with e _; subst e
        exact hnd (.inr (hd.2 c (by simp)))
    | neg i hi => injection e with e _; exact hnd (.inl e)

theorem parseUint_rest {j : Json} {v r : Bytes} (hj : Derives (.value j) v) (hf : Follow j r) {z : Int} {r' : Bytes}
    (h : parseUint (v ++ r) = .ok z r') : r' = r := by
  obtain ⟨l, e, hi, hl, _, hst⟩ := parseUint_ok h
  by_cases hnum : ∃ s, j = .num s
  · obtain ⟨s, rfl⟩ := hnum
    cases hj with
    | num _ hs => exact (jnumber_intLit hs hf hl hst e).2.symm
  · exfalso
    obtain ⟨c, t, e1, hc⟩ := derives_head hj
    have hnd : ¬ (c = 0x2d ∨ Digit c) := by
      intro hd
      have hdr := digit_range hd
      cases j <;> simp only [headOk] at hc <;> simp_all
    rw [e1] at e
    have hd := hi.digits
    cases l with
    | nil => exact hd.1 rfl
    | cons a x =>
      injection e with e _; subst e
      exact hnd (.inr (hd.2 c (by simp)))

theorem decodeIntKind_trail (k : IntKind) {j : Json} {v r : Bytes} (hj : Derives (.value j) v) (hf : Follow j r) (hr : skipSpaces r ≠ [])
    (p : Int) {e : Err} (h : (decodeIntKind k (v ++ r) p).err = some e) : e = .syntax ∨ skipSpaces (decodeIntKind k (v ++ r) p).rest ≠ [] := by
  have signed : ∀ n lo hi, (decodeIntSized n lo hi (v ++ r) p).err = some e →
      e = .syntax ∨ skipSpaces (decodeIntSized n lo hi (v ++ r) p).rest ≠ [] := by
    intro n lo hi h
    unfold decodeIntSized at h ⊢
    split at h
    · simp at h
    · rename_i hn
      rw [if_neg hn]
      split at h
      · rename_i r' e' h'
        simp only [Option.some.injEq] at h; subst h
        exact parseInt_trail hj hf hr h'
      · rename_i z r' h'
        have hrr := parseInt_rest hj hf h'
        right
        split <;> (simp only [hrr]; exact hr)
  have unsigned : ∀ n hi, (decodeUintSized n hi (v ++ r) p).err = some e →
      e = .syntax ∨ skipSpaces (decodeUintSized n hi (v ++ r) p).rest ≠ [] := by
    intro n hi h
    unfold decodeUintSized at h ⊢
    split at h
    · simp at h
    · rename_i hn
      rw [if_neg hn]
      split at h
      · rename_i r' e' h'
        simp only [Option.some.injEq] at h; subst h
        exact parseUint_trail hj hf hr h'
      · rename_i z r' h'
        have hrr := parseUint_rest hj hf h'
        right
        split <;> (simp only [hrr]; exact hr)
  have s64 : (decodeInt64 (v ++ r) p).err = some e → e = .syntax ∨ skipSpaces (decodeInt64 (v ++ r) p).rest ≠ [] := by
    intro h
    unfold decodeInt64 at h ⊢
    split at h
    · simp at h
    · rename_i hn
      rw [if_neg hn]
      split at h
      · rename_i r' e' h'
        simp only [Option.some.injEq] at h; subst h
        exact parseInt_trail hj hf hr h'
      · simp at h
  have u64 : (decodeUint64 (v ++ r) p).err = some e → e = .syntax ∨ skipSpaces (decodeUint64 (v ++ r) p).rest ≠ [] := by
    intro h
    unfold decodeUint64 at h ⊢
    split at h
    · simp at h
    · rename_i hn
      rw [if_neg hn]
      split at h
      · rename_i r' e' h'
        simp only [Option.some.injEq] at h; subst h
        exact parseUint_trail hj hf hr h'
      · simp at h
  cases k <;> simp only [decodeIntKind] at h ⊢ <;> first | exact s64 h | exact u64 h | exact signed _ _ _ h | exact unsigned _ _ h

theorem int_trailErr (P : DV → Prop) (k : IntKind) : TrailErr P (decodeInt k) := by
  intro j v hj r hf hr p _ x r' e h
  unfold decodeInt at h
  split at h
  · simp at h
  · simp only [] at h
    split at h
    · simp at h
    · rename_i e' he
      injection h with _ h1 h2
      subst h1 h2
      exact decodeIntKind_trail k hj hf hr _ he

/-- slices and maps: a failing element reports what follows the whole value -/
theorem slice_elems_err {dec : Dec} {z : DV} {input r : Bytes} (hin : ∃ v, parseValue input = .ok v r) :
    ∀ n (done mem : List DV) b x r' e, sliceLoop dec z input n done mem b = .err x r' e → e = .syntax ∨ r' = r := by
  obtain ⟨vin, hin⟩ := hin
  intro n
  induction n with
  | zero => intro done mem b x r' e h; simp [sliceLoop] at h
  | succ n ih =>
    intro done mem b x r' e h
    have elem : ∀ b, sliceElem dec z input n done mem b = .err x r' e → e = .syntax ∨ r' = r := by
      intro b h
      unfold sliceElem at h
      split at h
      · simp at h
      · rw [hin] at h
        injection h with _ h _; exact .inr h.symm
      · exact ih _ _ _ _ _ _ h
    rw [sliceLoop_succ] at h
    split at h
    · simp at h
    · split at h
      · exact elem _ h
      · split at h
        · injection h with _ _ h; exact .inl h.symm
        · split at h
          · injection h with _ _ h; exact .inl h.symm
          · exact elem _ h

theorem slice_trailErr (P : DV → Prop) {dec : Dec} {z : DV} : TrailErr P (decodeSlice dec z) := by
  intro j v hj r hf hr p _ x r' e h
  have hp := parseValue_complete hj hf
  rw [decodeSlice_eq] at h
  split at h
  · simp at h
  · obtain ⟨c, t, e1, hc⟩ := derives_head hj
    have hie : ∀ {x : DV} {r' : Bytes} {e : Err}, inputErr (v ++ r) p = .err x r' e → e = .syntax ∨ skipSpaces r' ≠ [] :=
      fun h => inputErr_trail hj hf hr h
    rw [e1] at hie hp h
    simp only [List.cons_append] at hie hp h
    split at h
    · exact hie h
    · rcases slice_elems_err ⟨_, hp⟩ _ _ _ _ _ _ _ h with h | rfl
      · exact .inl h
      · exact .inr hr

theorem objectKeyError_cases (b : Bytes) (e : Err) (h : e = .syntax ∨ e = .unmarshalType) : (objectKeyError b e).2 = .syntax := by
  unfold objectKeyError
  split
  · rfl
  · split
    · rfl
    · rcases h with rfl | rfl
      · rfl
      · simp_all

theorem inputError_kind (b : Bytes) : (inputError b).2 = .syntax ∨ (inputError b).2 = .unmarshalType := by
  unfold inputError
  split
  · exact .inl rfl
  · split
    · rename_i h; exact .inl (parseValue_err h)
    · exact .inr rfl

theorem unquoteLoop_err : ∀ n (s r : Bytes) (e : Err), s.length < n → unquoteLoop s r = .err e → e = .syntax := by
  intro n
  induction n with
  | zero => intro s r e h; omega
  | succ n ih =>
    intro s r e hn h
    rw [unquoteLoop] at h
    split at h
    · simp at h
    · split at h
      · simp at h
      · rename_i i hi
        simp only [] at h
        split at h
        · simp at h
        · rename_i c t hs
          have hlen := congrArg List.length hs
          simp only [List.length_drop, List.length_cons] at hlen
          have go : ∀ s' r', s'.length ≤ t.length → unquoteLoop s' r' = .err e → e = .syntax := by
            intro s' r' hl h
            exact ih s' r' e (by omega) h
          clear ih hs hi
          have fin : ∀ {x : Err}, UQ.err x = UQ.err e → x = .syntax → e = .syntax := by
            intro x h hx; injection h with h; rw [← h]; exact hx
          by_cases h1 : c = ch! '"' ∨ c = ch! '\\' ∨ c = ch! '/'
          · rw [if_pos h1] at h; exact go _ _ (Nat.le_refl _) h
          rw [if_neg h1] at h; clear h1
          by_cases h1 : c = ch! 'n'
          · rw [if_pos h1] at h; exact go _ _ (Nat.le_refl _) h
          rw [if_neg h1] at h; clear h1
          by_cases h1 : c = ch! 'r'
          · rw [if_pos h1] at h; exact go _ _ (Nat.le_refl _) h
          rw [if_neg h1] at h; clear h1
          by_cases h1 : c = ch! 't'
          · rw [if_pos h1] at h; exact go _ _ (Nat.le_refl _) h
          rw [if_neg h1] at h; clear h1
          by_cases h1 : c = ch! 'b'
          · rw [if_pos h1] at h; exact go _ _ (Nat.le_refl _) h
          rw [if_neg h1] at h; clear h1
          by_cases h1 : c = ch! 'f'
          · rw [if_pos h1] at h; exact go _ _ (Nat.le_refl _) h
          rw [if_neg h1] at h; clear h1
          by_cases h1 : c = ch! 'u'
          · rw [if_pos h1] at h
            have dl : ∀ k, (t.drop k).length ≤ t.length := by intro k; simp only [List.length_drop]; omega
            split at h
            · exact fin h rfl
            · split at h
              · split at h
                · exact go _ _ (dl 4) h
                · split at h
                  · exact fin h rfl
                  · split at h
                    · exact go _ _ (by rw [List.drop_drop]; exact dl _) h
                    · exact go _ _ (dl 4) h
              · exact go _ _ (dl 4) h
          · rw [if_neg h1] at h; exact fin h rfl

theorem unquote_err {b r : Bytes} {e : Err} (h : parseStringUnquote b [] = .fail r e) : e = .syntax := by
  unfold parseStringUnquote at h
  split at h
  · rename_i h'
    injection h with _ h; subst h
    exact parseStringFast_err h'
  · split at h
    · simp at h
    · simp only [] at h
      split at h
      · simp at h
      · split at h
        · simp at h
        · rename_i h'
          injection h with _ h; subst h
          exact unquoteLoop_err _ _ _ _ (Nat.lt_succ_self _) h'
        · simp at h

theorem intFinish_kind {b : Bytes} {n : Nat} {l : DigLoop} {r : Bytes} {e : Err} (h : intFinish b n l = .fail r e) :
    e = .syntax ∨ e = .unmarshalType := by
  cases l with
  | overflow => injection h with _ h; exact .inr h.symm
  | noDigit => injection h with _ h; subst h; exact inputError_kind b
  | stop x c =>
    simp only [intFinish, intTail] at h
    repeat' split at h
    all_goals first
      | (injection h with _ h; exact .inr h.symm)
      | simp at h

theorem parseInt_kind {b r : Bytes} {e : Err} (h : parseInt b = .fail r e) : e = .syntax ∨ e = .unmarshalType := by
  unfold parseInt at h
  repeat' split at h
  all_goals first
    | (injection h with _ h; exact .inl h.symm)
    | exact intFinish_kind h

theorem parseUint_kind {b r : Bytes} {e : Err} (h : parseUint b = .fail r e) : e = .syntax ∨ e = .unmarshalType := by
  unfold parseUint at h
  repeat' split at h
  all_goals first
    | (injection h with _ h; exact .inl h.symm)
    | exact intFinish_kind h

theorem decodeInt_kind {k : IntKind} {b : Bytes} {p x : DV} {r : Bytes} {e : Err} (h : decodeInt k b p = .err x r e) :
    e = .syntax ∨ e = .unmarshalType := by
  unfold decodeInt at h
  split at h
  · simp at h
  · simp only [] at h
    split at h
    · simp at h
    · rename_i e' he
      injection h with _ _ h; subst h
      cases k <;> simp only [decodeIntKind, decodeInt64, decodeUint64, decodeIntSized, decodeUintSized] at he
      all_goals
        repeat' split at he
        all_goals first
          | simp at he; done
          | (simp only [Option.some.injEq] at he; subst he; exact parseInt_kind (by assumption))
          | (simp only [Option.some.injEq] at he; subst he; exact parseUint_kind (by assumption))
          | (simp only [Option.some.injEq] at he; exact .inr he.symm)

theorem decodeKey_kind {k : KTy} {raw : Bytes} (hraw : JString raw) {T : Bytes} {x : DV} {r : Bytes} {e : Err}
    (h : decodeKey k (raw ++ T) = .err x r e) : e = .syntax ∨ e = .unmarshalType ∨ r = T := by
  suffices H : (e = .syntax ∨ e = .unmarshalType) ∨ r = T by
    rcases H with (h | h) | h
    · exact .inl h
    · exact .inr (.inl h)
    · exact .inr (.inr h)
  cases k with
  | text tk =>
    rw [decodeKey_text_str tk hraw] at h
    cases ha : tk.answer (unq raw) with
    | none => rw [ha] at h; simp at h
    | some e' => rw [ha] at h; injection h with _ h _; exact .inr h.symm
  | str =>
    left
    generalize raw ++ T = b at h
    simp only [decodeKey, decodeString] at h
    split at h
    · simp at h
    · split at h
      · simp at h
      · rename_i h'
        split at h
        · injection h with _ _ h; subst h; exact inputError_kind b
        · injection h with _ _ h; subst h; exact .inl (unquote_err h')
      · simp at h
  | int k =>
    left
    generalize raw ++ T = b at h
    simp only [decodeKey, decodeFromString] at h
    split at h
    · exact decodeInt_kind h
    · split at h
      · simp at h
      · injection h with _ _ h; subst h; exact inputError_kind []
      · split at h
        · simp at h
        · rename_i h'
          injection h with _ _ h; subst h; exact decodeInt_kind h'
        · split at h
          · injection h with _ _ h; exact .inl h.symm
          · simp at h

/-- failure of a map: a syntax error, an error in a value, or a key that its type does not take -/
theorem map_members_err {dec : Dec} {z : DV} (hd : TrailOk dec) (k : KTy) (p : DV) (fresh : Bool) {input rin : Bytes}
    (hin : ∃ v, parseValue input = .ok v rin) :
    ∀ (ms : List (Bytes × Json)) (u : Bytes), Derives (.members ms) u → ∀ (m : List (MK × DV)) (n : Nat) (r : Bytes) x r' e,
      mapMember k dec z p fresh input n m (skipSpaces (u ++ 0x7d :: r)) = .err x r' e →
      e = .syntax ∨ r' = rin ∨ ((∃ raw T y, JString raw ∧ decodeKey k (raw ++ T) = .err y T e) ∧ skipSpaces r' ≠ []) := by
  intro ms
  induction ms with
  | nil => intro u h; cases h
  | cons kj ms ih =>
    intro u h m n r x r' e he
    obtain ⟨raw, j⟩ := kj
    have step : ∀ w1 w2 w3 b T, Ws w1 → JString raw → Ws w2 → Ws w3 → Derives (.value j) b → NumStop T →
        mapMember k dec z p fresh input n m (skipSpaces (w1 ++ (raw ++ (w2 ++ 0x3a :: (w3 ++ (b ++ T)))))) = .err x r' e →
        (e = .syntax ∨ r' = rin ∨ ((∃ raw T y, JString raw ∧ decodeKey k (raw ++ T) = .err y T e) ∧ skipSpaces r' ≠ [])) ∨
        ∃ m', mapLoopD k dec z p fresh input n false m' T = .err x r' e := by
      intro w1 w2 w3 b T hw1 hk hw2 hw3 hj hT h
      rw [skipSpaces_ws_append hw1, jstring_skip hk] at h
      have hsp := skip_ws_cons hw2 (c := 0x3a) (by decide) (w3 ++ (b ++ T))
      cases hkey : decodeKey k (raw ++ (w2 ++ 0x3a :: (w3 ++ (b ++ T)))) with
      | crash c => exact absurd hkey (decodeKey_nc _ _ _)
      | err y r1 e1 =>
        left
        have hnull : hasNullPrefix (raw ++ (w2 ++ 0x3a :: (w3 ++ (b ++ T)))) = false := by
          obtain ⟨t, rfl⟩ := jstring_head hk; exact hasNull_cons (by decide)
        rw [mapMember] at h
        simp only [memberKey, if_true, hnull, Bool.false_eq_true, if_false, hkey] at h
        injection h with _ h1 h2
        rcases decodeKey_kind hk hkey with he1 | he1 | he1
        · left; rw [← h2]; exact objectKeyError_cases _ _ (.inl he1)
        · left; rw [← h2]; exact objectKeyError_cases _ _ (.inr he1)
        · subst he1
          unfold objectKeyError at h1 h2
          split at h1
          · rename_i hnil; simp at hnil
          · rename_i hne
            rw [if_neg hne] at h2
            split at h1
            · rename_i hu; rw [if_pos hu] at h2; exact .inl h2.symm
            · rename_i hu
              rw [if_neg hu] at h2
              simp only [] at h1 h2
              subst h1 h2
              exact .inr (.inr ⟨⟨_, _, _, hk, hkey⟩, by rw [hsp]; simp⟩)
      | ok d rr =>
        have := decodeKey_rest hk k _ hkey
        subst this
        rw [mapMember, memberKey_ok hk hw2 hkey, skip_ws_value hw3 hj] at h
        simp only [] at h
        split at h
        · simp at h
        · obtain ⟨vin, hin⟩ := hin
          rw [hin] at h
          injection h with _ h _; exact .inl (.inr (.inl h.symm))
        · rename_i y r2 e2
          refine .inr ⟨mapSet (keyOf d) y m, ?_⟩
          rw [← h]
          exact mapLoopD_skip (skip_or (hd j b hj T (follow_of_numStop hT) _ _ _ e2)).symm
    cases h with
    | memOne w1 w2 w3 w4 _ _ b hw1 hw2 hw3 hw4 hk hj =>
      have e' : w1 ++ raw ++ w2 ++ 0x3a :: (w3 ++ b ++ w4) ++ 0x7d :: r =
          w1 ++ (raw ++ (w2 ++ 0x3a :: (w3 ++ (b ++ (w4 ++ 0x7d :: r))))) := by simp
      rw [e'] at he
      rcases step w1 w2 w3 b _ hw1 hk hw2 hw3 hj (numStop_ws_cons hw4 (by simp)) he with h | ⟨m', h⟩
      · exact h
      · cases n with
        | zero => simp [mapLoopD] at h
        | succ n =>
          rw [mapLoopD_close (skip_ws_cons hw4 (by decide) r)] at h
          simp at h
    | memCons w1 w2 w3 w4 _ _ b _ bs hw1 hw2 hw3 hw4 hk hj hbs =>
      have e' : w1 ++ raw ++ w2 ++ 0x3a :: (w3 ++ b ++ w4 ++ 0x2c :: bs) ++ 0x7d :: r =
          w1 ++ (raw ++ (w2 ++ 0x3a :: (w3 ++ (b ++ (w4 ++ 0x2c :: (bs ++ 0x7d :: r)))))) := by simp
      rw [e'] at he
      rcases step w1 w2 w3 b _ hw1 hk hw2 hw3 hj (numStop_ws_cons hw4 (by simp)) he with h | ⟨m', h⟩
      · exact h
      · cases n with
        | zero => simp [mapLoopD] at h
        | succ n =>
          rw [mapLoopD_comma (skip_ws_cons hw4 (by decide) _)] at h
          exact ih bs hbs _ _ _ _ _ _ h

theorem map_value_err {dec : Dec} {z : DV} (hd : TrailOk dec) (k : KTy) {j : Json} {v r : Bytes} (hj : Derives (.value j) v) (hf : Follow j r)
    {p x : DV} {r' : Bytes} {e : Err} (h : decodeMap k dec z (v ++ r) p = .err x r' e) :
    inputErr (v ++ r) p = .err x r' e ∨ e = .syntax ∨ r' = r ∨
      ((∃ raw T y, JString raw ∧ decodeKey k (raw ++ T) = .err y T e) ∧ skipSpaces r' ≠ []) := by
  have hpv := parseValue_complete hj hf
  have loop : ∀ (b : Bytes) (fresh : Bool) n (m : List (MK × DV)) (ms : List (Bytes × Json)) (input : Bytes), (∃ v, parseValue input = .ok v r) →
      Derives (.members ms) b → mapLoopD k dec z p fresh input n true m (b ++ 0x7d :: r) = .err x r' e →
      e = .syntax ∨ r' = r ∨ ((∃ raw T y, JString raw ∧ decodeKey k (raw ++ T) = .err y T e) ∧ skipSpaces r' ≠ []) := by
    intro b fresh n m ms input hin hb h
    cases n with
    | zero => simp [mapLoopD] at h
    | succ n =>
      obtain ⟨t, eh⟩ := derives_members_head hb (0x7d :: r)
      rw [mapLoopD_first (by rw [eh]; simp)] at h
      exact map_members_err hd k p fresh hin ms b hb _ _ _ _ _ _ h
  have close : ∀ (w : Bytes) (fresh : Bool) n (m : List (MK × DV)) (input : Bytes), Ws w →
      mapLoopD k dec z p fresh input n true m (w ++ 0x7d :: r) ≠ .err x r' e := by
    intro w fresh n m input hw h
    cases n with
    | zero => simp [mapLoopD] at h
    | succ n =>
      rw [mapLoopD_close (skip_ws_cons hw (by decide) r)] at h
      simp at h
  unfold decodeMap at h
  split at h
  · simp at h
  · obtain ⟨c, t, rfl, hc⟩ := derives_head hj
    simp only [List.cons_append] at h hpv ⊢
    split at h
    · exact .inl h
    · rename_i hb0
      right
      have hc5 : c = 0x7b := Classical.byContradiction fun h => hb0 (.inr h)
      subst hc5
      cases hj with
      | num s hs => exact absurd rfl (digit_range hc).2.2.2.2.2.1
      | str s hs => simp [headOk] at hc
      | objNil w hw =>
        rw [show w ++ [0x7d] ++ r = w ++ 0x7d :: r by simp] at h
        split at h
        · exact absurd h (close _ _ _ _ _ hw)
        · exact absurd h (close _ _ _ _ _ hw)
      | obj ms b hb =>
        rw [show b ++ [0x7d] ++ r = b ++ 0x7d :: r by simp] at h hpv
        split at h
        · exact loop _ _ _ _ _ _ ⟨_, hpv⟩ hb h
        · exact loop _ _ _ _ _ _ ⟨_, hpv⟩ hb h

theorem map_trailErr (P : DV → Prop) (k : KTy) {dec : Dec} {z : DV} (hd : TrailOk dec) : TrailErr P (decodeMap k dec z) := by
  intro j v hj r hf hr p _ x r' e h
  rcases map_value_err hd k hj hf h with h | h | rfl | ⟨_, h⟩
  · exact inputErr_trail hj hf hr h
  · exact .inl h
  · exact .inr hr
  · exact .inr h

theorem struct_trailErr (P : DV → Prop) {decs : List Dec} (hd : ∀ d ∈ decs, TrailOk d) (c : DCfg) (names : List Bytes) :
    TrailErr P (decodeStruct c names decs) := by
  intro j v hj r hf hr p _ x r' e h
  rcases (struct_trail hd c names hj hf p).2 x r' e h with rfl | rfl | h
  · exact .inr hr
  · exact .inr (skip_skip_ne hr)
  · exact .inr h

/-! ### arrays -/

/-- at a closing bracket only syntax errors are reported -/
def RejS (P : DV → Prop) (dec : Dec) : Prop := ∀ t p, P p → ∀ x r e, dec (0x5d :: t) p = .err x r e → e = .syntax

theorem parseValue_bracket_fail (t : Bytes) : ∃ r, parseValue (0x5d :: t) = .fail r .syntax := by
  cases h : parseValue (0x5d :: t) with
  | ok v r => exact absurd h (parseValue_bracket t v r)
  | fail r e => have := parseValue_err h; subst this; exact ⟨r, rfl⟩

theorem inputErr_bracket {t : Bytes} {p x : DV} {r : Bytes} {e : Err} (h : inputErr (0x5d :: t) p = .err x r e) : e = .syntax := by
  obtain ⟨r', hp⟩ := parseValue_bracket_fail t
  unfold inputErr inputError at h
  rw [hp] at h
  simp at h
  exact h.2.2.symm

theorem arrayRest_err {p : DV} : ∀ n b x r e, arrayRest p n b = .err x r e → e = .syntax := by
  intro n
  induction n with
  | zero => intro b x r e h; simp [arrayRest] at h
  | succ n ih =>
    intro b x r e h
    simp only [arrayRest] at h
    split at h
    · injection h with _ _ h; exact h.symm
    · split at h
      · simp at h
      · split at h
        · rename_i h'
          injection h with _ _ h; subst h
          exact parseValue_err h'
        · exact ih _ _ _ _ h

theorem array_elems_err {P : DV → Prop} {dec : Dec} {z : DV} (hd : TrailOk dec) (he : TrailErr P dec) (hz : P z) :
    ∀ (xs : List Json) (m : Bytes), Derives (.elems xs) m → ∀ (done : List DV) (n : Nat) (mem : List DV) (r : Bytes), (∀ x ∈ mem, P x) →
      ∀ x r' e, arrayElem dec z done n mem (skipSpaces (m ++ 0x5d :: r)) = .err x r' e → e = .syntax ∨ skipSpaces r' ≠ [] := by
  intro xs
  induction xs with
  | nil => intro m h; cases h
  | cons j xs ih =>
    intro m h done n mem r hmem x r' e he'
    have step : ∀ w1 b T, Ws w1 → Derives (.value j) b → NumStop T → skipSpaces T ≠ [] →
        arrayElem dec z done n mem (skipSpaces (w1 ++ (b ++ T))) = .err x r' e →
        (e = .syntax ∨ skipSpaces r' ≠ []) ∨
        ∃ y r2, (r2 = T ∨ r2 = skipSpaces T) ∧ arrayElems dec z false (done ++ [y]) n mem.tail r2 = .err x r' e := by
      intro w1 b T hw hj hT hb h
      rw [skip_ws_value hw hj] at h
      unfold arrayElem at h
      split at h
      · simp at h
      · rename_i e2
        injection h with _ h1 h2
        subst h1 h2
        exact .inl (he j b hj T (follow_of_numStop hT) hb _ (mem_headD hz hmem) _ _ _ e2)
      · rename_i y r2 e2
        exact .inr ⟨y, r2, hd j b hj T (follow_of_numStop hT) _ _ _ e2, h⟩
    cases h with
    | elemOne w1 w2 _ b hw1 hw2 hj =>
      have e' : w1 ++ b ++ w2 ++ 0x5d :: r = w1 ++ (b ++ (w2 ++ 0x5d :: r)) := by simp
      rw [e'] at he'
      rcases step w1 b (w2 ++ 0x5d :: r) hw1 hj (numStop_ws_cons hw2 (by simp)) (by rw [skip_ws_cons hw2 (by decide)]; simp) he' with
        h | ⟨y, r2, hr, h⟩
      · exact h
      · have hsk : skipSpaces r2 = 0x5d :: r := by rw [skip_or hr]; exact skip_ws_cons hw2 (by decide) r
        cases n with
        | zero => rw [arrayElems, arrayRest_of hsk] at h; simp at h
        | succ n =>
          rw [arrayElems_next, hsk] at h
          simp at h
    | elemCons w1 w2 _ b _ bs hw1 hw2 hj hbs =>
      have e' : w1 ++ b ++ w2 ++ 0x2c :: bs ++ 0x5d :: r = w1 ++ (b ++ (w2 ++ 0x2c :: (bs ++ 0x5d :: r))) := by simp
      rw [e'] at he'
      rcases step w1 b (w2 ++ 0x2c :: (bs ++ 0x5d :: r)) hw1 hj (numStop_ws_cons hw2 (by simp))
        (by rw [skip_ws_cons hw2 (by decide)]; simp) he' with h | ⟨y, r2, hr, h⟩
      · exact h
      · have hsk : skipSpaces r2 = 0x2c :: (bs ++ 0x5d :: r) := by rw [skip_or hr]; exact skip_ws_cons hw2 (by decide) _
        cases n with
        | zero =>
          rw [arrayElems] at h
          exact .inl (arrayRest_err _ _ _ _ _ h)
        | succ n =>
          rw [arrayElems_next, hsk] at h
          simp only [if_true] at h
          exact ih bs hbs _ _ _ _ (mem_tail hmem) _ _ _ h

theorem array_trailErr {P PS : DV → Prop} {dec : Dec} {z : DV} (hd : TrailOk dec) (he : TrailErr P dec) (hz : P z) (hrej : Rej dec)
    (hrs : RejS P dec) (hs : ∀ d, PS (.array d) → ∀ y ∈ d, P y) (k : Nat) : TrailErr PS (decodeArray k dec z) := by
  intro j v hj r hf hr p hp x r' e h
  have hmem : ∀ x ∈ arrMem p, P x := by
    cases p <;> simp [arrMem]
    case array xs => exact hs _ hp
  rw [decodeArray_eq] at h
  split at h
  · simp at h
  · obtain ⟨c, t, e1, hc⟩ := derives_head hj
    have hie : ∀ {x : DV} {r' : Bytes} {e : Err}, inputErr (v ++ r) p = .err x r' e → e = .syntax ∨ skipSpaces r' ≠ [] :=
      fun h => inputErr_trail hj hf hr h
    rw [e1] at hie h
    simp only [List.cons_append] at hie h
    split at h
    · exact hie h
    · rename_i hb0
      have hc5 : c = 0x5b := Classical.byContradiction fun h => hb0 (.inr h)
      subst hc5
      cases hj with
      | null | tru | fls | objNil | obj => all_goals simp at e1
      | num s hs => exact absurd rfl (digit_range hc).2.2.2.2.1
      | str s hs => simp [headOk] at hc
      | arrNil w hw =>
        injection e1 with _ e1; subst e1
        have hsk := skip_ws_cons hw (c := 0x5d) (by decide) r
        rw [show w ++ [0x5d] ++ r = w ++ 0x5d :: r by simp] at h
        cases k with
        | zero => rw [arrayElems] at h; exact .inl (arrayRest_err _ _ _ _ _ h)
        | succ k =>
          rw [arrayElems_first, hsk] at h
          unfold arrayElem at h
          split at h
          · simp at h
          · rename_i e2
            injection h with _ _ h; subst h
            exact .inl (hrs _ _ (mem_headD hz hmem) _ _ _ e2)
          · rename_i e2; exact absurd e2 (hrej _ _ _ _)
      | arr xs b hb =>
        injection e1 with _ e1; subst e1
        rw [show b ++ [0x5d] ++ r = b ++ 0x5d :: r by simp] at h
        cases k with
        | zero => rw [arrayElems] at h; exact .inl (arrayRest_err _ _ _ _ _ h)
        | succ k =>
          rw [arrayElems_first] at h
          exact array_elems_err hd he hz xs b hb _ _ _ _ hmem _ _ _ h

/-! ### all types -/

theorem bool_trailErr (P : DV → Prop) : TrailErr P decodeBool := by
  intro j v hj r hf hr p _ x r' e h
  unfold decodeBool at h
  repeat' split at h
  all_goals first
    | simp at h; done
    | exact inputErr_trail hj hf hr h

theorem float_trailErr (P : DV → Prop) (l : Lib) (b32 : Bool) : TrailErr P (decodeFloat l b32) := by
  intro j v hj r hf hr p _ x r' e h
  unfold decodeFloat at h
  repeat' split at h
  all_goals first
    | simp at h; done
    | exact inputErr_trail hj hf hr h

theorem number_trailErr (P : DV → Prop) : TrailErr P decodeNumber := by
  intro j v hj r hf hr p _ x r' e h
  unfold decodeNumber at h
  repeat' split at h
  all_goals first
    | simp at h; done
    | exact inputErr_trail hj hf hr h

theorem duration_trailErr (P : DV → Prop) (l : Lib) : TrailErr P (decodeDuration l) := by
  intro j v hj r hf hr p _ x r' e h
  unfold decodeDuration at h
  split at h
  · simp at h
  · have hie : ∀ {x : DV} {r' : Bytes} {e : Err}, inputErr (v ++ r) p = .err x r' e → e = .syntax ∨ skipSpaces r' ≠ [] :=
      fun h => inputErr_trail hj hf hr h
    generalize v ++ r = b at h hie
    repeat' split at h
    all_goals first
      | simp at h; done
      | exact hie h

theorem time_trailErr (P : DV → Prop) (l : Lib) : TrailErr P (decodeTime l) := by
  intro j v hj r hf hr p _ x r' e h
  unfold decodeTime at h
  split at h
  · simp at h
  · have hie : ∀ {x : DV} {r' : Bytes} {e : Err}, inputErr (v ++ r) p = .err x r' e → e = .syntax ∨ skipSpaces r' ≠ [] :=
      fun h => inputErr_trail hj hf hr h
    generalize v ++ r = b at h hie
    repeat' split at h
    all_goals first
      | simp at h; done
      | exact hie h

theorem string_trailErr (P : DV → Prop) : TrailErr P decodeString := by
  intro j v hj r hf hr p _ x r' e h
  unfold decodeString at h
  split at h
  · simp at h
  · split at h
    · simp at h
    · rename_i h'
      split at h
      · exact inputErr_trail hj hf hr h
      · injection h with _ _ h; subst h
        exact .inl (unquote_err h')
    · simp at h

theorem typeError_trailErr (P : DV → Prop) : TrailErr P decodeUnmarshalTypeError := by
  intro j v hj r hf hr p _ x r' e h
  unfold decodeUnmarshalTypeError at h
  rw [parseValue_complete hj hf] at h
  injection h with _ h; subst h; exact .inr hr

theorem parseInvalid_trailErr (P : DV → Prop) : TrailErr P parseInvalid := by
  intro j v hj r hf hr p _ x r' e h
  unfold parseInvalid at h
  rw [skip_value hj, parseValue_complete hj hf] at h
  injection h with _ h; subst h; exact .inr (skip_skip_ne hr)

theorem raw_trailErr (P : DV → Prop) : TrailErr P decodeRawMessage := by
  intro j v hj r hf hr p _ x r' e h
  unfold decodeRawMessage at h
  rw [parseValue_complete hj hf] at h
  simp at h

theorem jsonU_trailErr (P : DV → Prop) (f : Bytes → Option Err) : TrailErr P (decodeJSONUnmarshaler f) := by
  intro j v hj r hf hr p _ x r' e h
  unfold decodeJSONUnmarshaler at h
  rw [parseValue_complete hj hf] at h
  simp only [] at h
  repeat' split at h
  all_goals first
    | simp at h; done
    | (injection h with _ h; subst h; exact .inr hr)

theorem textU_trailErr (P : DV → Prop) (f : Bytes → Option Err) : TrailErr P (decodeTextUnmarshaler f) := by
  intro j v hj r hf hr p _ x r' e h
  unfold decodeTextUnmarshaler at h
  rw [parseValue_complete hj hf] at h
  obtain ⟨c, t, e1, hc⟩ := derives_head hj
  rw [e1] at h
  simp only [] at h
  repeat' split at h
  all_goals first
    | simp at h; done
    | (injection h with _ h; subst h; exact .inr hr)

theorem bytes_trailErr (P : DV → Prop) : TrailErr P decodeBytes := by
  intro j v hj r hf hr p _ x r' e h
  unfold decodeBytes at h
  split at h
  · simp at h
  · have hie : ∀ {x : DV} {r' : Bytes} {e : Err}, inputErr (v ++ r) p = .err x r' e → e = .syntax ∨ skipSpaces r' ≠ [] :=
      fun h => inputErr_trail hj hf hr h
    have hsl : ∀ q {x : DV} {r' : Bytes} {e : Err}, decodeSlice (decodeInt .uint8) (.int 0) (v ++ r) q = .err x r' e →
        e = .syntax ∨ skipSpaces r' ≠ [] := fun q {_ _ _} h => slice_trailErr (fun _ => True) j v hj r hf hr q trivial _ _ _ h
    have hus : ∀ {s r2 n}, parseStringUnquote (v ++ r) [] = .ok s r2 n → skipSpaces r2 ≠ [] := by
      intro s r2 n h
      by_cases hs : ∃ s, j = .str s
      · obtain ⟨s, rfl⟩ := hs
        cases hj with
        | str _ hs =>
          obtain ⟨n', h'⟩ := unquote_ok hs r
          rw [h'] at h
          injection h with _ h; rw [← h]; exact hr
      · obtain ⟨c, t, e1, hc⟩ := derives_head hj
        rw [e1] at h
        refine absurd h (unquote_cons_ne ?_)
        rintro rfl
        cases j <;> simp [headOk] at hc
        · exact absurd hc (by unfold Digit; decide)
        · exact hs ⟨_, rfl⟩
    generalize v ++ r = b at h hie hsl hus
    split at h
    · exact hie h
    · split at h
      · exact hie h
      · split at h
        · split at h
          · simp only [] at h
            generalize hq : decodeSlice _ _ _ _ = d at h
            cases d with
            | ok => simp [DRes.map] at h
            | crash => simp [DRes.map] at h
            | err x2 r2 e2 =>
              simp only [DRes.map] at h
              injection h with _ h1 h2; subst h1 h2
              exact hsl _ hq
          · exact hie h
        · split at h
          · simp at h
          · exact hie h
          · rename_i hq
            split at h
            · injection h with _ h _; subst h; exact .inr (hus hq)
            · simp at h

theorem parseInto_trailErr {P : DV → Prop} {dec : Dec} (he : TrailErr P dec) : TrailErr P (parseInto dec) := by
  intro j v hj r hf hr p hp x r' e h
  unfold parseInto at h
  rw [skip_value hj] at h
  split at h
  · simp at h
  · rename_i e2
    injection h with _ h1 h2; subst h1 h2
    exact (he j v hj r hf hr p hp _ _ _ e2).imp id skip_skip_ne
  · simp at h

theorem map_trailErr' {P P' : DV → Prop} {dec q : Dec} {g h : DV → DV} (he : TrailErr P dec) (hP : ∀ p, P' p → P (h p))
    (e : ∀ b p, q b p = (dec b (h p)).map g) : TrailErr P' q := by
  intro j v hj r hf hr p hp x r' e' h'
  rw [e] at h'
  generalize hd : dec (v ++ r) (h p) = d at h'
  cases d with
  | ok => simp [DRes.map] at h'
  | crash => simp [DRes.map] at h'
  | err x2 r2 e2 =>
    simp only [DRes.map] at h'
    injection h' with _ h1 h2; subst h1 h2
    exact he j v hj r hf hr _ (hP _ hp) _ _ _ hd

theorem ptr_trailErr {P P' : DV → Prop} {dec : Dec} {z : DV} (he : TrailErr P dec) (hz : P z) (hP : ∀ v, P' (.ptr v) → P v) (ep : Bool) :
    TrailErr P' (decodePointer ep dec z) := by
  intro j v hj r hf hr p hp x r' e h
  have fin : ∀ q, P q → (dec (v ++ r) q).map .ptr = .err x r' e → e = .syntax ∨ skipSpaces r' ≠ [] := by
    intro q hq h'
    generalize hd : dec (v ++ r) q = d at h'
    cases d with
    | ok => simp [DRes.map] at h'
    | crash => simp [DRes.map] at h'
    | err x2 r2 e2 =>
      simp only [DRes.map] at h'
      injection h' with _ h1 h2; subst h1 h2
      exact he j v hj r hf hr _ hq _ _ _ hd
  unfold decodePointer at h
  split at h
  · split at h
    · split at h
      · exact fin _ (hP _ hp) h
      · simp at h
    · simp at h
  · refine fin _ ?_ h
    cases p <;> simp only [] <;> first | exact hz | exact hP _ hp

theorem iface_trailErr {Q : Ty → Prop} {m : Nat} (c : DCfg) {dyn : Ty → Dec}
    (hd : ∀ m', m = m' + 1 → ∀ t, Q t → TrailErr (Held Q · m') (dyn t)) : TrailErr (Held Q · m) (decodeInterface c dyn) := by
  intro j v hj r hf hr p hp x r' e h
  unfold decodeInterface at h
  split at h
  · split at h
    · split at h
      · simp at h
      · split at h
        · simp at h
        · rename_i e2
          injection h with _ h1 h2; subst h1 h2
          cases m with
          | zero => simp [Held] at hp
          | succ m =>
            simp only [Held] at hp
            exact parseInto_trailErr (hd m rfl _ hp.1) j v hj r hf hr _ hp.2 _ _ _ e2
        · simp at h
    · split at h
      · simp at h
      · exact parseInvalid_trailErr (fun _ => True) j v hj r hf hr _ trivial _ _ _ h
  · rcases ifaceValue_left c ((v ++ r).length + 1) hj hf p with ⟨y, h'⟩ | ⟨y, e', h'⟩ | ⟨y, h'⟩ <;> rw [h'] at h <;> simp at h
    rw [← h.2.1]; exact .inr hr

theorem ifaceM_trailErr {Q : Ty → Prop} {m : Nat} (c : DCfg) {dyn : Ty → Dec}
    (hd : ∀ m', m = m' + 1 → ∀ t, Q t → TrailErr (Held Q · m') (dyn t)) (em : Bool) : TrailErr (Held Q · m) (decodeIfaceM c dyn em) := by
  intro j v hj r hf hr p hp x r' e h
  unfold decodeIfaceM at h
  split at h
  · simp at h
  · split at h
    · split at h
      · cases m with
        | zero => simp [Held] at hp
        | succ m =>
          simp only [Held] at hp
          generalize hq : parseInto _ _ _ = d at h
          cases d with
          | ok => simp [DRes.map] at h
          | crash => simp [DRes.map] at h
          | err x2 r2 e2 =>
            simp only [DRes.map] at h
            injection h with _ h1 h2; subst h1 h2
            exact parseInto_trailErr (hd m rfl _ hp.1) j v hj r hf hr _ hp.2 _ _ _ hq
      · exact parseInvalid_trailErr (fun _ => True) j v hj r hf hr _ trivial _ _ _ h
      · exact typeError_trailErr (fun _ => True) j v hj r hf hr _ trivial _ _ _ h
    · split at h
      · exact parseInto_trailErr (iface_trailErr c hd) j v hj r hf hr _ hp _ _ _ h
      · exact typeError_trailErr (fun _ => True) j v hj r hf hr _ trivial _ _ _ h

theorem quoted_trailErr {P : DV → Prop} {dec : Dec} (he : TrailErr P dec) : TrailErr P (decodeFromString dec) := by
  intro j v hj r hf hr p hp x r' e h
  by_cases hs : ∃ s, j = .str s
  · obtain ⟨s, rfl⟩ := hs
    cases hj with
    | str _ hs =>
      rw [decodeFromString_eq hs] at h
      split at h
      · simp at h
      · injection h with _ h; subst h; exact .inr hr
      · split at h
        · injection h with _ h; subst h; exact .inr hr
        · simp at h
  · unfold decodeFromString at h
    split at h
    · exact he j v hj r hf hr p hp _ _ _ h
    · split at h
      · simp at h
      · injection h with _ _ h; subst h; exact .inl rfl
      · rename_i h'
        obtain ⟨c, t, e1, hc⟩ := derives_head hj
        rw [e1] at h'
        refine absurd h' (unquote_cons_ne ?_)
        rintro rfl
        cases j <;> simp [headOk] at hc
        · exact absurd hc (by unfold Digit; decide)
        · exact hs ⟨_, rfl⟩

theorem parseValue_bracket_err {t : Bytes} {r : Bytes} {e : Err} (h : parseValue (0x5d :: t) = .fail r e) : e = .syntax := parseValue_err h

theorem iface_rejS {Q : Ty → Prop} {m : Nat} (c : DCfg) {dyn : Ty → Dec}
    (hd : ∀ m', m = m' + 1 → ∀ t, Q t → RejS (Held Q · m') (dyn t)) : RejS (Held Q · m) (decodeInterface c dyn) := by
  intro t p hp x r e h
  unfold decodeInterface at h
  split at h
  · split at h
    · split at h
      · simp at h
      · split at h
        · simp at h
        · rename_i e2
          injection h with _ _ h2; subst h2
          cases m with
          | zero => simp [Held] at hp
          | succ m =>
            simp only [Held] at hp
            unfold parseInto at e2
            rw [skipSpaces_cons_of_not (by decide)] at e2
            split at e2
            · simp at e2
            · rename_i e3
              injection e2 with _ _ e2; subst e2
              exact hd m rfl _ hp.1 _ _ hp.2 _ _ _ e3
            · simp at e2
        · simp at h
    · split at h
      · simp at h
      · obtain ⟨r', hb⟩ := parseValue_bracket_fail t
        unfold parseInvalid at h
        rw [skipSpaces_cons_of_not (by decide), hb] at h
        injection h with _ _ h; exact h.symm
  · rw [ifaceValue] at h
    obtain ⟨r', hb⟩ := parseValue_bracket_fail t
    simp only [hb] at h
    injection h with _ _ h; exact h.symm

theorem typeError_rejS (P : DV → Prop) : RejS P decodeUnmarshalTypeError := by
  intro t p _ x r e h
  obtain ⟨r', hb⟩ := parseValue_bracket_fail t
  unfold decodeUnmarshalTypeError at h
  rw [hb] at h
  injection h with _ _ h; exact h.symm

theorem parseInto_rejS {P : DV → Prop} {dec : Dec} (hd : RejS P dec) : RejS P (parseInto dec) := by
  intro t p hp x r e h
  unfold parseInto at h
  rw [skipSpaces_cons_of_not (by decide)] at h
  split at h
  · simp at h
  · rename_i e3
    injection h with _ _ h; subst h
    exact hd _ _ hp _ _ _ e3
  · simp at h

theorem parseInvalid_rejS (P : DV → Prop) : RejS P parseInvalid := by
  intro t p _ x r e h
  obtain ⟨r', hb⟩ := parseValue_bracket_fail t
  unfold parseInvalid at h
  rw [skipSpaces_cons_of_not (by decide), hb] at h
  injection h with _ _ h; exact h.symm

theorem ifaceM_rejS {Q : Ty → Prop} {m : Nat} (c : DCfg) {dyn : Ty → Dec}
    (hd : ∀ m', m = m' + 1 → ∀ t, Q t → RejS (Held Q · m') (dyn t)) (em : Bool) : RejS (Held Q · m) (decodeIfaceM c dyn em) := by
  intro t p hp x r e h
  unfold decodeIfaceM at h
  split at h
  · simp at h
  · split at h
    · split at h
      · cases m with
        | zero => simp [Held] at hp
        | succ m =>
          simp only [Held] at hp
          generalize hq : parseInto _ _ _ = d at h
          cases d with
          | ok => simp [DRes.map] at h
          | crash => simp [DRes.map] at h
          | err x2 r2 e2 =>
            simp only [DRes.map] at h
            injection h with _ h1 h2; subst h1 h2
            exact parseInto_rejS (hd m rfl _ hp.1) _ _ hp.2 _ _ _ hq
      · exact parseInvalid_rejS (fun _ => True) _ _ trivial _ _ _ h
      · exact typeError_rejS (fun _ => True) _ _ trivial _ _ _ h
    · split at h
      · exact parseInto_rejS (iface_rejS c hd) _ _ hp _ _ _ h
      · exact typeError_rejS (fun _ => True) _ _ trivial _ _ _ h

theorem ptr_rejS {P P' : DV → Prop} {dec : Dec} {z : DV} (he : RejS P dec) (hz : P z) (hP : ∀ v, P' (.ptr v) → P v) (ep : Bool) :
    RejS P' (decodePointer ep dec z) := by
  intro t p hp x r' e h
  unfold decodePointer at h
  rw [hasNull_cons (by decide)] at h
  simp only [Bool.false_eq_true, if_false] at h
  have fin : ∀ q, P q → (dec (0x5d :: t) q).map .ptr = .err x r' e → e = .syntax := by
    intro q hq h'
    generalize hd : dec _ q = d at h'
    cases d with
    | ok => simp [DRes.map] at h'
    | crash => simp [DRes.map] at h'
    | err x2 r2 e2 =>
      simp only [DRes.map] at h'
      injection h' with _ h1 h2; subst h1 h2
      exact he _ _ hq _ _ _ hd
  refine fin _ ?_ h
  cases p <;> simp only [] <;> first | exact hz | exact hP _ hp

theorem quoted_rejS (P : DV → Prop) (dec : Dec) : RejS P (decodeFromString dec) := by
  intro t p _ x r e h
  unfold decodeFromString at h
  rw [hasNull_cons (by decide)] at h
  simp only [Bool.false_eq_true, if_false] at h
  split at h
  · simp at h
  · injection h with _ _ h; exact h.symm
  · rename_i h'; exact absurd h' (unquote_bracket _ _ _ _)

theorem parseInt_bracket (t : Bytes) : ∃ r, parseInt (0x5d :: t) = .fail r .syntax := by
  obtain ⟨r', hb⟩ := parseValue_bracket_fail t
  refine ⟨(inputError (0x5d :: t)).1, ?_⟩
  unfold parseInt
  simp only []
  rw [if_neg (by decide), if_neg (by simp), posLoop_other (by unfold Digit; decide)]
  simp only [intFinish, inputError, hb]
  simp

theorem parseUint_bracket (t : Bytes) : ∃ r, parseUint (0x5d :: t) = .fail r .syntax := by
  obtain ⟨r', hb⟩ := parseValue_bracket_fail t
  refine ⟨(inputError (0x5d :: t)).1, ?_⟩
  unfold parseUint
  simp only []
  rw [if_neg (by simp), posLoop_other (by unfold Digit; decide)]
  simp only [intFinish, inputError, hb]
  simp

theorem int_rejS (P : DV → Prop) (k : IntKind) : RejS P (decodeInt k) := by
  intro t p _ x r e h
  obtain ⟨r1, h1⟩ := parseInt_bracket t
  obtain ⟨r2, h2⟩ := parseUint_bracket t
  have hn : hasNullPrefix (0x5d :: t) = false := hasNull_cons (by decide)
  unfold decodeInt at h
  rw [hn] at h
  simp only [Bool.false_eq_true, if_false] at h
  cases k <;> simp only [decodeIntKind, decodeInt64, decodeUint64, decodeIntSized, decodeUintSized, hn, h1, h2, Bool.false_eq_true, if_false] at h <;>
    (injection h with _ _ h; exact h.symm)

theorem basic_rejS (P : DV → Prop) {dec : Dec} (h : ∀ t p, (∃ c, dec (0x5d :: t) p = .crash c) ∨ (∃ x r, dec (0x5d :: t) p = .ok x r) ∨
    dec (0x5d :: t) p = inputErr (0x5d :: t) p ∨ ∃ x r, dec (0x5d :: t) p = .err x r .syntax) : RejS P dec := by
  intro t p _ x r e h'
  rcases h t p with ⟨c, h⟩ | ⟨x, r, h⟩ | h | ⟨x, r, h⟩
  · rw [h] at h'; simp at h'
  · rw [h] at h'; simp at h'
  · rw [h] at h'; exact inputErr_bracket h'
  · rw [h] at h'; injection h' with _ _ h'; exact h'.symm

theorem dec_trailErr {m : Nat} {c : DCfg} {dyn : Ty → Dec} (hl : LibOk c.lib) (hok : ∀ t, TrailOk (dyn t)) (hrej : ∀ t, Rej (dyn t))
    (hd : ∀ m', m = m' + 1 → ∀ t, Ty.bare t → TrailErr (Held Ty.bare · m') (dyn t))
    (hr : ∀ m', m = m' + 1 → ∀ t, Ty.bare t → RejS (Held Ty.bare · m') (dyn t)) :
    ∀ t : Ty, t.bare → TrailErr (Held Ty.bare · m) (dec c dyn t) ∧ RejS (Held Ty.bare · m) (dec c dyn t)
  | .bool, _ => by
    simp only [dec]
    refine ⟨bool_trailErr _, basic_rejS _ fun t p => ?_⟩
    simp only [decodeBool]
    rw [if_neg (by simp), if_neg (by simp), hasNull_cons (by decide)]
    exact .inr (.inr (.inl rfl))
  | .int k, _ => by simp only [dec]; exact ⟨int_trailErr _ k, int_rejS _ k⟩
  | .float32, _ => by
    simp only [dec]
    refine ⟨float_trailErr _ _ _, basic_rejS _ fun t p => ?_⟩
    simp only [decodeFloat, hasNull_cons (show (0x5d : UInt8) ≠ 0x6e by decide), Bool.false_eq_true, if_false]
    split
    · exact .inr (.inr (.inl rfl))
    · split
      · exact .inr (.inr (.inl rfl))
      · exact .inr (.inl ⟨_, _, rfl⟩)
  | .float64, _ => by
    simp only [dec]
    refine ⟨float_trailErr _ _ _, basic_rejS _ fun t p => ?_⟩
    simp only [decodeFloat, hasNull_cons (show (0x5d : UInt8) ≠ 0x6e by decide), Bool.false_eq_true, if_false]
    split
    · exact .inr (.inr (.inl rfl))
    · split
      · exact .inr (.inr (.inl rfl))
      · exact .inr (.inl ⟨_, _, rfl⟩)
  | .number, _ => by
    simp only [dec]
    refine ⟨number_trailErr _, basic_rejS _ fun t p => ?_⟩
    simp only [decodeNumber, hasNull_cons (show (0x5d : UInt8) ≠ 0x6e by decide), Bool.false_eq_true, if_false]
    split
    · exact .inr (.inr (.inl rfl))
    · exact .inr (.inl ⟨_, _, rfl⟩)
  | .string, _ => by
    simp only [dec]
    refine ⟨string_trailErr _, basic_rejS _ fun t p => ?_⟩
    simp only [decodeString, hasNull_cons (show (0x5d : UInt8) ≠ 0x6e by decide), Bool.false_eq_true, if_false]
    split
    · exact .inl ⟨_, rfl⟩
    · rw [if_pos (by simp)]; exact .inr (.inr (.inl rfl))
    · exact .inr (.inl ⟨_, _, rfl⟩)
  | .bytes, _ => by
    simp only [dec]
    refine ⟨bytes_trailErr _, basic_rejS _ fun t p => ?_⟩
    simp only [decodeBytes, hasNull_cons (show (0x5d : UInt8) ≠ 0x6e by decide), Bool.false_eq_true, if_false]
    split
    · exact .inr (.inr (.inl rfl))
    · rw [if_pos (by decide), if_neg (by decide)]; exact .inr (.inr (.inl rfl))
  | .duration, _ => by
    simp only [dec]
    refine ⟨duration_trailErr _ _, basic_rejS _ fun t p => ?_⟩
    simp only [decodeDuration, hasNull_cons (show (0x5d : UInt8) ≠ 0x6e by decide), Bool.false_eq_true, if_false]
    rw [if_pos (by decide)]
    split
    · exact .inr (.inr (.inl rfl))
    · exact .inr (.inl ⟨_, _, rfl⟩)
  | .time, _ => by
    simp only [dec]
    refine ⟨time_trailErr _ _, basic_rejS _ fun t p => ?_⟩
    simp only [decodeTime, hasNull_cons (show (0x5d : UInt8) ≠ 0x6e by decide), Bool.false_eq_true, if_false]
    rw [if_pos (.inr (by decide))]
    exact .inr (.inr (.inl rfl))
  | .raw, _ => by
    simp only [dec]
    refine ⟨raw_trailErr _, basic_rejS _ fun t p => ?_⟩
    simp only [decodeRawMessage]
    split
    · exact .inr (.inr (.inl rfl))
    · exact .inr (.inl ⟨_, _, rfl⟩)
  | .iface, _ => by simp only [dec]; exact ⟨iface_trailErr c hd, iface_rejS c hr⟩
  | .ifaceM e, _ => by simp only [dec]; exact ⟨ifaceM_trailErr c hd e, ifaceM_rejS c hr e⟩
  | .slice t, _ => by
    simp only [dec]
    refine ⟨slice_trailErr _, basic_rejS _ fun t p => ?_⟩
    simp only [decodeSlice, hasNull_cons (show (0x5d : UInt8) ≠ 0x6e by decide), Bool.false_eq_true, if_false]
    rw [if_pos (.inr (by decide))]
    exact .inr (.inr (.inl rfl))
  | .array n t, ht => by
    simp only [Ty.bare] at ht
    obtain ⟨h1, h2⟩ := dec_trailErr hl hok hrej hd hr t ht
    simp only [dec]
    refine ⟨array_trailErr (P := (Held Ty.bare · m)) (dec_trailOk hl hok hrej t) h1 (held_zero _ _ _) (dec_rej c hrej t) h2
      (by intro d; simp [Held, heldL_iff]) n, basic_rejS _ fun t p => ?_⟩
    simp only [decodeArray, hasNull_cons (show (0x5d : UInt8) ≠ 0x6e by decide), Bool.false_eq_true, if_false]
    rw [if_pos (.inr (by decide))]
    exact .inr (.inr (.inl rfl))
  | .map k t, _ => by
    simp only [dec]
    refine ⟨map_trailErr _ k (dec_trailOk hl hok hrej t), basic_rejS _ fun t p => ?_⟩
    simp only [decodeMap, hasNull_cons (show (0x5d : UInt8) ≠ 0x6e by decide), Bool.false_eq_true, if_false]
    rw [if_pos (.inr (by decide))]
    exact .inr (.inr (.inl rfl))
  | .mapSI, _ => by
    simp only [dec]
    refine ⟨map_trailErr _ _ (iface_trailOk c hok), basic_rejS _ fun t p => ?_⟩
    simp only [decodeMap, hasNull_cons (show (0x5d : UInt8) ≠ 0x6e by decide), Bool.false_eq_true, if_false]
    rw [if_pos (.inr (by decide))]
    exact .inr (.inr (.inl rfl))
  | .mapRaw, _ => by
    simp only [dec]
    refine ⟨map_trailErr _ _ raw_trailOk, basic_rejS _ fun t p => ?_⟩
    simp only [decodeMap, hasNull_cons (show (0x5d : UInt8) ≠ 0x6e by decide), Bool.false_eq_true, if_false]
    rw [if_pos (.inr (by decide))]
    exact .inr (.inr (.inl rfl))
  | .ptr t, ht => by
    simp only [Ty.bare] at ht
    obtain ⟨h1, h2⟩ := dec_trailErr hl hok hrej hd hr t ht
    simp only [dec]
    exact ⟨ptr_trailErr h1 (held_zero _ _ _) (by intro v; simp [Held]) _, ptr_rejS h2 (held_zero _ _ _) (by intro v; simp [Held]) _⟩
  | .struct fs, _ => by
    simp only [dec]
    refine ⟨struct_trailErr _ (decF_trailOk hl hok hrej fs) c _, basic_rejS _ fun t p => ?_⟩
    simp only [decodeStruct, hasNull_cons (show (0x5d : UInt8) ≠ 0x6e by decide), Bool.false_eq_true, if_false]
    rw [if_pos (.inr (by decide))]
    exact .inr (.inr (.inl rfl))
  | .quoted t, ht => by
    simp only [Ty.bare] at ht
    obtain ⟨h1, h2⟩ := dec_trailErr hl hok hrej hd hr t ht
    simp only [dec]
    exact ⟨quoted_trailErr h1, quoted_rejS _ _⟩
  | .jsonU f, _ => by
    simp only [dec]
    refine ⟨jsonU_trailErr _ f, basic_rejS _ fun t p => ?_⟩
    obtain ⟨r', hb⟩ := parseValue_bracket_fail t
    simp only [decodeJSONUnmarshaler, hb]
    exact .inr (.inr (.inr ⟨_, _, rfl⟩))
  | .textU f, _ => by
    simp only [dec]
    refine ⟨textU_trailErr _ f, basic_rejS _ fun t p => ?_⟩
    obtain ⟨r', hb⟩ := parseValue_bracket_fail t
    simp only [decodeTextUnmarshaler, hb]
    exact .inr (.inr (.inr ⟨_, _, rfl⟩))
  | .unsupported, _ => by simp only [dec]; exact ⟨typeError_trailErr _, typeError_rejS _⟩

theorem decN_trailErr {c : DCfg} (hl : LibOk c.lib) : ∀ n (t : Ty), t.bare →
    TrailErr (Held Ty.bare · n) (decN c n t) ∧ RejS (Held Ty.bare · n) (decN c n t)
  | 0, t, ht => by
    simp only [decN]
    exact dec_trailErr hl (fun t j v _ r _ p x r' e => by simp at e) (fun t b p x r h => by simp at h) (fun m' e => by omega)
      (fun m' e => by omega) t ht
  | n + 1, t, ht => by
    simp only [decN]
    refine dec_trailErr hl (decN_trailOk hl n) (decN_rej c n) (fun m' e t ht => ?_) (fun m' e t ht => ?_) t ht
    · obtain rfl : n = m' := by omega
      exact (decN_trailErr hl n t ht).1
    · obtain rfl : n = m' := by omega
      exact (decN_trailErr hl n t ht).2

end JC

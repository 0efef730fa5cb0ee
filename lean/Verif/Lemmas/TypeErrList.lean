import Verif.Spec.TypeErrList
import Verif.Props.TypeErr
import Verif.Props.Typed
/-!
Lemmas about the errors of lists (C98).
-/
namespace JC
open Spec Props

theorem lift_erase (x : TRes) : x.lift.erase = x.erase := by cases x <;> rfl

theorem inputErrL_erase (t : LTy) (b : Bytes) (p : DV) : (inputErrL t b p).erase = inputErr b p := by
  unfold inputErrL inputErr inputErrorL inputError
  split
  · rfl
  · cases parseValue b <;> rfl

theorem sliceLoopL_erase {dec : Bytes → DV → LRes} {dec' : Dec} (hd : ∀ b p, (dec b p).erase = dec' b p) (z : DV) (input : Bytes) :
    ∀ n done mem b, (sliceLoopL dec z input n done mem b).erase = sliceLoop dec' z input n done mem b := by
  intro n
  induction n with
  | zero => intro done mem b; rfl
  | succ n ih =>
    intro done mem b
    have el : ∀ b, (match dec b (mem.headD z) with
        | .crash c => LRes.crash c
        | .err x _ e =>
          match parseValue input with
          | .fail r e2 => .err (.slice done (x :: mem.tail)) r (.of (.other e2))
          | .ok _ r => .err (.slice done (x :: mem.tail)) r e
        | .ok x r => sliceLoopL dec z input n (done ++ [x]) mem.tail r).erase = sliceElem dec' z input n done mem b := by
      intro b
      unfold sliceElem
      rw [← hd]
      cases dec b (mem.headD z) with
      | crash c => rfl
      | ok x r => exact ih _ _ _
      | err x r e =>
        simp only [LRes.erase]
        cases parseValue input <;> rfl
    rw [sliceLoopL, sliceLoop_succ]
    simp only []
    split
    · rfl
    · split
      · exact el _
      · cases skipSpaces b with
        | nil => rfl
        | cons c t =>
          simp only []
          split
          · rfl
          · exact el _

theorem mapLoopL_erase {dec : Bytes → DV → LRes} {dec' : Dec} (hd : ∀ b p, (dec b p).erase = dec' b p) (z p : DV) (fresh : Bool) (input : Bytes) :
    ∀ n first m b, (mapLoopL dec z p fresh input n first m b).erase = mapLoopD .str dec' z p fresh input n first m b := by
  intro n
  induction n with
  | zero => intro first m b; rfl
  | succ n ih =>
    intro first m b
    rw [mapLoopL, mapLoopD]
    simp only []
    split
    · rfl
    · cases memberKey (decodeKey .str) first (skipSpaces b) with
      | inl c => rfl
      | inr x =>
        cases x with
        | inl x => rfl
        | inr x =>
          obtain ⟨kv, b'⟩ := x
          simp only []
          rw [← hd]
          cases dec b' z with
          | crash c => rfl
          | ok x r => exact ih _ _ _
          | err x r e =>
            simp only [LRes.erase]
            cases parseValue input <;> rfl

theorem decL_erase (c : DCfg) (dyn : Ty → Dec) : ∀ (t : LTy) (b : Bytes) (p : DV), (decL c.lib t b p).erase = dec c dyn t.ty b p
  | .plain s, b, p => by
    simp only [decL, LTy.ty, lift_erase]
    exact decT_erase c.lib s b p c rfl dyn
  | .list t, b, p => by
    simp only [decL, LTy.ty, dec]
    unfold decodeSliceL decodeSlice
    split
    · rfl
    · cases b with
      | nil => exact inputErrL_erase _ _ _
      | cons a u =>
        simp only []
        split
        · exact inputErrL_erase _ _ _
        · have := sliceLoopL_erase (fun b p => decL_erase c dyn t b p) (zero t.ty) (a :: u) ((a :: u).length + 1) []
            (match p with | .slice xs sp => xs ++ sp | _ => []) u
          cases p <;> exact this
  | .ptr t, b, p => by
    have ep : t.isPtr = t.ty.isPtr := by
      cases t with
      | plain s => cases s <;> rfl
      | list => rfl
      | ptr => rfl
      | map => rfl
    have em : ∀ (x : LRes), (x.map .ptr).erase = x.erase.map .ptr := by intro x; cases x <;> rfl
    simp only [decL, LTy.ty, dec]
    unfold decodePointerL decodePointer
    rw [ep]
    split
    · cases p <;> simp only [] <;> first | rfl | skip
      split
      · rw [em, decL_erase c dyn t]
      · rfl
    · rw [em, decL_erase c dyn t]; cases p <;> rfl
  | .map t, b, p => by
    simp only [decL, LTy.ty, dec]
    unfold decodeMapL decodeMap
    split
    · rfl
    · cases b with
      | nil => exact inputErrL_erase _ _ _
      | cons a u =>
        simp only []
        split
        · exact inputErrL_erase _ _ _
        · cases p <;> exact mapLoopL_erase (fun b p => decL_erase c dyn t b p) _ _ _ _ _ _ _ _

theorem keyTotal_str (raw : Bytes) (h : JString raw) (r : Bytes) : ∃ d, decodeKey .str (raw ++ r) = .ok d r :=
  ⟨_, decodeString_ok h r _⟩

/-- one element -/
def sliceElemL (dec : Bytes → DV → LRes) (z : DV) (input : Bytes) (n : Nat) (done mem : List DV) (b : Bytes) : LRes :=
  match dec b (mem.headD z) with
  | .crash c => .crash c
  | .err x _ e =>
    match parseValue input with
    | .fail r e2 => .err (.slice done (x :: mem.tail)) r (.of (.other e2))
    | .ok _ r => .err (.slice done (x :: mem.tail)) r e
  | .ok x r => sliceLoopL dec z input n (done ++ [x]) mem.tail r

theorem sliceLoopL_succ (dec : Bytes → DV → LRes) (z : DV) (input : Bytes) (n : Nat) (done mem : List DV) (b : Bytes) :
    sliceLoopL dec z input (n + 1) done mem b =
      if (skipSpaces b).head? = some 0x5d then .ok (.slice done mem) (skipSpaces b).tail
      else if done.isEmpty then sliceElemL dec z input n done mem (skipSpaces b)
      else match skipSpaces b with
        | [] => .err (.slice done mem) (skipSpaces b) (.of (.other .syntax))
        | c :: t => if c ≠ 0x2c then .err (.slice done mem) (skipSpaces b) (.of (.other .syntax))
          else sliceElemL dec z input n done mem (skipSpaces t) := by
  rw [sliceLoopL]
  unfold sliceElemL
  rfl

theorem sliceLoopL_skip {dec : Bytes → DV → LRes} {z : DV} {input : Bytes} {n : Nat} {done mem : List DV} {b b' : Bytes}
    (h : skipSpaces b = skipSpaces b') : sliceLoopL dec z input n done mem b = sliceLoopL dec z input n done mem b' := by
  cases n with
  | zero => rfl
  | succ n => rw [sliceLoopL_succ, sliceLoopL_succ, h]

/-- what is read of a value that fits -/
theorem decL_rest {l : Lib} (hl : LibOk l) (t : LTy) {j : Json} {v r : Bytes} (hj : Derives (.value j) v) (hf : Follow j r) {p x : DV} {r' : Bytes}
    (hp : Held Ty.tree p 0) (h : decL l t (v ++ r) p = .ok x r') : r' = r ∨ r' = skipSpaces r := by
  have ht : ∀ t : LTy, t.ty.tree := by
    intro t
    induction t with
    | plain s => cases s <;> trivial
    | list t ih => exact ih
    | ptr t ih => exact ih
    | map t ih => exact ih
  have he : decN { lib := l } 0 t.ty (v ++ r) p = .ok x r' := by
    have := decL_erase { lib := l } (fun _ _ _ => .crash .fuel) t (v ++ r) p
    rw [h] at this
    exact this.symm
  obtain ⟨h1, h2⟩ := decN_ref (c := { lib := l }) hl 0 t.ty (ht t) (v.length + 1) j v hj (by omega) r hf p hp
  cases e : decJN { lib := l } 0 t.ty j p with
  | none => exact absurd he (h2 e x r')
  | some y =>
    obtain ⟨_, r1, e1, hr⟩ := h1 y e
    rw [he] at e1
    injection e1 with _ e1
    subst e1
    exact hr

theorem sliceElemL_says {l : Lib} (hl : LibOk l) {t : LTy} {input v0 r0 : Bytes} (hin : parseValue input = .ok v0 r0)
    (ih : ∀ (j : Json) (v r : Bytes) (p x : DV) (r' : Bytes) (e : LErr), Derives (.value j) v → Follow j r → Held Ty.tree p 0 →
      decL l t (v ++ r) p = .err x r' e → SaysIn t j v r e) :
    ∀ (xs : List Json) (m : Bytes), Derives (.elems xs) m → ∀ (done mem : List DV) (n : Nat) (r : Bytes), (∀ x ∈ mem, Held Ty.tree x 0) →
      ∀ x r' e, sliceElemL (decL l t) (zero t.ty) input n done mem (skipSpaces (m ++ 0x5d :: r)) = .err x r' e →
        r' = r0 ∧ ∃ j ∈ xs, ∃ pre u post, m = pre ++ (u ++ post) ∧ SaysIn t j u (post ++ 0x5d :: r) e := by
  intro xs
  induction xs with
  | nil => intro m h; cases h
  | cons j xs ih2 =>
    intro m h done mem n r hmem x r' e hx
    have hp : Held Ty.tree (mem.headD (zero t.ty)) 0 := mem_headD (held_zero _ _ _) hmem
    have step : ∀ w1 b T, Ws w1 → Derives (.value j) b → NumStop T →
        sliceElemL (decL l t) (zero t.ty) input n done mem (skipSpaces (w1 ++ (b ++ T))) = .err x r' e →
        (r' = r0 ∧ SaysIn t j b T e) ∨ ∃ y, sliceLoopL (decL l t) (zero t.ty) input n (done ++ [y]) mem.tail T = .err x r' e := by
      intro w1 b T hw hj hT h
      rw [skip_ws_value hw hj] at h
      unfold sliceElemL at h
      cases ed : decL l t (b ++ T) (mem.headD (zero t.ty)) with
      | crash c => rw [ed] at h; cases h
      | ok y r1 =>
        rw [ed] at h
        right
        refine ⟨y, ?_⟩
        rw [← h]
        exact sliceLoopL_skip (skip_or (decL_rest hl t hj (follow_of_numStop hT) hp ed)).symm
      | err y r1 e1 =>
        rw [ed, hin] at h
        injection h with _ h1 h2
        subst h2
        exact .inl ⟨h1.symm, ih j b T _ _ _ _ hj (follow_of_numStop hT) hp ed⟩
    cases h with
    | elemOne w1 w2 _ b hw1 hw2 hj =>
      have e0 : w1 ++ b ++ w2 ++ 0x5d :: r = w1 ++ (b ++ (w2 ++ 0x5d :: r)) := by simp
      rw [e0] at hx
      rcases step w1 b _ hw1 hj (numStop_ws_cons hw2 (by simp)) hx with ⟨h1, h2⟩ | ⟨y, h1⟩
      · exact ⟨h1, j, by simp, w1, b, w2, by simp, h2⟩
      · cases n with
        | zero => cases h1
        | succ n =>
          rw [sliceLoopL_succ, skip_ws_cons hw2 (by decide) r, if_pos (by simp)] at h1
          cases h1
    | elemCons w1 w2 _ b _ bs hw1 hw2 hj hbs =>
      have e0 : w1 ++ b ++ w2 ++ 0x2c :: bs ++ 0x5d :: r = w1 ++ (b ++ (w2 ++ 0x2c :: (bs ++ 0x5d :: r))) := by simp
      rw [e0] at hx
      rcases step w1 b _ hw1 hj (numStop_ws_cons hw2 (by simp)) hx with ⟨h1, h2⟩ | ⟨y, h1⟩
      · refine ⟨h1, j, by simp, w1, b, w2 ++ 0x2c :: bs, by simp, ?_⟩
        rw [show (w2 ++ 0x2c :: bs) ++ 0x5d :: r = w2 ++ 0x2c :: (bs ++ 0x5d :: r) by simp]
        exact h2
      · cases n with
        | zero => cases h1
        | succ n =>
          rw [sliceLoopL_succ, skip_ws_cons hw2 (by decide) _, if_neg (by simp), if_neg (by simp)] at h1
          simp only [] at h1
          rw [if_neg (by simp)] at h1
          obtain ⟨g1, j', hj', pre, u, post, g2, g3⟩ := ih2 bs hbs _ _ _ _ (mem_tail hmem) _ _ _ h1
          exact ⟨g1, j', by simp [hj'], w1 ++ (b ++ (w2 ++ 0x2c :: pre)), u, post, by rw [g2]; simp, g3⟩

theorem saysIn_elem {t : LTy} {xs : List Json} {j : Json} (hx : j ∈ xs) {pre u post r : Bytes} {e : LErr} (h : SaysIn t j u (post ++ 0x5d :: r) e) :
    SaysIn (.list t) (.arr xs) (0x5b :: (pre ++ (u ++ post) ++ [0x5d])) r e := by
  obtain ⟨t', j', pre', u', post', ty, near, h1, rfl, h3, h4, h5, h6⟩ := h
  refine ⟨t', j', 0x5b :: (pre ++ pre'), u', post' ++ (post ++ [0x5d]), ty, near, .elem _ _ _ _ _ hx h1, by simp, h3, h4, ?_, h6⟩
  rcases h5 with h5 | h5
  · exact .inl h5
  · exact .inr (by rw [h5]; simp)

/-- a member, from its key on -/
def mapMemberL (dec : Bytes → DV → LRes) (z p : DV) (fresh : Bool) (input : Bytes) (n : Nat) (m : List (MK × DV)) (b : Bytes) : LRes :=
  match memberKey (decodeKey .str) true b with
  | .inl c => .crash c
  | .inr (.inl (r, e)) => .err (if fresh then p else .map m) r (.of (.other e))
  | .inr (.inr (kv, b)) =>
    match dec b z with
    | .crash c => .crash c
    | .err _ _ e =>
      match parseValue input with
      | .fail r e2 => .err (if fresh then p else .map m) r (.of (.other e2))
      | .ok _ r => .err (if fresh then p else .map m) r e
    | .ok v r => mapLoopL dec z p fresh input n false (mapSet (keyOf kv) v m) r

section
variable {dec : Bytes → DV → LRes} {z p : DV} {fresh : Bool} {input : Bytes} {n : Nat} {m : List (MK × DV)}

theorem mapLoopL_close {first : Bool} {b r : Bytes} (h : skipSpaces b = 0x7d :: r) :
    mapLoopL dec z p fresh input (n + 1) first m b = .ok (.map m) r := by
  rw [mapLoopL]; simp only [h]; simp

theorem mapLoopL_comma {b t : Bytes} (h : skipSpaces b = 0x2c :: t) :
    mapLoopL dec z p fresh input (n + 1) false m b = mapMemberL dec z p fresh input n m (skipSpaces t) := by
  rw [mapLoopL, mapMemberL]; simp only [h]
  rw [if_neg (by simp), memberKey_comma]
  rfl

theorem mapLoopL_first {b : Bytes} (h : (skipSpaces b).head? ≠ some 0x7d) :
    mapLoopL dec z p fresh input (n + 1) true m b = mapMemberL dec z p fresh input n m (skipSpaces b) := by
  rw [mapLoopL, mapMemberL]
  simp only []
  rw [if_neg h]
  rfl

theorem mapLoopL_skip {first : Bool} {b b' : Bytes} (h : skipSpaces b = skipSpaces b') :
    mapLoopL dec z p fresh input n first m b = mapLoopL dec z p fresh input n first m b' := by
  cases n with
  | zero => rfl
  | succ n => rw [mapLoopL, mapLoopL]; simp only [h]
end

theorem mapMemberL_says {l : Lib} (hl : LibOk l) {t : LTy} {input v0 r0 : Bytes} (hin : parseValue input = .ok v0 r0)
    (ih : ∀ (j : Json) (v r : Bytes) (p x : DV) (r' : Bytes) (e : LErr), Derives (.value j) v → Follow j r → Held Ty.tree p 0 →
      decL l t (v ++ r) p = .err x r' e → SaysIn t j v r e) (p : DV) (fresh : Bool) :
    ∀ (ms : List (Bytes × Json)) (u : Bytes), Derives (.members ms) u → ∀ (m : List (MK × DV)) (n : Nat) (r : Bytes),
      ∀ x r' e, mapMemberL (decL l t) (zero t.ty) p fresh input n m (skipSpaces (u ++ 0x7d :: r)) = .err x r' e →
        r' = r0 ∧ ∃ k j, (k, j) ∈ ms ∧ ∃ pre v post, u = pre ++ (v ++ post) ∧ SaysIn t j v (post ++ 0x7d :: r) e := by
  intro ms
  induction ms with
  | nil => intro u h; cases h
  | cons kj ms ih2 =>
    intro u h m n r x r' e hx
    obtain ⟨raw, j⟩ := kj
    have step : ∀ w1 w2 w3 b T, Ws w1 → JString raw → Ws w2 → Ws w3 → Derives (.value j) b → NumStop T →
        mapMemberL (decL l t) (zero t.ty) p fresh input n m (skipSpaces (w1 ++ (raw ++ (w2 ++ 0x3a :: (w3 ++ (b ++ T)))))) = .err x r' e →
        (r' = r0 ∧ SaysIn t j b T e) ∨ ∃ m', mapLoopL (decL l t) (zero t.ty) p fresh input n false m' T = .err x r' e := by
      intro w1 w2 w3 b T hw1 hk hw2 hw3 hj hT h
      rw [skipSpaces_ws_append hw1, jstring_skip hk] at h
      obtain ⟨d, ek⟩ := keyTotal_str raw hk (w2 ++ 0x3a :: (w3 ++ (b ++ T)))
      rw [mapMemberL, memberKey_ok hk hw2 ek, skip_ws_value hw3 hj] at h
      simp only [] at h
      cases ed : decL l t (b ++ T) (zero t.ty) with
      | crash c => rw [ed] at h; cases h
      | ok y r1 =>
        rw [ed] at h
        right
        refine ⟨mapSet (keyOf d) y m, ?_⟩
        rw [← h]
        exact mapLoopL_skip (skip_or (decL_rest hl t hj (follow_of_numStop hT) (held_zero _ _ _) ed)).symm
      | err y r1 e1 =>
        rw [ed, hin] at h
        injection h with _ h1 h2
        subst h2
        exact .inl ⟨h1.symm, ih j b T _ _ _ _ hj (follow_of_numStop hT) (held_zero _ _ _) ed⟩
    cases h with
    | memOne w1 w2 w3 w4 _ _ b hw1 hw2 hw3 hw4 hk hj =>
      have e0 : w1 ++ raw ++ w2 ++ 0x3a :: (w3 ++ b ++ w4) ++ 0x7d :: r =
          w1 ++ (raw ++ (w2 ++ 0x3a :: (w3 ++ (b ++ (w4 ++ 0x7d :: r))))) := by simp
      rw [e0] at hx
      rcases step w1 w2 w3 b _ hw1 hk hw2 hw3 hj (numStop_ws_cons hw4 (by simp)) hx with ⟨h1, h2⟩ | ⟨y, h1⟩
      · exact ⟨h1, raw, j, by simp, w1 ++ (raw ++ (w2 ++ 0x3a :: w3)), b, w4, by simp, h2⟩
      · cases n with
        | zero => cases h1
        | succ n =>
          rw [mapLoopL_close (skip_ws_cons hw4 (by decide) r)] at h1
          cases h1
    | memCons w1 w2 w3 w4 _ _ b _ bs hw1 hw2 hw3 hw4 hk hj hbs =>
      have e0 : w1 ++ raw ++ w2 ++ 0x3a :: (w3 ++ b ++ w4 ++ 0x2c :: bs) ++ 0x7d :: r =
          w1 ++ (raw ++ (w2 ++ 0x3a :: (w3 ++ (b ++ (w4 ++ 0x2c :: (bs ++ 0x7d :: r)))))) := by simp
      rw [e0] at hx
      rcases step w1 w2 w3 b _ hw1 hk hw2 hw3 hj (numStop_ws_cons hw4 (by simp)) hx with ⟨h1, h2⟩ | ⟨y, h1⟩
      · refine ⟨h1, raw, j, by simp, w1 ++ (raw ++ (w2 ++ 0x3a :: w3)), b, w4 ++ 0x2c :: bs, by simp, ?_⟩
        rw [show (w4 ++ 0x2c :: bs) ++ 0x7d :: r = w4 ++ 0x2c :: (bs ++ 0x7d :: r) by simp]
        exact h2
      · cases n with
        | zero => cases h1
        | succ n =>
          rw [mapLoopL_comma (skip_ws_cons hw4 (by decide) _)] at h1
          obtain ⟨g1, k', j', hj', pre, v, post, g2, g3⟩ := ih2 bs hbs _ _ _ _ _ _ h1
          exact ⟨g1, k', j', by simp [hj'], w1 ++ (raw ++ (w2 ++ 0x3a :: (w3 ++ (b ++ (w4 ++ 0x2c :: pre))))), v, post, by rw [g2]; simp, g3⟩

theorem saysIn_member {t : LTy} {ms : List (Bytes × Json)} {k : Bytes} {j : Json} (hx : (k, j) ∈ ms) {pre u post r : Bytes} {e : LErr}
    (h : SaysIn t j u (post ++ 0x7d :: r) e) : SaysIn (.map t) (.obj ms) (0x7b :: (pre ++ (u ++ post) ++ [0x7d])) r e := by
  obtain ⟨t', j', pre', u', post', ty, near, h1, rfl, h3, h4, h5, h6⟩ := h
  refine ⟨t', j', 0x7b :: (pre ++ pre'), u', post' ++ (post ++ [0x7d]), ty, near, .member _ _ _ _ _ _ hx h1, by simp, h3, h4, ?_, h6⟩
  rcases h5 with h5 | h5
  · exact .inl h5
  · exact .inr (by rw [h5]; simp)

theorem decL_says {l : Lib} (hl : LibOk l) : ∀ (t : LTy) (j : Json) (v r : Bytes) (p x : DV) (r' : Bytes) (e : LErr), Derives (.value j) v → Follow j r →
    Held Ty.tree p 0 → decL l t (v ++ r) p = .err x r' e → SaysIn t j v r e ∧ (t.isCont = true → r' = r ∨ r' = skipSpaces r)
  | .plain s, j, v, r, p, x, r', e, hj, hf, hp, h => by
    refine ⟨?_, fun h => by cases h⟩
    simp only [decL] at h
    cases ed : decT l s (v ++ r) p with
    | ok => rw [ed] at h; cases h
    | crash => rw [ed] at h; cases h
    | err y r1 e1 =>
      rw [ed] at h
      injection h with _ _ h
      subst h
      obtain ⟨ty, near, h1, h2, h3⟩ := C98_about_partial l s hj hf ed
      refine ⟨.plain s, j, [], v, [], .plain ty, near, .self _ _, by simp, hj, ?_, by simpa using h2, ?_⟩
      · rcases h1 with rfl | rfl
        · exact .inl rfl
        · exact .inr rfl
      · rcases h3 with rfl | ⟨rfl, rfl⟩
        · exact .inl rfl
        · exact .inr ⟨rfl, rfl⟩
  | .list t, j, v, r, p, x, r', e, hj, hf, hp, h => by
    have hnp := hasNull_value hj r
    have hpv := parseValue_complete hj hf
    simp only [decL] at h
    unfold decodeSliceL at h
    have other : ∀ c u, v = c :: u → c ≠ 0x5b → isNullJ j = false → SaysIn (.list t) j v r e ∧ ((LTy.list t).isCont = true → r' = r ∨ r' = skipSpaces r) := by
      intro c u ev hc hn
      rw [hnp, hn] at h
      simp only [Bool.false_eq_true, if_false] at h
      rw [ev] at h
      simp only [List.cons_append] at h
      rw [if_pos (.inr hc)] at h
      unfold inputErrL inputErrorL at h
      rw [show c :: (u ++ r) = v ++ r by rw [ev]; rfl, hpv, if_neg (by rw [ev]; simp)] at h
      injection h with _ h1 h2
      subst h1 h2
      exact ⟨⟨.list t, j, [], v, [], .list t, _, .self _ _, by simp, hj, rfl, .inr (by simp), .inl rfl⟩, fun _ => .inr rfl⟩
    have open_ : ∀ u, v = 0x5b :: (u ++ [0x5d]) → isNullJ j = false → ∃ mem, (∀ y ∈ mem, Held Ty.tree y 0) ∧
        sliceLoopL (decL l t) (zero t.ty) (v ++ r) ((v ++ r).length + 1) [] mem (u ++ 0x5d :: r) = .err x r' e := by
      intro u ev hn
      rw [hnp, hn] at h
      simp only [Bool.false_eq_true, if_false] at h
      rw [ev] at h
      simp only [List.cons_append, List.append_assoc, List.nil_append] at h
      rw [if_neg (by simp; omega)] at h
      refine ⟨_, ?_, by rw [ev]; simpa using h⟩
      cases p <;> simp
      case slice xs sp =>
        simp only [Held, heldL_iff] at hp
        rintro y (hy | hy)
        · exact hp.1 y hy
        · exact hp.2 y hy
    cases hj with
    | null =>
      rw [hnp] at h
      simp [isNullJ] at h
    | num s hs' =>
      obtain ⟨c, u, ev, hc⟩ := jnumber_head hs'
      exact other c u ev (digit_range hc).2.2.2.2.1 rfl
    | str s hs' =>
      obtain ⟨u, ev⟩ := jstring_head hs'
      exact other _ u ev (by decide) rfl
    | tru => exact other _ _ rfl (by decide) rfl
    | fls => exact other _ _ rfl (by decide) rfl
    | objNil => exact other _ _ rfl (by decide) rfl
    | obj => exact other _ _ rfl (by decide) rfl
    | arrNil w hw =>
      obtain ⟨mem, _, h⟩ := open_ w rfl rfl
      rw [sliceLoopL_succ, skip_ws_cons hw (by decide) r, if_pos (by simp)] at h
      cases h
    | arr xs b hb =>
      obtain ⟨mem, hmem, h⟩ := open_ b rfl rfl
      obtain ⟨c, u, eu, h1, h2⟩ := derives_elems_head hb (0x5d :: r)
      rw [sliceLoopL_succ, if_neg (by rw [eu]; simpa using h2), if_pos (by rfl : (List.isEmpty ([] : List DV)) = true)] at h
      obtain ⟨g1, j', hj', pre, u', post, rfl, g3⟩ := sliceElemL_says hl hpv
        (fun j v r p x r' e a1 a2 a3 a4 => (decL_says hl t j v r p x r' e a1 a2 a3 a4).1) xs b hb _ _ _ _ hmem _ _ _ h
      exact ⟨saysIn_elem hj' g3, fun _ => .inl g1⟩
  | .ptr t, j, v, r, p, x, r', e, hj, hf, hp, h => by
    refine ⟨?_, fun h => by cases h⟩
    have key : ∀ q, Held Ty.tree q 0 → (decL l t (v ++ r) q).map .ptr = .err x r' e → SaysIn (.ptr t) j v r e := by
      intro q hq h
      cases ed : decL l t (v ++ r) q with
      | ok => rw [ed] at h; cases h
      | crash => rw [ed] at h; cases h
      | err y r1 e1 =>
        rw [ed] at h
        injection h with _ _ h
        subst h
        obtain ⟨t', j', pre, u, post, ty, near, g1, g2⟩ := (decL_says hl t j v r q y r1 e1 hj hf hq ed).1
        exact ⟨t', j', pre, u, post, ty, near, .behind _ _ _ _ g1, g2⟩
    simp only [decL] at h
    unfold decodePointerL at h
    split at h
    · split at h
      · split at h
        · exact key _ (by simpa [Held] using hp) h
        · cases h
      · cases h
    · refine key _ ?_ h
      cases p <;> simp only [] <;> first | exact held_zero _ _ _ | simpa [Held] using hp
  | .map t, j, v, r, p, x, r', e, hj, hf, hp, h => by
    have hnp := hasNull_value hj r
    have hpv := parseValue_complete hj hf
    simp only [decL] at h
    unfold decodeMapL at h
    have other : ∀ c u, v = c :: u → c ≠ 0x7b → isNullJ j = false → SaysIn (.map t) j v r e ∧ ((LTy.map t).isCont = true → r' = r ∨ r' = skipSpaces r) := by
      intro c u ev hc hn
      rw [hnp, hn] at h
      simp only [Bool.false_eq_true, if_false] at h
      rw [ev] at h
      simp only [List.cons_append] at h
      rw [if_pos (.inr hc)] at h
      unfold inputErrL inputErrorL at h
      rw [show c :: (u ++ r) = v ++ r by rw [ev]; rfl, hpv, if_neg (by rw [ev]; simp)] at h
      injection h with _ h1 h2
      subst h1 h2
      exact ⟨⟨.map t, j, [], v, [], .map t, _, .self _ _, by simp, hj, rfl, .inr (by simp), .inl rfl⟩, fun _ => .inr rfl⟩
    have open_ : ∀ u, v = 0x7b :: (u ++ [0x7d]) → isNullJ j = false → ∃ fresh m,
        mapLoopL (decL l t) (zero t.ty) p fresh (v ++ r) ((v ++ r).length + 1) true m (u ++ 0x7d :: r) = .err x r' e := by
      intro u ev hn
      rw [hnp, hn] at h
      simp only [Bool.false_eq_true, if_false] at h
      rw [ev] at h
      simp only [List.cons_append, List.append_assoc, List.nil_append] at h
      rw [if_neg (by simp; omega)] at h
      split at h
      · exact ⟨_, _, by rw [ev]; simpa using h⟩
      · exact ⟨_, _, by rw [ev]; simpa using h⟩
    cases hj with
    | null =>
      rw [hnp] at h
      simp [isNullJ] at h
    | num s hs' =>
      obtain ⟨c, u, ev, hc⟩ := jnumber_head hs'
      exact other c u ev (digit_range hc).2.2.2.2.2.1 rfl
    | str s hs' =>
      obtain ⟨u, ev⟩ := jstring_head hs'
      exact other _ u ev (by decide) rfl
    | tru => exact other _ _ rfl (by decide) rfl
    | fls => exact other _ _ rfl (by decide) rfl
    | arrNil => exact other _ _ rfl (by decide) rfl
    | arr => exact other _ _ rfl (by decide) rfl
    | objNil w hw =>
      obtain ⟨fresh, m, h⟩ := open_ w rfl rfl
      rw [mapLoopL_close (skip_ws_cons hw (by decide) r)] at h
      cases h
    | obj ms b hb =>
      obtain ⟨fresh, m, h⟩ := open_ b rfl rfl
      obtain ⟨u, eu⟩ := derives_members_head hb (0x7d :: r)
      rw [mapLoopL_first (by rw [eu]; simp)] at h
      obtain ⟨g1, k', j', hj', pre, u', post, rfl, g3⟩ := mapMemberL_says hl hpv
        (fun j v r p x r' e a1 a2 a3 a4 => (decL_says hl t j v r p x r' e a1 a2 a3 a4).1) p fresh ms b hb _ _ _ _ _ _ h
      exact ⟨saysIn_member hj' g3, fun _ => .inl g1⟩

end JC

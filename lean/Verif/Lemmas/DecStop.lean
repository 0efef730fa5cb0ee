import Verif.Lemmas.DecAll
import Verif.Props.Struct
/-! What is stored when a member or an element does not fit: everything before it. -/
namespace JC
open Spec Props

/-- the decoder does not return, or fails with contents such as `C` -/
def Stops (C : DV → Prop) (d : DRes) : Prop := (∃ c, d = .crash c) ∨ ∃ y r e, d = .err y r e ∧ C y

theorem struct_stop {P : DV → Prop} {N : Nat} {decs : List Dec} {fs : List JDec} (hd : RefL P N decs fs) (hu : P (.user none))
    (c : DCfg) (names : List Bytes) (input : Bytes) {raw : Bytes} {j : Json} {ms2 : List (Bytes × Json)} {qs : List DV} {i : Nat} {f : JDec}
    (hpk : pickField c names (unq raw) = some i) (hfi : fs[i]? = some f) (hno : f j (qs.getD i (.user none)) = none) :
    ∀ (ms1 : List (Bytes × Json)) (u : Bytes), Derives (.members (ms1 ++ (raw, j) :: ms2)) u → u.length < N →
      ∀ (cells : List DV) (n : Nat) (r : Bytes), u.length < n → (∀ x ∈ cells, P x) → structJ c names fs ms1 cells = some qs →
      Stops (fun y => ∃ x, y = .struct (qs.set i x)) (structMember c names decs input n cells (skipSpaces (u ++ 0x7d :: r))) := by
  intro ms1
  induction ms1 with
  | nil =>
    intro u h hN cells n r hn hcells hq
    simp only [structJ, Option.some.injEq] at hq
    subst hq
    have step : ∀ w1 w2 w3 b T, Ws w1 → JString raw → Ws w2 → Ws w3 → Derives (.value j) b → b.length < N → NumStop T →
        Stops (fun y => ∃ x, y = .struct (cells.set i x)) (structMember c names decs input n cells
          (skipSpaces (w1 ++ (raw ++ (w2 ++ 0x3a :: (w3 ++ (b ++ T))))))) := by
      intro w1 w2 w3 b T hw1 hk hw2 hw3 hj hb hT
      rw [skipSpaces_ws_append hw1, jstring_skip hk, structMember_ok hk hw2, skip_ws_value hw3 hj]
      simp only [structField, hpk]
      rcases hd i with ⟨e1, e2⟩ | ⟨d, f', e1, e2, hr⟩
      · rw [e2] at hfi; cases hfi
      · rw [e2] at hfi; injection hfi with hfi; subst hfi
        obtain ⟨_, h2⟩ := hr j b hj hb T (follow_of_numStop hT) (cells.getD i (.user none)) (mem_getD hu hcells)
        simp only [e1]
        split
        · exact .inl ⟨_, rfl⟩
        · split
          all_goals exact .inr ⟨_, _, _, rfl, _, rfl⟩
        · rename_i e; exact absurd e (h2 hno _ _)
    simp only [List.nil_append] at h
    cases h with
    | memOne w1 w2 w3 w4 _ _ b hw1 hw2 hw3 hw4 hk hj =>
      have e : w1 ++ raw ++ w2 ++ 0x3a :: (w3 ++ b ++ w4) ++ 0x7d :: r =
          w1 ++ (raw ++ (w2 ++ 0x3a :: (w3 ++ (b ++ (w4 ++ 0x7d :: r))))) := by simp
      simp only [List.length_append, List.length_cons] at hN
      rw [e]
      exact step w1 w2 w3 b (w4 ++ 0x7d :: r) hw1 hk hw2 hw3 hj (by omega) (numStop_ws_cons hw4 (by simp))
    | memCons w1 w2 w3 w4 _ _ b _ bs hw1 hw2 hw3 hw4 hk hj hbs =>
      have e : w1 ++ raw ++ w2 ++ 0x3a :: (w3 ++ b ++ w4 ++ 0x2c :: bs) ++ 0x7d :: r =
          w1 ++ (raw ++ (w2 ++ 0x3a :: (w3 ++ (b ++ (w4 ++ 0x2c :: (bs ++ 0x7d :: r)))))) := by simp
      simp only [List.length_append, List.length_cons] at hN hn
      rw [e]
      exact step w1 w2 w3 b (w4 ++ 0x2c :: (bs ++ 0x7d :: r)) hw1 hk hw2 hw3 hj (by omega) (numStop_ws_cons hw4 (by simp))
  | cons kj ms ih =>
    intro u h hN cells n r hn hcells hq
    obtain ⟨raw', j'⟩ := kj
    obtain ⟨n, rfl⟩ : ∃ k, n = k + 1 := ⟨n - 1, by omega⟩
    have step : ∀ w1 w2 w3 b T, Ws w1 → JString raw' → Ws w2 → Ws w3 → Derives (.value j') b → b.length < N → NumStop T →
        ∃ cells', (∀ y ∈ cells', P y) ∧ structJ c names fs ms cells' = some qs ∧
          structMember c names decs input (n + 1) cells (skipSpaces (w1 ++ (raw' ++ (w2 ++ 0x3a :: (w3 ++ (b ++ T)))))) =
            structLoopD c names decs input (n + 1) false cells' T := by
      intro w1 w2 w3 b T hw1 hk hw2 hw3 hj hb hT
      rw [skipSpaces_ws_append hw1, jstring_skip hk, structMember_ok hk hw2, skip_ws_value hw3 hj]
      simp only [structJ] at hq
      simp only [structField]
      cases hpk' : pickField c names (unq raw') with
      | none =>
        rw [hpk'] at hq
        simp only [] at hq ⊢
        split at hq
        · cases hq
        · rename_i hdu
          rw [if_neg hdu, parseValue_complete hj (follow_of_numStop hT)]
          exact ⟨cells, hcells, hq, rfl⟩
      | some i' =>
        rw [hpk'] at hq
        simp only [] at hq ⊢
        rcases hd i' with ⟨e1, e2⟩ | ⟨d, f', e1, e2, hr⟩
        · rw [e2] at hq; cases hq
        · obtain ⟨h1, h2⟩ := hr j' b hj hb T (follow_of_numStop hT) (cells.getD i' (.user none)) (mem_getD hu hcells)
          simp only [e1, e2] at hq ⊢
          cases hf : f' j' (cells.getD i' (.user none)) with
          | some x =>
            rw [hf] at hq
            obtain ⟨hp, r', e, hrr⟩ := h1 x hf
            refine ⟨cells.set i' x, mem_set hp hcells, hq, ?_⟩
            simp only [e]
            exact structLoopD_skip (skip_or hrr)
          | none => rw [hf] at hq; cases hq
    simp only [List.cons_append] at h
    generalize hms : ms ++ (raw, j) :: ms2 = rest at h
    cases h with
    | memOne => simp at hms
    | memCons w1 w2 w3 w4 _ _ b _ bs hw1 hw2 hw3 hw4 hk hj hbs =>
      have e : w1 ++ raw' ++ w2 ++ 0x3a :: (w3 ++ b ++ w4 ++ 0x2c :: bs) ++ 0x7d :: r =
          w1 ++ (raw' ++ (w2 ++ 0x3a :: (w3 ++ (b ++ (w4 ++ 0x2c :: (bs ++ 0x7d :: r)))))) := by simp
      simp only [List.length_append, List.length_cons] at hN hn
      rw [e]
      obtain ⟨cells', hc', ej, es⟩ := step w1 w2 w3 b (w4 ++ 0x2c :: (bs ++ 0x7d :: r)) hw1 hk hw2 hw3 hj (by omega) (numStop_ws_cons hw4 (by simp))
      rw [es, structLoopD_comma (skip_ws_cons hw4 (by decide) _)]
      subst hms
      exact ih bs hbs (by omega) cells' n r (by omega) hc' ej

/-- elements that fit, each with the memory it finds -/
def elemsJ (f : JDec) (z : DV) : List Json → List DV → Option (List DV)
  | [], _ => some []
  | j :: xs, mem =>
    match f j (mem.headD z) with
    | none => none
    | some x => (elemsJ f z xs mem.tail).map (x :: ·)

theorem slice_stop {P : DV → Prop} {N : Nat} {dec : Dec} {f : JDec} {z : DV} (hd : RefP P N dec f) (hz : P z) (input : Bytes)
    {j : Json} {xs2 : List Json} :
    ∀ (xs1 : List Json) (m : Bytes), Derives (.elems (xs1 ++ j :: xs2)) m → m.length < N →
      ∀ (done mem vs : List DV) (n : Nat) (r : Bytes), m.length < n → (∀ x ∈ mem, P x) → elemsJ f z xs1 mem = some vs →
      f j ((mem.drop xs1.length).headD z) = none →
      Stops (fun y => ∃ sp, y = .slice (done ++ vs) sp) (sliceElem dec z input n done mem (skipSpaces (m ++ 0x5d :: r))) := by
  intro xs1
  induction xs1 with
  | nil =>
    intro m h hN done mem vs n r hn hmem hv hno
    simp only [elemsJ, Option.some.injEq] at hv
    subst hv
    simp only [List.length_nil, List.drop_zero] at hno
    have step : ∀ w1 b T, Ws w1 → Derives (.value j) b → b.length < N → NumStop T →
        Stops (fun y => ∃ sp, y = .slice (done ++ []) sp) (sliceElem dec z input n done mem (skipSpaces (w1 ++ (b ++ T)))) := by
      intro w1 b T hw hj hb hT
      rw [skip_ws_value hw hj]
      obtain ⟨_, h2⟩ := hd j b hj hb T (follow_of_numStop hT) (mem.headD z) (mem_headD hz hmem)
      unfold sliceElem
      split
      · exact .inl ⟨_, rfl⟩
      · split
        all_goals exact .inr ⟨_, _, _, rfl, _, by rw [List.append_nil]⟩
      · rename_i e; exact absurd e (h2 hno _ _)
    simp only [List.nil_append] at h
    cases h with
    | elemOne w1 w2 _ b hw1 hw2 hj =>
      have e : w1 ++ b ++ w2 ++ 0x5d :: r = w1 ++ (b ++ (w2 ++ 0x5d :: r)) := by simp
      simp only [List.length_append] at hN
      rw [e]
      exact step w1 b _ hw1 hj (by omega) (numStop_ws_cons hw2 (by simp))
    | elemCons w1 w2 _ b _ bs hw1 hw2 hj hbs =>
      have e : w1 ++ b ++ w2 ++ 0x2c :: bs ++ 0x5d :: r = w1 ++ (b ++ (w2 ++ 0x2c :: (bs ++ 0x5d :: r))) := by simp
      simp only [List.length_append, List.length_cons] at hN hn
      rw [e]
      exact step w1 b _ hw1 hj (by omega) (numStop_ws_cons hw2 (by simp))
  | cons j' xs ih =>
    intro m h hN done mem vs n r hn hmem hv hno
    obtain ⟨n, rfl⟩ : ∃ k, n = k + 1 := ⟨n - 1, by omega⟩
    simp only [elemsJ] at hv
    split at hv
    · cases hv
    · rename_i x hx
      obtain ⟨vs', hv', rfl⟩ := Option.map_eq_some_iff.1 hv
      simp only [List.cons_append] at h
      generalize hms : xs ++ j :: xs2 = rest at h
      cases h with
      | elemOne => simp at hms
      | elemCons w1 w2 _ b _ bs hw1 hw2 hj hbs =>
        have e : w1 ++ b ++ w2 ++ 0x2c :: bs ++ 0x5d :: r = w1 ++ (b ++ (w2 ++ 0x2c :: (bs ++ 0x5d :: r))) := by simp
        simp only [List.length_append, List.length_cons] at hN hn
        rw [e, skip_ws_value hw1 hj]
        obtain ⟨h1, _⟩ := hd j' b hj (by omega) (w2 ++ 0x2c :: (bs ++ 0x5d :: r)) (follow_of_numStop (numStop_ws_cons hw2 (by simp)))
          (mem.headD z) (mem_headD hz hmem)
        obtain ⟨hp, r', e2, hr⟩ := h1 x hx
        rw [sliceElem, e2]
        simp only []
        rw [sliceLoop_skip (skip_or hr), sliceLoop_comma (by simp) (skip_ws_cons hw2 (by decide) _)]
        subst hms
        have := ih bs hbs (by omega) (done ++ [x]) mem.tail vs' n r (by omega) (mem_tail hmem) hv'
          (by simpa [List.drop_drop, Nat.add_comm, ← List.drop_one] using hno)
        simpa using this

/-! ### `Unmarshal` -/

theorem decF_get {c : DCfg} {dyn : Ty → Dec} : ∀ (fs : List (Bytes × Ty)) (i : Nat), (decF c dyn fs)[i]? = fs[i]?.map fun f => dec c dyn f.2
  | [], i => by simp [decF]
  | (nm, t) :: fs, 0 => by simp [decF]
  | (nm, t) :: fs, i + 1 => by simpa [decF] using decF_get fs i

theorem decN_struct {c : DCfg} {n : Nat} {fs : List (Bytes × Ty)} : ∃ ds : List Dec,
    (∀ i : Nat, ds[i]? = fs[i]?.map fun f => decN c n f.2) ∧ decN c n (.struct fs) = decodeStruct c (fs.map (·.1)) ds := by
  cases n with
  | zero => exact ⟨_, decF_get fs, by simp only [decN, dec]⟩
  | succ n => exact ⟨_, decF_get fs, by simp only [decN, dec]⟩

theorem refL_decN {c : DCfg} (hl : LibOk c.lib) {n : Nat} {fs : List (Bytes × Ty)} (ht : treeF fs) {ds : List Dec} {gs : List JDec}
    (h1 : ∀ i : Nat, ds[i]? = fs[i]?.map fun f => decN c n f.2) (h2 : ∀ i : Nat, gs[i]? = fs[i]?.map fun f => decJN c n f.2) (N : Nat) :
    RefL (Held Ty.tree · n) N ds gs := by
  intro i
  rw [h1 i, h2 i]
  cases e : fs[i]? with
  | none => exact .inl ⟨rfl, rfl⟩
  | some f => exact .inr ⟨_, _, rfl, rfl, decN_ref hl n f.2 (treeF_get ht e) N⟩

/-- from the decoder to `Unmarshal` -/
theorem unmarshal_stops {c : DCfg} {n : Nat} {t : Ty} {p : DV} {Q : Ty → Prop} (hp : Held Q p n) {C : DV → Prop} {j : Json} {w1 v w2 : Bytes}
    (hw : Ws w1) (hv : Derives (.value j) v) (h : Stops C (decN c n t (v ++ w2) p)) :
    ∃ y e, unmarshal c n t (w1 ++ v ++ w2) p = .done y (some e) ∧ C y := by
  obtain ⟨x, e, hd⟩ := unmarshal_done (c := c) (t := t) (b := w1 ++ v ++ w2) hp
  have hs : skipSpaces (w1 ++ v ++ w2) = v ++ w2 := by rw [List.append_assoc]; exact skip_ws_value hw hv w2
  unfold unmarshal parseInto at hd ⊢
  rw [hs] at hd ⊢
  rcases h with ⟨cr, h⟩ | ⟨y, r, e', h, hC⟩
  · rw [h] at hd; cases hd
  · rw [h]
    simp only []
    split
    · exact ⟨y, _, rfl, hC⟩
    · exact ⟨y, _, rfl, hC⟩

end JC

import Verif.Spec.SliceMem
import Verif.Lemmas.DecLoop
import Verif.Lemmas.DecPres
/-!
`decodeSlice` on memory does what it does on lists.
-/
namespace JC
open Spec

/-- One element: the function `elem` of `sliceLoopM`. -/
def sliceElemM (dec : Dec) (z : DV) (input : Bytes) (n : Nat) (h : SHeap) (s : Hdr) (b : Bytes) : MRes :=
  let hs := roomFor z h s
  match hs.1.load hs.2 hs.2.len with
  | none => .fault
  | some x =>
    match dec b x with
    | .crash c => .crash c
    | .err x _ e =>
      match parseValue input with
      | .fail r e2 => .err (hs.1.store hs.2 hs.2.len x) hs.2 r e2
      | .ok _ r => .err (hs.1.store hs.2 hs.2.len x) hs.2 r e
    | .ok x r => sliceLoopM dec z input n (hs.1.store hs.2 hs.2.len x) { hs.2 with len := hs.2.len + 1 } r

theorem sliceLoopM_succ (dec : Dec) (z : DV) (input : Bytes) (n : Nat) (h : SHeap) (s : Hdr) (b : Bytes) :
    sliceLoopM dec z input (n + 1) h s b =
      if (skipSpaces b).head? = some 0x5d then
        .ok h (if s.data = .nil then { s with data := .empty } else s) (skipSpaces b).tail
      else if s.len = 0 then sliceElemM dec z input n h s (skipSpaces b)
      else match skipSpaces b with
        | [] => .err h s (skipSpaces b) .syntax
        | c :: t => if c ≠ 0x2c then .err h s (skipSpaces b) .syntax
          else sliceElemM dec z input n h s (skipSpaces t) := by
  rw [sliceLoopM]
  unfold sliceElemM
  rfl

/-- What the loop knows: the elements so far and the memory behind them. -/
structure Inv (z : DV) (h : SHeap) (s : Hdr) (done mem : List DV) : Prop where
  ok : HdrOk h s
  len : s.len = done.length
  cells : ∃ k, h.cells s = done ++ mem ++ List.replicate k z

theorem cells_length {h : SHeap} {s : Hdr} (ok : HdrOk h s) : (h.cells s).length = s.cap := by
  unfold SHeap.cells
  obtain ⟨-, hd⟩ := ok
  cases hs : s.data with
  | nil => rw [hs] at hd; simpa using hd.symm
  | empty => rw [hs] at hd; simpa using hd.symm
  | «at» a =>
    rw [hs] at hd
    obtain ⟨xs, hx, hl⟩ := hd
    simp [hx]; omega

theorem load_eq {h : SHeap} {s : Hdr} {i : Nat} (hi : i < s.cap) : h.load s i = (h.cells s)[i]? := by
  unfold SHeap.load SHeap.cells
  cases hs : s.data with
  | nil => simp
  | empty => simp
  | «at» a =>
    simp only []
    cases hx : h[a]? with
    | none => simp
    | some xs => simp [List.getElem?_take, hi]

theorem store_ok {h : SHeap} {s : Hdr} (ok : HdrOk h s) (i : Nat) (v : DV) : HdrOk (h.store s i v) s := by
  refine ⟨ok.1, ?_⟩
  have hd := ok.2
  unfold SHeap.store
  cases hs : s.data with
  | nil => rw [hs] at hd; exact hd
  | empty => rw [hs] at hd; exact hd
  | «at» a =>
    rw [hs] at hd
    obtain ⟨xs, hx, hl⟩ := hd
    exact ⟨xs.set (s.off + i) v, by simp [List.getElem?_modify, hx], by simpa using hl⟩

theorem store_cells {h : SHeap} {s : Hdr} (ok : HdrOk h s) (i : Nat) (v : DV) :
    (h.store s i v).cells s = (h.cells s).set i v := by
  have hd := ok.2
  unfold SHeap.store SHeap.cells
  cases hs : s.data with
  | nil => simp
  | empty => simp
  | «at» a =>
    rw [hs] at hd
    obtain ⟨xs, hx, hl⟩ := hd
    simp only [List.getElem?_modify, hx, if_true, Option.map_some, Option.map_eq_map, Option.getD_some]
    rw [List.drop_set, if_neg (by omega), List.take_set, Nat.add_sub_cancel_left]

theorem room_inv {z : DV} {h : SHeap} {s : Hdr} {done mem : List DV} (inv : Inv z h s done mem) :
    Inv z (roomFor z h s).1 (roomFor z h s).2 done mem ∧ (roomFor z h s).2.len < (roomFor z h s).2.cap
      ∧ (roomFor z h s).2.len = s.len := by
  unfold roomFor
  split
  · rename_i e
    obtain ⟨k, hc⟩ := inv.cells
    have hl := cells_length inv.ok
    have := inv.len
    rw [hc] at hl
    simp only [List.length_append, List.length_replicate] at hl
    have hm : mem = [] := List.eq_nil_of_length_eq_zero (by omega)
    have hk : k = 0 := by omega
    subst hm hk
    simp only [List.append_nil, List.replicate_zero] at hc
    unfold extendSlice
    simp only [hc]
    rw [List.take_of_length_le (l := done) (by omega)]
    generalize hn : (if s.cap = 0 then 10 else s.cap * 2) = n
    have hn' : s.len < n := by rw [← hn]; split <;> omega
    rw [List.take_of_length_le (by omega)]
    refine ⟨⟨⟨by simp only []; omega, ?_⟩, inv.len, n - done.length, ?_⟩, hn', trivial⟩
    · exact ⟨_, List.getElem?_concat_length, by simp; omega⟩
    · simp only [SHeap.cells, List.getElem?_concat_length, Option.getD_some, List.drop_zero, List.append_nil]
      exact List.take_of_length_le (by simp; omega)
  · rename_i e
    exact ⟨inv, by have := inv.ok.1; show s.len < s.cap; omega, rfl⟩

theorem load_inv {z : DV} {h : SHeap} {s : Hdr} {done mem : List DV} (inv : Inv z h s done mem) (hl : s.len < s.cap) :
    h.load s s.len = some (mem.headD z) := by
  obtain ⟨k, hc⟩ := inv.cells
  have hlen := cells_length inv.ok
  rw [load_eq hl, hc, inv.len, List.append_assoc, List.getElem?_append_right (by omega), Nat.sub_self]
  rw [hc] at hlen
  simp only [List.length_append, List.length_replicate] at hlen
  have := inv.len
  cases mem with
  | cons m ms => simp
  | nil =>
    obtain ⟨k, rfl⟩ : ∃ j, k = j + 1 := ⟨k - 1, by simp at hlen; omega⟩
    simp [List.replicate_succ]

theorem store_inv {z : DV} {h : SHeap} {s : Hdr} {done mem : List DV} (inv : Inv z h s done mem) (hl : s.len < s.cap) (x : DV) :
    Inv z (h.store s s.len x) s done (x :: mem.tail) := by
  obtain ⟨k, hc⟩ := inv.cells
  have hlen := cells_length inv.ok
  refine ⟨store_ok inv.ok _ _, inv.len, ?_⟩
  rw [store_cells inv.ok, hc, inv.len, List.append_assoc, List.set_append_right _ _ (by omega), Nat.sub_self]
  rw [hc] at hlen
  simp only [List.length_append, List.length_replicate] at hlen
  have := inv.len
  cases mem with
  | cons m ms => exact ⟨k, by simp⟩
  | nil =>
    obtain ⟨k, rfl⟩ : ∃ j, k = j + 1 := ⟨k - 1, by simp at hlen; omega⟩
    exact ⟨k, by simp [List.replicate_succ]⟩

theorem next_inv {z : DV} {h : SHeap} {s : Hdr} {done mem : List DV} {x : DV} (inv : Inv z h s done (x :: mem)) (hl : s.len < s.cap) :
    Inv z h { s with len := s.len + 1 } (done ++ [x]) mem := by
  obtain ⟨k, hc⟩ := inv.cells
  refine ⟨⟨hl, inv.ok.2⟩, by simp [inv.len], k, ?_⟩
  have : h.cells { s with len := s.len + 1 } = h.cells s := rfl
  rw [this, hc]; simp

theorem inv_nonnil {z : DV} {h : SHeap} {s : Hdr} {done mem : List DV} (inv : Inv z h s done mem) (hl : 0 < s.cap) : s.data ≠ .nil := by
  intro e
  have := inv.ok.2
  rw [e] at this
  omega

theorem inv_holds {z : DV} {h : SHeap} {s : Hdr} {done mem : List DV} (inv : Inv z h s done mem) (hl : s.data ≠ .nil) :
    HoldsSlice z h s (.slice done mem) := by
  obtain ⟨k, hc⟩ := inv.cells
  exact .slice done mem k inv.ok hl inv.len hc

/-! ### The loop -/

theorem sliceLoopM_same (dec : Dec) (z : DV) (input : Bytes) : ∀ (n : Nat) (h : SHeap) (s : Hdr) (done mem : List DV) (b : Bytes),
    Inv z h s done mem → SameRes z (sliceLoopM dec z input n h s b) (sliceLoop dec z input n done mem b) := by
  intro n
  induction n with
  | zero => intro h s done mem b _; exact .crash
  | succ n ih =>
    intro h s done mem b inv
    have elem : ∀ b, SameRes z (sliceElemM dec z input n h s b) (sliceElem dec z input n done mem b) := by
      intro b
      obtain ⟨inv', hlt, -⟩ := room_inv inv
      unfold sliceElemM sliceElem
      simp only []
      generalize hh : (roomFor z h s).1 = h' at *
      generalize hs : (roomFor z h s).2 = s' at *
      rw [load_inv inv' hlt]
      simp only []
      cases dec b (mem.headD z) with
      | crash c => exact .crash
      | err x r e =>
        have := inv_holds (store_inv inv' hlt x) (inv_nonnil inv' (by omega))
        simp only []
        cases parseValue input with
        | fail r e2 => exact .err this
        | ok v r => exact .err this
      | ok x r => exact ih _ _ _ _ _ (next_inv (store_inv inv' hlt x) hlt)
    rw [sliceLoopM_succ, sliceLoop_succ]
    split
    · apply SameRes.ok
      split
      · rename_i e
        have hd := inv.ok.2
        rw [e] at hd
        simp only [] at hd
        obtain ⟨k, hc⟩ := inv.cells
        have hc0 : h.cells s = [] := by simp [SHeap.cells, e]
        rw [hc0] at hc
        exact .slice done mem k ⟨inv.ok.1, hd⟩ (by simp) inv.len hc
      · rename_i e
        exact inv_holds inv e
    · have hemp : done.isEmpty = true ↔ s.len = 0 := by rw [inv.len]; cases done <;> simp
      by_cases h0 : s.len = 0
      · rw [if_pos h0, if_pos (hemp.2 h0)]
        exact elem _
      · rw [if_neg h0, if_neg (fun h => h0 (hemp.1 h))]
        have hnn : s.data ≠ .nil := inv_nonnil inv (by have := inv.ok.1; omega)
        cases skipSpaces b with
        | nil => exact .err (inv_holds inv hnn)
        | cons c t =>
          simp only []
          split
          · exact .err (inv_holds inv hnn)
          · exact elem _

/-! ### The rest of memory -/

/-- What the loop keeps: memory it may not touch, and how much it has allocated since it began with `h0`, `s0`. -/
structure Own (h0 : SHeap) (s0 : Hdr) (h : SHeap) (s : Hdr) : Prop where
  kept : KeptAround h0 s0 h
  mine : (s.data = s0.data ∧ s.off = s0.off ∧ s.cap = s0.cap ∧ h.length = h0.length)
    ∨ ((∃ a, s.data = .at a ∧ h0.length ≤ a) ∧ newCells h0 h ≤ 2 * s.cap ∧ s.cap ≤ 2 * s.len + 10 ∧ s0.cap ≤ s.len)

theorem around_refl (h : SHeap) (s : Hdr) : KeptAround h s h := ⟨Nat.le_refl _, fun _ xs hx => ⟨xs, hx, rfl, fun _ _ => rfl⟩⟩

theorem newCells_append (h0 h : SHeap) (xs : List DV) (hl : h0.length ≤ h.length) :
    newCells h0 (h ++ [xs]) = newCells h0 h + xs.length := by
  unfold newCells
  rw [List.drop_append_of_le_length hl]
  simp

theorem own_room {z : DV} {h0 : SHeap} {s0 : Hdr} {h : SHeap} {s : Hdr} {done mem : List DV}
    (own : Own h0 s0 h s) (inv : Inv z h s done mem) : Own h0 s0 (roomFor z h s).1 (roomFor z h s).2 := by
  unfold roomFor
  split
  · rename_i e
    have hk := own.kept
    unfold extendSlice
    simp only []
    generalize hn : (if s.cap = 0 then 10 else s.cap * 2) = n
    generalize hold : List.take n (List.take s.len (h.cells s)) = old
    have hold' : old.length ≤ n := by rw [← hold, List.length_take]; omega
    refine ⟨⟨by simp; have := hk.1; omega, ?_⟩, .inr ⟨⟨h.length, rfl, hk.1⟩, ?_, ?_, ?_⟩⟩
    · intro a xs hx
      obtain ⟨ys, hy, h1, h2⟩ := hk.2 a xs hx
      refine ⟨ys, ?_, h1, h2⟩
      rw [List.getElem?_append_left (List.getElem?_eq_some_iff.1 hy).1]; exact hy
    · rw [newCells_append _ _ _ hk.1]
      simp only [List.length_append, List.length_replicate]
      rcases own.mine with ⟨_, _, _, hl⟩ | ⟨_, h1, _, _⟩
      · have : newCells h0 h = 0 := by
          unfold newCells
          rw [List.drop_of_length_le (by omega)]; rfl
        omega
      · have : n = if s.cap = 0 then 10 else s.cap * 2 := hn.symm
        split at this <;> omega
    · simp only []
      rw [← hn]; split <;> omega
    · simp only []
      rcases own.mine with ⟨_, _, hc, _⟩ | ⟨_, _, _, h3⟩
      · omega
      · exact h3
  · exact own

theorem own_store {h0 : SHeap} {s0 : Hdr} {h : SHeap} {s : Hdr} {i : Nat} (own : Own h0 s0 h s)
    (hi : i < s.cap) (v : DV) (l : Nat) (hl : s.len ≤ l) : Own h0 s0 (h.store s i v) { s with len := l } := by
  have hlen : (h.store s i v).length = h.length := by
    unfold SHeap.store
    cases s.data <;> simp
  have hnew : newCells h0 (h.store s i v) = newCells h0 h := by
    unfold SHeap.store newCells
    cases s.data with
    | nil => rfl
    | empty => rfl
    | «at» a =>
      simp only []
      congr 1
      apply List.ext_getElem?
      intro j
      simp only [List.getElem?_map, List.getElem?_drop, List.getElem?_modify]
      cases h[h0.length + j]? with
      | none => simp
      | some xs => simp only [Option.map_some, Option.map_eq_map]; split <;> simp
  constructor
  · refine ⟨by rw [hlen]; exact own.kept.1, ?_⟩
    intro a xs hx
    obtain ⟨ys, hy, h1, h2⟩ := own.kept.2 a xs hx
    unfold SHeap.store
    cases hd : s.data with
    | nil => exact ⟨ys, hy, h1, h2⟩
    | empty => exact ⟨ys, hy, h1, h2⟩
    | «at» a' =>
      simp only [List.getElem?_modify, hy, Option.map_some, Option.map_eq_map]
      by_cases ha : a' = a
      · subst ha
        simp only [if_true]
        refine ⟨_, rfl, by simpa using h1, ?_⟩
        intro j hj
        rw [← h2 j hj, List.getElem?_set_ne]
        rintro rfl
        rcases own.mine with ⟨e1, e2, e3, -⟩ | ⟨⟨a, e1, e2⟩, -⟩
        · exact hj ⟨by rw [← e1, hd], by omega, by omega⟩
        · rw [hd] at e1
          injection e1 with e1
          have := (List.getElem?_eq_some_iff.1 hx).1
          omega
      · simp only [if_neg ha]
        exact ⟨ys, rfl, h1, h2⟩
  · rcases own.mine with ⟨e1, e2, e3, e4⟩ | ⟨e1, e2, e3, e4⟩
    · exact .inl ⟨e1, e2, e3, by rw [hlen]; exact e4⟩
    · exact .inr ⟨e1, by rw [hnew]; exact e2, by simp only []; omega, by simp only []; omega⟩

theorem sliceLoopM_own (dec : Dec) (z : DV) (input : Bytes) (h0 : SHeap) (s0 : Hdr) :
    ∀ (n : Nat) (h : SHeap) (s : Hdr) (done mem : List DV) (b : Bytes) (h' : SHeap) (s' : Hdr),
    Inv z h s done mem → Own h0 s0 h s → MemOf (sliceLoopM dec z input n h s b) = some (h', s') →
    (∃ d, Own h0 s0 h' { s' with data := d }) ∧ s'.len < s.len + n := by
  intro n
  induction n with
  | zero => intro h s done mem b h' s' _ _ hm; simp [sliceLoopM, MemOf] at hm
  | succ n ih =>
    intro h s done mem b h' s' inv own hm
    have elem : ∀ b, MemOf (sliceElemM dec z input n h s b) = some (h', s') →
        (∃ d, Own h0 s0 h' { s' with data := d }) ∧ s'.len < s.len + (n + 1) := by
      intro b hm
      obtain ⟨inv', hlt, hle⟩ := room_inv inv
      have own' := own_room own inv
      unfold sliceElemM at hm
      simp only [] at hm
      generalize hh : (roomFor z h s).1 = h1 at *
      generalize hs : (roomFor z h s).2 = s1 at *
      rw [load_inv inv' hlt] at hm
      simp only [] at hm
      cases hdec : dec b (mem.headD z) with
      | crash c => rw [hdec] at hm; simp [MemOf] at hm
      | err x r e =>
        rw [hdec] at hm
        have := own_store own' hlt x s1.len (Nat.le_refl _)
        simp only [] at hm
        cases hp : parseValue input with
        | fail r e2 =>
          rw [hp] at hm; simp only [MemOf] at hm; injection hm with hm; injection hm with e1 e2
          subst e1 e2
          exact ⟨⟨s1.data, this⟩, by omega⟩
        | ok v r =>
          rw [hp] at hm; simp only [MemOf] at hm; injection hm with hm; injection hm with e1 e2
          subst e1 e2
          exact ⟨⟨s1.data, this⟩, by omega⟩
      | ok x r =>
        rw [hdec] at hm
        have := ih _ _ _ _ _ _ _ (next_inv (store_inv inv' hlt x) hlt)
          (own_store own' hlt x (s1.len + 1) (by omega)) hm
        refine ⟨this.1, ?_⟩
        have := this.2
        simp only [] at this
        omega
    rw [sliceLoopM_succ] at hm
    split at hm
    · simp only [MemOf] at hm; injection hm with hm; injection hm with e1 e2
      subst e1 e2
      split
      · exact ⟨⟨s.data, own⟩, by simp only []; omega⟩
      · exact ⟨⟨s.data, own⟩, by omega⟩
    · split at hm
      · exact elem _ hm
      · split at hm
        · simp only [MemOf] at hm; injection hm with hm; injection hm with e1 e2
          subst e1 e2
          exact ⟨⟨s.data, own⟩, by omega⟩
        · split at hm
          · simp only [MemOf] at hm; injection hm with hm; injection hm with e1 e2
            subst e1 e2
            exact ⟨⟨s.data, own⟩, by omega⟩
          · exact elem _ hm

end JC

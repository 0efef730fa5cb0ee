import Verif.Spec.TokenMem
/-! Steps of a Tokenizer in memory: what they change, and that they refine those of `Model/Token.lean`. -/
namespace JC
open Spec

/-- What the Tokenizer at `a` may do to memory. -/
structure Moves (a : Nat) (w w' : TokMem) : Prop where
  other : ∀ b, b ≠ a → { w'.toks b with buffer := [] } = { w.toks b with buffer := [] }
  cells : ∀ p, ¬ Owns w a p → TokPlace.In w p → w'.cells p = w.cells p
  length : ∀ p, TokPlace.In w p → (w'.cells p).length = (w.cells p).length
  slot : ∀ p, Owns w' a p → Owns w a p ∨ ¬ TokPlace.In w p
  heap : w.heap.length ≤ w'.heap.length

theorem Moves.mem {a : Nat} {w w' : TokMem} (h : Moves a w w') {p : TokPlace} (hp : TokPlace.In w p) : TokPlace.In w' p := by
  cases p with
  | buf _ => trivial
  | heap i => have := h.heap; simp only [TokPlace.In] at *; omega

theorem Moves.refl (a : Nat) (w : TokMem) : Moves a w w := ⟨fun _ _ => rfl, fun _ _ _ => rfl, fun _ _ => rfl, fun _ h => .inl h, Nat.le_refl _⟩

theorem Moves.trans {a : Nat} {w w1 w2 : TokMem} (h : Moves a w w1) (k : Moves a w1 w2) : Moves a w w2 := by
  refine ⟨fun b hb => (k.other b hb).trans (h.other b hb), fun p hp hi => ?_, fun p hi => ?_, fun p hp => ?_, Nat.le_trans h.heap k.heap⟩
  · rw [k.cells p (fun ho => ?_) (h.mem hi), h.cells p hp hi]
    rcases h.slot p ho with h1 | h1
    · exact hp h1
    · exact h1 hi
  · rw [k.length p (h.mem hi), h.length p hi]
  · rcases k.slot p hp with h1 | h1
    · exact h.slot p h1
    · exact .inr fun hi => h1 (h.mem hi)

theorem put_toks (w : TokMem) (a : Nat) (t : MTok) : (w.put a t).toks a = t := by simp [TokMem.put]

theorem put_other (w : TokMem) (a : Nat) (t : MTok) {b : Nat} (h : b ≠ a) : (w.put a t).toks b = w.toks b := by simp [TokMem.put, h]

theorem put_cells (w : TokMem) (a : Nat) {t : MTok} (h : t.buffer = (w.toks a).buffer) (p : TokPlace) : (w.put a t).cells p = w.cells p := by
  cases p with
  | heap i => rfl
  | buf b =>
    by_cases hb : b = a
    · subst hb; simp only [TokMem.cells, put_toks, h]
    · simp only [TokMem.cells, put_other w a t hb]

/-- Assignments to other fields than `stack` and `buffer`. -/
theorem put_moves (w : TokMem) (a : Nat) {t : MTok} (hb : t.buffer = (w.toks a).buffer)
    (hs : ∀ p n, t.slot = some (p, n) → Owns w a p ∨ ¬ TokPlace.In w p) : Moves a w (w.put a t) := by
  refine ⟨fun b hb => by rw [put_other w a t hb], fun p _ _ => put_cells w a hb p, fun p _ => by rw [put_cells w a hb p], fun p hp => ?_, Nat.le_refl _⟩
  rcases hp with rfl | ⟨n, hn⟩
  · exact .inl (.inl rfl)
  · rw [put_toks] at hn; exact hs p n hn

theorem put_ok {w : TokMem} {a : Nat} {t : MTok} (hb : t.buffer = (w.toks a).buffer)
    (hs : ∀ p n, t.slot = some (p, n) → n ≤ (w.cells p).length ∧ TokPlace.In w p) : StackOk (w.put a t) a := by
  intro p n hn
  rw [put_toks] at hn
  rw [put_cells w a hb]
  exact hs p n hn

theorem put_view (w : TokMem) (a : Nat) {t : MTok} (hb : t.buffer = (w.toks a).buffer) (hs : t.slot = (w.toks a).slot) :
    (w.put a t).view a = ⟨t.delim, t.value, t.err, t.depth, t.index, t.IsKey, t.isKey, t.json, (w.view a).stack⟩ := by
  unfold TokMem.view
  simp only [put_toks, hs]
  cases (w.toks a).slot with
  | none => rfl
  | some x => simp only [put_cells w a hb]

theorem put_stack (w : TokMem) (a : Nat) {t : MTok} (hb : t.buffer = (w.toks a).buffer) {p : TokPlace} {n : Nat} (hs : t.slot = some (p, n)) :
    (w.put a t).view a = ⟨t.delim, t.value, t.err, t.depth, t.index, t.IsKey, t.isKey, t.json, ((w.cells p).take n).reverse⟩ := by
  unfold TokMem.view
  simp only [put_toks, hs, put_cells w a hb]

theorem setCell_fields (w : TokMem) (p : TokPlace) (i : Nat) (x : Scope × Int) (b : Nat) :
    { (w.setCell p i x).toks b with buffer := [] } = { w.toks b with buffer := [] } := by
  cases p with
  | heap j => rfl
  | buf a =>
    by_cases hb : b = a
    · subst hb; simp only [TokMem.setCell, put_toks]
    · simp only [TokMem.setCell, put_other w a _ hb]

theorem setCell_slot (w : TokMem) (p : TokPlace) (i : Nat) (x : Scope × Int) (b : Nat) : ((w.setCell p i x).toks b).slot = (w.toks b).slot := by
  have := setCell_fields w p i x b
  injection this

theorem setCell_cells (w : TokMem) (p : TokPlace) (i : Nat) (x : Scope × Int) (q : TokPlace) (hp : TokPlace.In w p) :
    (w.setCell p i x).cells q = if q = p then (w.cells p).set i x else w.cells q := by
  cases p with
  | heap j =>
    simp only [TokPlace.In] at hp
    cases q with
    | buf b => rw [if_neg (by simp)]; rfl
    | heap k =>
      by_cases hk : k = j
      · subst hk; simp [TokMem.setCell, TokMem.cells, List.getElem?_set_self hp]
      · rw [if_neg (by simpa using hk)]
        simp only [TokMem.setCell, TokMem.cells]
        rw [List.getElem?_set_ne (Ne.symm hk)]
  | buf a =>
    cases q with
    | heap k => rw [if_neg (by simp)]; rfl
    | buf b =>
      by_cases hb : b = a
      · subst hb; simp [TokMem.setCell, TokMem.cells, put_toks]
      · rw [if_neg (by simpa using hb)]
        simp only [TokMem.setCell, TokMem.cells, put_other w a _ hb]

theorem setCell_heap (w : TokMem) (p : TokPlace) (i : Nat) (x : Scope × Int) : (w.setCell p i x).heap.length = w.heap.length := by
  cases p <;> simp [TokMem.setCell, TokMem.put]

theorem setCell_moves (w : TokMem) (a : Nat) {p : TokPlace} (i : Nat) (x : Scope × Int) (ho : Owns w a p) (hp : TokPlace.In w p) : Moves a w (w.setCell p i x) := by
  refine ⟨fun b _ => setCell_fields w p i x b, fun q hq _ => ?_, fun q _ => ?_, fun q hq => ?_, by rw [setCell_heap]; exact Nat.le_refl _⟩
  · rw [setCell_cells w p i x q hp, if_neg (by rintro rfl; exact hq ho)]
  · rw [setCell_cells w p i x q hp]
    split
    · rename_i h; subst h; simp
    · rfl
  · rcases hq with rfl | ⟨n, hn⟩
    · exact .inl (.inl rfl)
    · rw [setCell_slot] at hn; exact .inl (.inr ⟨n, hn⟩)

theorem setCell_in (w : TokMem) (p : TokPlace) (i : Nat) (x : Scope × Int) (q : TokPlace) : TokPlace.In (w.setCell p i x) q ↔ TokPlace.In w q := by
  cases q with
  | buf _ => exact Iff.rfl
  | heap j => simp only [TokPlace.In, setCell_heap]

theorem view_eq (w w' : TokMem) (a : Nat) (hf : { w'.toks a with buffer := [] } = { w.toks a with buffer := [] })
    (hc : ∀ p n, (w.toks a).slot = some (p, n) → (w'.cells p).take n = (w.cells p).take n) : w'.view a = w.view a := by
  injection hf with h1 h2 h3 h4 h5 h6 h7 h8 h9
  unfold TokMem.view
  simp only [h1, h2, h3, h4, h5, h6, h7, h8, h9]
  cases hs : (w.toks a).slot with
  | none => rfl
  | some x => obtain ⟨p, n⟩ := x; simp only [hc p n hs]

/-- A Tokenizer that shares nothing with the one at `a` does not notice its steps. -/
theorem Moves.view {a b : Nat} {w w' : TokMem} (h : Moves a w w') (hb : b ≠ a) (hok : StackOk w b) (hs : ∀ p, Owns w a p → ¬ Owns w b p) :
    w'.view b = w.view b := by
  refine view_eq w w' b (h.other b hb) fun p n hn => ?_
  rw [h.cells p (fun ho => hs p ho (.inr ⟨n, hn⟩)) (hok p n hn).2]

theorem Moves.ok {a b : Nat} {w w' : TokMem} (h : Moves a w w') (hb : b ≠ a) (hok : StackOk w b) : StackOk w' b := by
  intro p n hn
  have : (w'.toks b).slot = (w.toks b).slot := by
    have := h.other b hb
    injection this
  rw [this] at hn
  obtain ⟨h1, h2⟩ := hok p n hn
  exact ⟨by rw [h.length p h2]; exact h1, h.mem h2⟩

theorem Moves.owns {a b : Nat} {w w' : TokMem} (h : Moves a w w') (hb : b ≠ a) (p : TokPlace) : Owns w' b p ↔ Owns w b p := by
  have : (w'.toks b).slot = (w.toks b).slot := by
    have := h.other b hb
    injection this
  unfold Owns
  rw [this]

/-- The top of the stack. -/
theorem top_view {w : TokMem} {a : Nat} (h : StackOk w a) : match w.top a with
    | none => (w.view a).stack = [] ∧ (∀ p n, (w.toks a).slot = some (p, n) → n = 0)
    | some (p, n, x) => (w.toks a).slot = some (p, n + 1) ∧ (w.cells p)[n]? = some x ∧ (w.view a).stack = x :: ((w.cells p).take n).reverse := by
  unfold TokMem.top TokMem.view
  simp only []
  cases hs : (w.toks a).slot with
  | none => simp
  | some y =>
    obtain ⟨p, n⟩ := y
    obtain ⟨h1, _⟩ := h p n hs
    cases n with
    | zero => simp
    | succ n =>
      simp only []
      have hl : n < (w.cells p).length := by omega
      rw [List.getElem?_eq_getElem hl]
      refine ⟨trivial, rfl, ?_⟩
      rw [List.take_succ_eq_append_getElem hl]
      simp

/-- A step of the Tokenizer at `a`: it keeps to its memory, and what is seen of it then is `t`. -/
structure TokDoes (a : Nat) (w w' : TokMem) (t : Tok) : Prop where
  moves : Moves a w w'
  ok : StackOk w' a
  view : w'.view a = t

theorem TokDoes.trans {a : Nat} {w w1 w2 : TokMem} {t1 t2 : Tok} (h : TokDoes a w w1 t1) (k : TokDoes a w1 w2 t2) : TokDoes a w w2 t2 :=
  ⟨h.moves.trans k.moves, k.ok, k.view⟩

theorem TokDoes.refl {a : Nat} {w : TokMem} (h : StackOk w a) : TokDoes a w w (w.view a) := ⟨Moves.refl a w, h, rfl⟩

/-- Assignments to fields. -/
theorem put_does {w : TokMem} {a : Nat} (h : StackOk w a) {t : MTok} (hb : t.buffer = (w.toks a).buffer) (hs : t.slot = (w.toks a).slot) :
    TokDoes a w (w.put a t) ⟨t.delim, t.value, t.err, t.depth, t.index, t.IsKey, t.isKey, t.json, (w.view a).stack⟩ :=
  ⟨put_moves w a hb fun p n hn => .inl (.inr ⟨n, hs ▸ hn⟩), put_ok hb fun p n hn => h p n (hs ▸ hn), put_view w a hb hs⟩

theorem push_does (grow : Nat → Nat) {w : TokMem} {a : Nat} (h : StackOk w a) (s : Scope) : TokDoes a w (w.push grow a s) ((w.view a).push s) := by
  obtain ⟨p, n, hpn, ho, hin, hn, hst⟩ : ∃ p n, ((w.toks a).slot).getD (.buf a, 0) = (p, n) ∧ Owns w a p ∧ TokPlace.In w p ∧ n ≤ (w.cells p).length ∧
      (w.view a).stack = ((w.cells p).take n).reverse := by
    unfold TokMem.view
    simp only []
    cases hs : (w.toks a).slot with
    | none => exact ⟨.buf a, 0, rfl, .inl rfl, trivial, Nat.zero_le _, by simp⟩
    | some y => obtain ⟨p, n⟩ := y; exact ⟨p, n, rfl, .inr ⟨n, hs⟩, (h p n hs).2, (h p n hs).1, rfl⟩
  unfold TokMem.push
  rw [hpn]
  simp only []
  by_cases hl : n < (w.cells p).length
  · rw [if_pos hl]
    have hm := setCell_moves w a n (s, 1) ho hin
    have hc := setCell_cells w p n (s, 1) p hin
    rw [if_pos rfl] at hc
    have hf := setCell_fields w p n (s, 1) a
    injection hf with h1 h2 h3 h4 h5 h6 h7 h8 h9
    refine ⟨hm.trans (put_moves _ a rfl fun q m hq => ?_), put_ok rfl fun q m hq => ?_, ?_⟩
    · cases hq
      left
      rcases ho with rfl | ⟨m, hm⟩
      · exact .inl rfl
      · exact .inr ⟨m, by rw [setCell_slot]; exact hm⟩
    · cases hq
      rw [hc, setCell_in]
      exact ⟨by rw [List.length_set]; omega, hin⟩
    · refine (put_stack (p := p) (n := n + 1) (t := { (w.setCell p n (s, 1)).toks a with slot := some (p, n + 1) }) _ a rfl rfl).trans ?_
      rw [hc]
      have : ((w.cells p).set n (s, 1)).take (n + 1) = (w.cells p).take n ++ [(s, 1)] := by
        rw [List.take_succ_eq_append_getElem (by rw [List.length_set]; exact hl), List.take_set_of_le (Nat.le_refl _)]
        simp
      rw [this]
      simp only [h1, h2, h3, h4, h5, h6, h7, h8, List.reverse_append, List.reverse_cons, List.reverse_nil, List.nil_append, ← hst]
      rfl
  · rw [if_neg hl]
    have hcells : ∀ q, TokPlace.In w q → TokMem.cells { w with heap := w.heap ++ [(w.cells p).take n ++ (s, 1) :: List.replicate (grow n) zeroState] } q = w.cells q := by
      intro q hq
      cases q with
      | buf b => rfl
      | heap i => simp only [TokPlace.In] at hq; simp only [TokMem.cells]; rw [List.getElem?_append_left hq]
    have hm : Moves a w { w with heap := w.heap ++ [(w.cells p).take n ++ (s, 1) :: List.replicate (grow n) zeroState] } :=
      ⟨fun _ _ => rfl, fun q _ hq => hcells q hq, fun q hq => by rw [hcells q hq], fun q hq => .inl hq, by simp⟩
    have hnew : TokMem.cells { w with heap := w.heap ++ [(w.cells p).take n ++ (s, 1) :: List.replicate (grow n) zeroState] } (.heap w.heap.length) =
        (w.cells p).take n ++ (s, 1) :: List.replicate (grow n) zeroState := by simp [TokMem.cells]
    have hput := put_cells { w with heap := w.heap ++ [(w.cells p).take n ++ (s, 1) :: List.replicate (grow n) zeroState] } a
      (t := { w.toks a with slot := some (.heap w.heap.length, n + 1) }) rfl
    refine ⟨⟨fun b hb => by rw [put_other _ a _ hb], fun q h1 h2 => (hput q).trans (hcells q h2), fun q h2 => congrArg List.length ((hput q).trans (hcells q h2)),
      fun q hq => ?_, by simp [TokMem.put]⟩, put_ok rfl fun q m hq => ?_, ?_⟩
    · rcases hq with rfl | ⟨m, hq⟩
      · exact .inl (.inl rfl)
      · rw [put_toks] at hq
        cases hq
        exact .inr (by simp [TokPlace.In])
    · cases hq
      rw [hnew]
      refine ⟨by simp [List.length_take]; omega, by simp [TokPlace.In]⟩
    · refine (put_stack (p := .heap w.heap.length) (n := n + 1) (t := { w.toks a with slot := some (.heap w.heap.length, n + 1) })
        { w with heap := w.heap ++ [(w.cells p).take n ++ (s, 1) :: List.replicate (grow n) zeroState] } a rfl rfl).trans ?_
      rw [hnew]
      have : ((w.cells p).take n ++ (s, 1) :: List.replicate (grow n) zeroState).take (n + 1) = (w.cells p).take n ++ [(s, 1)] := by
        have hl : ((w.cells p).take n).length = n := by rw [List.length_take]; omega
        rw [List.take_append, List.take_of_length_le (by omega), hl]
        simp
      rw [this]
      simp only [List.reverse_append, List.reverse_cons, List.reverse_nil, List.nil_append, ← hst]
      rfl

theorem pop_does {w : TokMem} {a : Nat} (h : StackOk w a) (s : Scope) :
    TokDoes a w (w.pop a s).1 ((w.view a).pop s).1 ∧ (w.pop a s).2 = ((w.view a).pop s).2 := by
  have ht := top_view h
  unfold TokMem.pop Tok.pop
  cases hw : w.top a with
  | none =>
    rw [hw] at ht
    simp only [] at ht
    rw [ht.1]
    exact ⟨TokDoes.refl h, rfl⟩
  | some y =>
    obtain ⟨p, n, x⟩ := y
    rw [hw] at ht
    simp only [] at ht
    obtain ⟨h1, h2, h3⟩ := ht
    rw [h3]
    obtain ⟨x1, x2⟩ := x
    simp only []
    split
    · exact ⟨TokDoes.refl h, rfl⟩
    · refine ⟨⟨put_moves w a rfl fun q m hq => ?_, put_ok rfl fun q m hq => ?_, ?_⟩, rfl⟩
      · cases hq; exact .inl (.inr ⟨_, h1⟩)
      · cases hq; have := h _ _ h1; exact ⟨by omega, this.2⟩
      · exact put_stack (p := p) (n := n) (t := { w.toks a with slot := some (p, n) }) w a rfl rfl

theorem is_view {w : TokMem} {a : Nat} (h : StackOk w a) (s : Scope) : w.is a s = (w.view a).is s := by
  have ht := top_view h
  unfold TokMem.is Tok.is
  cases hw : w.top a with
  | none => rw [hw] at ht; simp only [] at ht; rw [ht.1]
  | some y => obtain ⟨p, n, x⟩ := y; rw [hw] at ht; simp only [] at ht; rw [ht.2.2]

theorem idx_view {w : TokMem} {a : Nat} (h : StackOk w a) : w.idx a = (w.view a).idx := by
  have ht := top_view h
  unfold TokMem.idx Tok.idx
  cases hw : w.top a with
  | none => rw [hw] at ht; simp only [] at ht; rw [ht.1]
  | some y => obtain ⟨p, n, x⟩ := y; rw [hw] at ht; simp only [] at ht; rw [ht.2.2]

theorem depth_view {w : TokMem} {a : Nat} (h : StackOk w a) : w.depth a = (w.view a).stack.length := by
  unfold TokMem.depth TokMem.view
  simp only []
  cases hs : (w.toks a).slot with
  | none => rfl
  | some y => obtain ⟨p, n⟩ := y; have := (h p n hs).1; simp; omega

theorem close_does {w : TokMem} {a : Nat} (h : StackOk w a) (s : Scope) :
    TokDoes a w (w.close a s).1 { { ((w.view a).pop s).1 with depth := ((w.view a).pop s).1.depth - 1 } with index := Tok.idx { ((w.view a).pop s).1 with depth := ((w.view a).pop s).1.depth - 1 } } ∧
      (w.close a s).2 = ((w.view a).pop s).2 := by
  obtain ⟨h1, h2⟩ := pop_does h s
  unfold TokMem.close
  simp only []
  have h3 := put_does h1.ok (t := { (w.pop a s).1.toks a with depth := ((w.pop a s).1.toks a).depth - 1 }) rfl rfl
  have h4 := put_does h3.ok (t := { ((w.pop a s).1.put a { (w.pop a s).1.toks a with depth := ((w.pop a s).1.toks a).depth - 1 }).toks a with
    index := ((w.pop a s).1.put a { (w.pop a s).1.toks a with depth := ((w.pop a s).1.toks a).depth - 1 }).idx a }) rfl rfl
  have h5 := (h1.trans h3).trans h4
  refine ⟨?_, h2⟩
  rw [← h1.view]
  refine ⟨h5.moves, h5.ok, h5.view.trans ?_⟩
  rw [idx_view h3.ok, h3.view]
  simp only [put_toks]
  rfl

theorem count_does {w : TokMem} {a : Nat} (h : StackOk w a) {p : TokPlace} {n : Nat} {x : Scope × Int} (ht : w.top a = some (p, n, x)) :
    ∃ st, (w.view a).stack = x :: st ∧ TokDoes a w (w.setCell p n (x.1, x.2 + 1)) { w.view a with stack := (x.1, x.2 + 1) :: st } := by
  have hv := top_view h
  rw [ht] at hv
  simp only [] at hv
  obtain ⟨h1, h2, h3⟩ := hv
  obtain ⟨h4, h5⟩ := h p (n + 1) h1
  refine ⟨_, h3, setCell_moves w a n _ (.inr ⟨_, h1⟩) h5, fun q m hq => ?_, ?_⟩
  · rw [setCell_slot] at hq
    obtain ⟨h6, h7⟩ := h q m hq
    rw [setCell_in, setCell_cells w p n _ q h5]
    refine ⟨?_, h7⟩
    split
    · rename_i he; subst he; simpa using h6
    · exact h6
  · have hf := setCell_fields w p n (x.1, x.2 + 1) a
    injection hf with f1 f2 f3 f4 f5 f6 f7 f8 f9
    unfold TokMem.view
    simp only [f1, f2, f3, f4, f5, f6, f7, f8, f9, h1]
    rw [setCell_cells w p n _ p h5, if_pos rfl, List.take_succ_eq_append_getElem (by rw [List.length_set]; exact h4), List.take_set_of_le (Nat.le_refl _)]
    simp

/-- The delimiter switch in memory and on the list. -/
def StepAgree (a : Nat) (w : TokMem) : Option (TokMem × Option Err) → Option (Tok × Option Err) → Prop
  | none, none => True
  | some (w', e), some (t, e') => e = e' ∧ TokDoes a w w' t
  | _, _ => False

theorem view_put_isKey (w : TokMem) (a : Nat) (b : Bool) : (w.put a { w.toks a with isKey := b }).view a = { w.view a with isKey := b } :=
  put_view (t := { w.toks a with isKey := b }) w a rfl rfl

theorem isKey_does {w : TokMem} {a : Nat} (h : StackOk w a) (b : Bool) : TokDoes a w (w.put a { w.toks a with isKey := b }) { w.view a with isKey := b } :=
  put_does (t := { w.toks a with isKey := b }) h rfl rfl

theorem delimStep_does (grow : Nat → Nat) {w : TokMem} {a : Nat} (h : StackOk w a) (d : UInt8) (e : Option Err) :
    StepAgree a w (w.delimStep grow a d e) ((w.view a).delimStep d e) := by
  unfold TokMem.delimStep Tok.delimStep
  split
  · exact ⟨rfl, TokDoes.refl h⟩
  split
  · refine ⟨rfl, ?_⟩
    have h1 := isKey_does h true
    have h2 := push_does grow h1.ok .inObject
    rw [h1.view] at h2
    exact h1.trans h2
  split
  · exact ⟨rfl, push_does grow h .inArray⟩
  split
  · exact ⟨(close_does h .inObject).2, (close_does h .inObject).1⟩
  split
  · exact ⟨(close_does h .inArray).2, (close_does h .inArray).1⟩
  split
  · exact ⟨rfl, isKey_does h false⟩
  split
  · obtain ⟨w1, hw1, hd⟩ : ∃ w1, w1 = (if w.is a .inObject then w.put a { w.toks a with isKey := true } else w) ∧
        TokDoes a w w1 (if (w.view a).is .inObject then { w.view a with isKey := true } else w.view a) := by
      refine ⟨_, rfl, ?_⟩
      rw [← is_view h]
      cases w.is a .inObject with
      | true => exact isKey_does h true
      | false => exact TokDoes.refl h
    rw [← hw1, ← hd.view]
    simp only []
    cases ht : w1.top a with
    | none =>
      have := top_view hd.ok
      rw [ht] at this
      simp only [] at this
      rw [this.1]
      trivial
    | some y =>
      obtain ⟨p, n, x⟩ := y
      obtain ⟨st, h1, h2⟩ := count_does hd.ok ht
      rw [h1]
      exact ⟨rfl, hd.trans h2⟩
  · exact ⟨rfl, TokDoes.refl h⟩

/-- `Next` in memory and on the list. -/
def NextAgree (a : Nat) (w : TokMem) : Option (TokMem × Bool) → NextR → Prop
  | none, .panic => True
  | some (w', ok), .ret t ok' => ok = ok' ∧ TokDoes a w w' t
  | _, _ => False

theorem next_does (grow : Nat → Nat) {w : TokMem} {a : Nat} (h : StackOk w a) : NextAgree a w (w.next grow a) (w.view a).next := by
  unfold TokMem.next Tok.next
  have he : (w.view a).err = (w.toks a).err := rfl
  rw [he]
  cases (w.toks a).err with
  | some e => exact ⟨rfl, TokDoes.refl h⟩
  | none =>
    simp only []
    have h1 := put_does (t := { w.toks a with json := tokSkip (w.toks a).json }) h rfl rfl
    generalize hw1 : w.put a { w.toks a with json := tokSkip (w.toks a).json } = w1 at h1
    have hj : (w1.toks a).json = tokSkip (w.view a).json := by rw [← hw1, put_toks]; rfl
    rw [hj]
    split
    · refine ⟨rfl, ?_⟩
      refine h1.trans ⟨put_moves w1 a rfl (fun p n hn => by cases hn), put_ok rfl (fun p n hn => by cases hn), ?_⟩
      unfold TokMem.view TokMem.reset
      simp only [put_toks]
      rfl
    · generalize hs : tokScan (tokSkip (w.view a).json) = s
      obtain ⟨d, v, b, err⟩ := s
      simp only []
      have h2 := put_does (t := { w1.toks a with delim := d, value := v, err := err, depth := w1.depth a, index := w1.idx a, IsKey := d == 0 && (w1.toks a).isKey, json := b }) h1.ok rfl rfl
      generalize hw2 : w1.put a { w1.toks a with delim := d, value := v, err := err, depth := w1.depth a, index := w1.idx a, IsKey := d == 0 && (w1.toks a).isKey, json := b } = w2 at h2
      have h3 := delimStep_does grow h2.ok d err
      have hview : w2.view a = { w.view a with delim := d, value := v, err := err, depth := (w.view a).stack.length, index := (w.view a).idx, IsKey := d == 0 && (w.view a).isKey, json := b } := by
        have hk : (w1.toks a).isKey = (w.view a).isKey := by rw [← hw1, put_toks]; rfl
        rw [h2.view, depth_view h1.ok, idx_view h1.ok, h1.view]
        simp only [hk]
        rfl
      rw [hview] at h3
      simp only [Tok.idx] at h3 ⊢
      revert h3
      generalize Tok.delimStep _ d err = o2
      cases w2.delimStep grow a d err with
      | none => cases o2 with
        | none => intro _; trivial
        | some y => intro h; exact h.elim
      | some x => cases o2 with
        | none => intro h; exact h.elim
        | some y =>
          obtain ⟨x1, x2⟩ := x
          obtain ⟨y1, y2⟩ := y
          intro h
          obtain ⟨rfl, h5⟩ := h
          exact ⟨rfl, (h1.trans h2).trans h5⟩

theorem put_home {w : TokMem} {a : Nat} (h : AtHome w a) {t : MTok} (hs : ∀ p n, t.slot = some (p, n) → ∃ m, (w.toks a).slot = some (p, m)) : AtHome (w.put a t) a := by
  intro p n hn
  rw [put_toks] at hn
  obtain ⟨m, hm⟩ := hs p n hn
  exact h p m hm

theorem setCell_home {w : TokMem} {a : Nat} (h : AtHome w a) (p : TokPlace) (i : Nat) (x : Scope × Int) : AtHome (w.setCell p i x) a := by
  intro q n hn
  rw [setCell_slot] at hn
  exact h q n hn

theorem put_home_same {w : TokMem} {a : Nat} (h : AtHome w a) {t : MTok} (hs : t.slot = (w.toks a).slot) : AtHome (w.put a t) a :=
  put_home h fun p n hn => ⟨n, by rw [← hs]; exact hn⟩

theorem top_slot {w : TokMem} {a : Nat} {p : TokPlace} {n : Nat} {x : Scope × Int} (h : w.top a = some (p, n, x)) : (w.toks a).slot = some (p, n + 1) := by
  unfold TokMem.top at h
  split at h
  · cases h
  · rename_i q m hs
    cases m with
    | zero => cases h
    | succ m => cases h; exact hs

theorem pop_home {w : TokMem} {a : Nat} (h : AtHome w a) (s : Scope) : AtHome (w.pop a s).1 a := by
  unfold TokMem.pop
  split
  · exact h
  · rename_i p n x ht
    split
    · exact h
    · exact put_home h fun q m hq => by cases hq; exact ⟨_, top_slot ht⟩

theorem close_home {w : TokMem} {a : Nat} (h : AtHome w a) (s : Scope) : AtHome (w.close a s).1 a := by
  unfold TokMem.close
  simp only []
  refine put_home_same ?_ ?_
  · refine put_home_same (pop_home h s) ?_
    rfl
  · rfl

theorem push_home (grow : Nat → Nat) {w : TokMem} {a : Nat} (h : AtHome w a) (hl : (w.view a).stack.length < (w.toks a).buffer.length) (hok : StackOk w a) (s : Scope) :
    AtHome (w.push grow a s) a := by
  rw [← depth_view hok] at hl
  unfold TokMem.push
  cases hs : (w.toks a).slot with
  | none =>
    simp only [Option.getD_none]
    rw [if_pos (by simp only [TokMem.cells]; omega)]
    intro p n hn
    rw [put_toks] at hn
    cases hn; rfl
  | some y =>
    obtain ⟨p, n⟩ := y
    cases h p n hs
    simp only [Option.getD_some]
    simp only [TokMem.depth, hs] at hl
    rw [if_pos (show n < (w.cells (.buf a)).length from hl)]
    intro p n hn
    rw [put_toks] at hn
    cases hn; rfl

theorem next_home (grow : Nat → Nat) {w w' : TokMem} {a : Nat} {ok : Bool} (h : AtHome w a) (hok : StackOk w a) (hn : w.next grow a = some (w', ok))
    (hl : (w'.view a).stack.length ≤ (w.toks a).buffer.length) : AtHome w' a := by
  unfold TokMem.next at hn
  split at hn
  · cases hn; exact h
  · have d1 := put_does (t := { w.toks a with json := tokSkip (w.toks a).json }) hok rfl rfl
    have h1 : AtHome (w.put a { w.toks a with json := tokSkip (w.toks a).json }) a := put_home_same h rfl
    have b1 : ((w.put a { w.toks a with json := tokSkip (w.toks a).json }).toks a).buffer = (w.toks a).buffer := by rw [put_toks]
    generalize w.put a { w.toks a with json := tokSkip (w.toks a).json } = w1 at h1 d1 b1 hn
    simp only [] at hn
    split at hn
    · cases hn
      intro p n hp
      simp only [TokMem.reset, put_toks] at hp
      cases hp
    · generalize tokScan (w1.toks a).json = sc at hn
      obtain ⟨d, v, b, err⟩ := sc
      simp only [] at hn
      have d2 := put_does (t := { w1.toks a with delim := d, value := v, err := err, depth := w1.depth a, index := w1.idx a, IsKey := d == 0 && (w1.toks a).isKey, json := b }) d1.ok rfl rfl
      have h2 : AtHome (w1.put a { w1.toks a with delim := d, value := v, err := err, depth := w1.depth a, index := w1.idx a, IsKey := d == 0 && (w1.toks a).isKey, json := b }) a :=
        put_home_same h1 rfl
      have b2 : ((w1.put a { w1.toks a with delim := d, value := v, err := err, depth := w1.depth a, index := w1.idx a, IsKey := d == 0 && (w1.toks a).isKey, json := b }).toks a).buffer =
        (w.toks a).buffer := by rw [put_toks]; exact b1
      generalize w1.put a { w1.toks a with delim := d, value := v, err := err, depth := w1.depth a, index := w1.idx a, IsKey := d == 0 && (w1.toks a).isKey, json := b } = w2 at h2 d2 b2 hn
      have hk : ∀ (w3 : TokMem) (s : Scope), AtHome w3 a → StackOk w3 a → (w3.toks a).buffer = (w.toks a).buffer → w' = w3.push grow a s → AtHome w' a := by
        rintro w3 s h3 o3 b3 rfl
        refine push_home grow h3 ?_ o3 s
        rw [b3]
        rw [(push_does grow o3 s).view] at hl
        simp only [Tok.push, List.length_cons] at hl
        omega
      cases ho : w2.delimStep grow a d err with
      | none => rw [ho] at hn; cases hn
      | some x =>
        obtain ⟨w3, e3⟩ := x
        rw [ho] at hn
        have : w3 = w' := by injection hn with hn; injection hn
        subst this
        unfold TokMem.delimStep at ho
        split at ho
        · cases ho; exact h2
        split at ho
        · injection ho with ho
          injection ho with h5 h6
          exact hk (w2.put a { w2.toks a with isKey := true }) .inObject (by refine put_home_same h2 ?_; rfl) (isKey_does d2.ok true).ok (by rw [put_toks]; exact b2) h5.symm
        split at ho
        · injection ho with ho
          injection ho with h5 h6
          exact hk _ _ h2 d2.ok b2 h5.symm
        split at ho
        · injection ho with ho
          have := close_home h2 .inObject
          rw [ho] at this; exact this
        split at ho
        · injection ho with ho
          have := close_home h2 .inArray
          rw [ho] at this; exact this
        split at ho
        · cases ho; exact put_home_same h2 rfl
        split at ho
        · have h4 : AtHome (if w2.is a .inObject then w2.put a { w2.toks a with isKey := true } else w2) a := by
            split
            · exact put_home_same h2 rfl
            · exact h2
          generalize (if w2.is a .inObject then w2.put a { w2.toks a with isKey := true } else w2) = w4 at h4 ho
          simp only [] at ho
          split at ho
          · cases ho
          · cases ho; exact setCell_home h4 _ _ _
        · cases ho; exact h2

end JC

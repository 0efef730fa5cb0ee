import Verif.Model.Nest
import Verif.Spec.Nest
import Verif.Lemmas.ParseValue
/-!
The parser with a bounded stack agrees with the parser as long as there is room.
-/
namespace JC
open Spec

/-! ### A result with a bounded stack is the result -/

structure AgreeAt (n : Nat) : Prop where
  value : ∀ d b x, parseValueS n d b = some x → x = parseValueF n b
  object : ∀ d b x, parseObjectS n d b = some x → x = parseObjectF n b
  array : ∀ d b x, parseArrayS n d b = some x → x = parseArrayF n b
  objLoop : ∀ d a f b x, objLoopS n d a f b = some x → x = objLoop n a f b
  objItem : ∀ d a b x, objItemS n d a b = some x → x = objItem n a b
  arrLoop : ∀ d a f b x, arrLoopS n d a f b = some x → x = arrLoop n a f b
  arrItem : ∀ d a b x, arrItemS n d a b = some x → x = arrItem n a b

theorem agreeAt (n : Nat) : AgreeAt n := by
  induction n with
  | zero =>
    constructor
    · intro d b x h; simp only [parseValueS] at h; injection h with h; rw [← h]; rfl
    · intro d b x h; simp only [parseObjectS] at h; injection h with h; rw [← h]; rfl
    · intro d b x h; simp only [parseArrayS] at h; injection h with h; rw [← h]; rfl
    · intro d a f b x h; simp only [objLoopS] at h; injection h with h; rw [← h]; rfl
    · intro d a b x h; simp only [objItemS] at h; injection h with h; rw [← h]; rfl
    · intro d a f b x h; simp only [arrLoopS] at h; injection h with h; rw [← h]; rfl
    · intro d a b x h; simp only [arrItemS] at h; injection h with h; rw [← h]; rfl
  | succ n ih =>
    constructor
    · intro d b x h
      cases d with
      | zero => simp only [parseValueS] at h; contradiction
      | succ d =>
        cases b with
        | nil => simp only [parseValueS] at h; injection h with h; rw [← h]; rfl
        | cons c t =>
          simp only [parseValueS] at h
          simp only [parseValueF]
          split at h
          · rw [if_pos ‹_›]; exact ih.object _ _ _ h
          · rw [if_neg ‹_›]
            split at h
            · rw [if_pos ‹_›]; exact ih.array _ _ _ h
            · rw [if_neg ‹_›]
              iterate 5
                split at h
                · rw [if_pos ‹_›]; injection h with h; exact h.symm
                rw [if_neg ‹_›]
              injection h with h; exact h.symm
    · intro d b x h
      unfold parseObjectS at h
      unfold parseObjectF
      split at h
      · rw [if_pos ‹_›]; injection h with h; exact h.symm
      · rw [if_neg ‹_›]
        cases b with
        | nil => simp only [] at h; injection h with h; exact h.symm
        | cons c t =>
          simp only [] at h ⊢
          split at h
          · rw [if_pos ‹_›]; injection h with h; exact h.symm
          · rw [if_neg ‹_›]; exact ih.objLoop _ _ _ _ _ h
    · intro d b x h
      unfold parseArrayS at h
      unfold parseArrayF
      split at h
      · rw [if_pos ‹_›]; injection h with h; exact h.symm
      · rw [if_neg ‹_›]
        cases b with
        | nil => simp only [] at h; injection h with h; exact h.symm
        | cons c t =>
          simp only [] at h ⊢
          split at h
          · rw [if_pos ‹_›]; injection h with h; exact h.symm
          · rw [if_neg ‹_›]; exact ih.arrLoop _ _ _ _ _ h
    · intro d a f b x h
      simp only [objLoopS] at h
      simp only [JC.objLoop]
      generalize skipSpaces b = b at h ⊢
      cases b with
      | nil => simp only [] at h; injection h with h; exact h.symm
      | cons c t =>
        simp only [] at h ⊢
        split at h
        · rw [if_pos ‹_›]; injection h with h; exact h.symm
        · rw [if_neg ‹_›]
          split at h
          · rw [if_pos ‹_›]; exact ih.objItem _ _ _ _ h
          · rw [if_neg ‹_›]
            split at h
            · rw [if_pos ‹_›]; injection h with h; exact h.symm
            · rw [if_neg ‹_›]
              generalize skipSpaces t = t at h ⊢
              cases t with
              | nil => simp only [] at h; injection h with h; exact h.symm
              | cons c t =>
                simp only [] at h ⊢
                split at h
                · rw [if_pos ‹_›]; injection h with h; exact h.symm
                · rw [if_neg ‹_›]; exact ih.objItem _ _ _ _ h
    · intro d a b x h
      simp only [objItemS] at h
      simp only [JC.objItem]
      generalize parseString b = q at h ⊢
      cases q with
      | fail r e => simp only [] at h; injection h with h; exact h.symm
      | ok v b =>
        simp only [] at h ⊢
        generalize skipSpaces b = b at h ⊢
        cases b with
        | nil => simp only [] at h; injection h with h; exact h.symm
        | cons c t =>
          simp only [] at h ⊢
          split at h
          · rw [if_pos ‹_›]; injection h with h; exact h.symm
          · rw [if_neg ‹_›]
            cases hv : parseValueS n d (skipSpaces t) with
            | none => rw [hv] at h; contradiction
            | some y =>
              rw [hv] at h
              rw [← ih.value _ _ _ hv]
              cases y with
              | fail r e => simp only [] at h; injection h with h; exact h.symm
              | ok v r => exact ih.objLoop _ _ _ _ _ h
    · intro d a f b x h
      simp only [arrLoopS] at h
      simp only [JC.arrLoop]
      generalize skipSpaces b = b at h ⊢
      cases b with
      | nil => simp only [] at h; injection h with h; exact h.symm
      | cons c t =>
        simp only [] at h ⊢
        split at h
        · rw [if_pos ‹_›]; injection h with h; exact h.symm
        · rw [if_neg ‹_›]
          split at h
          · rw [if_pos ‹_›]; exact ih.arrItem _ _ _ _ h
          · rw [if_neg ‹_›]
            split at h
            · rw [if_pos ‹_›]; injection h with h; exact h.symm
            · rw [if_neg ‹_›]
              generalize skipSpaces t = t at h ⊢
              cases t with
              | nil => simp only [] at h; injection h with h; exact h.symm
              | cons c t =>
                simp only [] at h ⊢
                split at h
                · rw [if_pos ‹_›]; injection h with h; exact h.symm
                · rw [if_neg ‹_›]; exact ih.arrItem _ _ _ _ h
    · intro d a b x h
      simp only [arrItemS] at h
      simp only [JC.arrItem]
      cases hv : parseValueS n d b with
      | none => rw [hv] at h; contradiction
      | some y =>
        rw [hv] at h
        rw [← ih.value _ _ _ hv]
        cases y with
        | fail r e => simp only [] at h; injection h with h; exact h.symm
        | ok v r => exact ih.arrLoop _ _ _ _ _ h

/-! ### Room for every opening bracket is enough -/

theorem opens_append (a b : Bytes) : opens (a ++ b) = opens a + opens b := by simp [opens]

theorem opens_cons (c : UInt8) (b : Bytes) : opens b ≤ opens (c :: b) := by
  simp only [opens, List.countP_cons]; omega

theorem opens_open (c : UInt8) (b : Bytes) (h : c = 0x5b ∨ c = 0x7b) : opens (c :: b) = opens b + 1 := by
  rcases h with rfl | rfl <;> simp [opens]

theorem opens_skip (b : Bytes) : opens (skipSpaces b) ≤ opens b := by
  rw [skipSpaces_eq]
  exact List.Sublist.countP_le (List.dropWhile_sublist _)

structure RoomAt (n : Nat) : Prop where
  value : ∀ d b, opens b < d → ∃ x, parseValueS n d b = some x
  object : ∀ d b, opens b ≤ d → (∃ t, b = 0x7b :: t) → ∃ x, parseObjectS n d b = some x
  array : ∀ d b, opens b ≤ d → (∃ t, b = 0x5b :: t) → ∃ x, parseArrayS n d b = some x
  objLoop : ∀ d a f b, opens b < d → ∃ x, objLoopS n d a f b = some x
  objItem : ∀ d a b, opens b < d → ∃ x, objItemS n d a b = some x
  arrLoop : ∀ d a f b, opens b < d → ∃ x, arrLoopS n d a f b = some x
  arrItem : ∀ d a b, opens b < d → ∃ x, arrItemS n d a b = some x

theorem roomAt (n : Nat) : RoomAt n := by
  induction n with
  | zero =>
    constructor
    · intro d b _; exact ⟨_, by simp only [parseValueS]; rfl⟩
    · intro d b _ _; exact ⟨_, by simp only [parseObjectS]; rfl⟩
    · intro d b _ _; exact ⟨_, by simp only [parseArrayS]; rfl⟩
    · intro d a f b _; exact ⟨_, by simp only [objLoopS]; rfl⟩
    · intro d a b _; exact ⟨_, by simp only [objItemS]; rfl⟩
    · intro d a f b _; exact ⟨_, by simp only [arrLoopS]; rfl⟩
    · intro d a b _; exact ⟨_, by simp only [arrItemS]; rfl⟩
  | succ n ih =>
    constructor
    · intro d b h
      obtain ⟨d, rfl⟩ : ∃ k, d = k + 1 := ⟨d - 1, by omega⟩
      cases b with
      | nil => exact ⟨_, by simp only [parseValueS]; rfl⟩
      | cons c t =>
        simp only [parseValueS]
        split
        · subst_vars; exact ih.object d _ (by omega) ⟨_, rfl⟩
        · split
          · subst_vars; exact ih.array d _ (by omega) ⟨_, rfl⟩
          · repeat' split
            all_goals exact ⟨_, rfl⟩
    · rintro d _ h ⟨t, rfl⟩
      rw [opens_open _ _ (.inr rfl)] at h
      simp only [parseObjectS]
      split
      · exact ⟨_, rfl⟩
      · split
        · exact ⟨_, rfl⟩
        · exact ih.objLoop _ _ _ _ (by omega)
    · rintro d _ h ⟨t, rfl⟩
      rw [opens_open _ _ (.inl rfl)] at h
      simp only [parseArrayS]
      split
      · exact ⟨_, rfl⟩
      · split
        · exact ⟨_, rfl⟩
        · exact ih.arrLoop _ _ _ _ (by omega)
    · intro d a f b h
      have hs := opens_skip b
      simp only [objLoopS]
      generalize skipSpaces b = b at hs ⊢
      cases b with
      | nil => exact ⟨_, rfl⟩
      | cons c t =>
        simp only []
        split
        · exact ⟨_, rfl⟩
        · split
          · exact ih.objItem _ _ _ (by omega)
          · split
            · exact ⟨_, rfl⟩
            · have hs2 := opens_skip t
              have hs3 := opens_cons c t
              generalize skipSpaces t = t' at hs2 ⊢
              cases t' with
              | nil => exact ⟨_, rfl⟩
              | cons c t' =>
                simp only []
                split
                · exact ⟨_, rfl⟩
                · exact ih.objItem _ _ _ (by omega)
    · intro d a b h
      simp only [objItemS]
      cases hp : parseString b with
      | fail r e => exact ⟨_, rfl⟩
      | ok v b' =>
        have hb : opens b' ≤ opens b := by
          obtain ⟨e, _⟩ := parseString_sound hp
          rw [e, opens_append]; omega
        simp only []
        have hs := opens_skip b'
        generalize skipSpaces b' = b2 at hs ⊢
        cases b2 with
        | nil => exact ⟨_, rfl⟩
        | cons c t =>
          simp only []
          split
          · exact ⟨_, rfl⟩
          · have hs2 := opens_skip t
            have hs3 := opens_cons c t
            obtain ⟨x, hx⟩ := ih.value d (skipSpaces t) (by omega)
            rw [hx]
            cases x with
            | fail r e => exact ⟨_, rfl⟩
            | ok v r =>
              have e := ((soundAt n).value _ _ _ ((agreeAt n).value _ _ _ hx).symm).1
              have : opens r ≤ opens (skipSpaces t) := by rw [e, opens_append]; omega
              exact ih.objLoop _ _ _ _ (by omega)
    · intro d a f b h
      have hs := opens_skip b
      simp only [arrLoopS]
      generalize skipSpaces b = b at hs ⊢
      cases b with
      | nil => exact ⟨_, rfl⟩
      | cons c t =>
        simp only []
        split
        · exact ⟨_, rfl⟩
        · split
          · exact ih.arrItem _ _ _ (by omega)
          · split
            · exact ⟨_, rfl⟩
            · have hs2 := opens_skip t
              have hs3 := opens_cons c t
              generalize skipSpaces t = t' at hs2 ⊢
              cases t' with
              | nil => exact ⟨_, rfl⟩
              | cons c t' =>
                simp only []
                split
                · exact ⟨_, rfl⟩
                · exact ih.arrItem _ _ _ (by omega)
    · intro d a b h
      simp only [arrItemS]
      obtain ⟨x, hx⟩ := ih.value d b h
      rw [hx]
      cases x with
      | fail r e => exact ⟨_, rfl⟩
      | ok v r =>
        have e := ((soundAt n).value _ _ _ ((agreeAt n).value _ _ _ hx).symm).1
        have : opens r ≤ opens b := by rw [e, opens_append]; omega
        exact ih.arrLoop _ _ _ _ (by omega)

/-! ### A document needs as much room as it has levels -/

/-- What the parser with a bounded stack does on a text of the grammar. -/
def StackSpec : Sym → Bytes → Prop
  | .value j, b => ∀ (r : Bytes) (n d : Nat), Follow j r → 4 * b.length ≤ n →
      parseValueS n d (b ++ r) = if levels j ≤ d then some (.ok b r) else none
  | .elems xs, b => ∀ (p r : Bytes) (n d : Nat), 4 * b.length + 2 ≤ n →
      arrItemS n d (p ++ (b ++ 0x5d :: r)) (skipSpaces (b ++ 0x5d :: r))
        = if levelsL xs ≤ d then some (.ok (p ++ b ++ [0x5d]) r) else none
  | .members ms, b => ∀ (p r : Bytes) (n d : Nat), 4 * b.length + 2 ≤ n →
      objItemS n d (p ++ (b ++ 0x7d :: r)) (skipSpaces (b ++ 0x7d :: r))
        = if levelsM ms ≤ d then some (.ok (p ++ b ++ [0x7d]) r) else none

theorem num_dispatchS {s : Bytes} (hs : JNumber s) (r : Bytes) (n d : Nat) :
    parseValueS (n + 1) (d + 1) (s ++ r) = some (parseNumber (s ++ r)) := by
  obtain ⟨c, t, h, hc⟩ : ∃ c t, s = c :: t ∧ (c = 0x2d ∨ isDigit c = true) := by
    obtain ⟨sgn, i, f, e, hs, hi, hf, he⟩ := hs
    rcases hs with rfl | rfl
    · cases hi with
      | zero => exact ⟨_, _, rfl, by decide⟩
      | pos d ds h1 h2 h3 =>
        refine ⟨d, ds ++ f ++ e, by simp, .inr ?_⟩
        rw [isDigit_iff]
        refine ⟨?_, h2⟩
        rw [UInt8.le_iff_toNat_le] at h1 ⊢
        have e1 : (0x30 : UInt8).toNat = 48 := rfl
        have e3 : (0x31 : UInt8).toNat = 49 := rfl
        omega
    · exact ⟨0x2d, i ++ f ++ e, by simp, .inl rfl⟩
  subst h
  simp only [List.cons_append, parseValueS]
  have hd : ∀ x : UInt8, isDigit x = false → x ≠ 0x2d → c ≠ x := by
    rintro x hx1 hx2 rfl
    rcases hc with hc | hc
    · exact hx2 hc
    · rw [hx1] at hc; contradiction
  rw [if_neg (hd _ (by decide) (by decide)), if_neg (hd _ (by decide) (by decide)),
    if_neg (hd _ (by decide) (by decide)), if_neg (hd _ (by decide) (by decide)),
    if_neg (hd _ (by decide) (by decide)), if_neg (hd _ (by decide) (by decide)), if_pos hc]

theorem arr_closeS (n d : Nat) (p w r : Bytes) (first : Bool) (hw : Ws w) :
    arrLoopS (n + 1) d (p ++ (w ++ 0x5d :: r)) first (w ++ 0x5d :: r) = some (.ok (p ++ w ++ [0x5d]) r) := by
  unfold arrLoopS
  rw [skipSpaces_ws_append hw, skipSpaces_cons_of_not (by decide)]
  simp only [if_true]
  rw [← List.append_assoc, closeAt_append]

theorem obj_closeS (n d : Nat) (p w r : Bytes) (first : Bool) (hw : Ws w) :
    objLoopS (n + 1) d (p ++ (w ++ 0x7d :: r)) first (w ++ 0x7d :: r) = some (.ok (p ++ w ++ [0x7d]) r) := by
  unfold objLoopS
  rw [skipSpaces_ws_append hw, skipSpaces_cons_of_not (by decide)]
  simp only [if_true]
  rw [← List.append_assoc, closeAt_append]

theorem stackNeed {s : Sym} {b : Bytes} (h : Derives s b) : StackSpec s b := by
  induction h with
  | null =>
    intro r n d _ hn
    obtain ⟨n, rfl⟩ : ∃ m, n = m + 1 := ⟨n - 1, by simp at hn; omega⟩
    cases d with
    | zero => simp [parseValueS, levels]
    | succ d =>
      rw [if_pos (by simp [levels])]
      simp [parseValueS]; exact parseNull_complete r
  | tru =>
    intro r n d _ hn
    obtain ⟨n, rfl⟩ : ∃ m, n = m + 1 := ⟨n - 1, by simp at hn; omega⟩
    cases d with
    | zero => simp [parseValueS, levels]
    | succ d =>
      rw [if_pos (by simp [levels])]
      simp [parseValueS]; exact parseTrue_complete r
  | fls =>
    intro r n d _ hn
    obtain ⟨n, rfl⟩ : ∃ m, n = m + 1 := ⟨n - 1, by simp at hn; omega⟩
    cases d with
    | zero => simp [parseValueS, levels]
    | succ d =>
      rw [if_pos (by simp [levels])]
      simp [parseValueS]; exact parseFalse_complete r
  | num s hs =>
    intro r n d hf hn
    have hpos : 0 < s.length := by
      obtain ⟨c, t, rfl, _⟩ := derives_value_head (.num s hs); simp
    obtain ⟨n, rfl⟩ : ∃ m, n = m + 1 := ⟨n - 1, by omega⟩
    cases d with
    | zero => simp [parseValueS, levels]
    | succ d =>
      rw [if_pos (by simp [levels]), num_dispatchS hs, parseNumber_complete hs hf]
  | str s hs =>
    intro r n d _ hn
    obtain ⟨t, ht⟩ := JString.head hs
    have hpos : 0 < s.length := by rw [ht]; simp
    obtain ⟨n, rfl⟩ : ∃ m, n = m + 1 := ⟨n - 1, by omega⟩
    have := parseString_complete hs r
    cases d with
    | zero => simp [parseValueS, levels]
    | succ d =>
      rw [if_pos (by simp [levels])]
      rw [ht] at this ⊢
      simp only [List.cons_append, parseValueS] at this ⊢
      simp [this]
  | arrNil w hw =>
    intro r n d _ hn
    obtain ⟨n, rfl⟩ : ∃ m, n = m + 3 := ⟨n - 3, by simp at hn; omega⟩
    cases d with
    | zero => rw [if_neg (by simp [levels])]; simp [parseValueS]
    | succ d =>
      rw [if_pos (by simp [levels, levelsL])]
      have := arr_closeS n d [0x5b] w r true hw
      simp only [List.cons_append, List.append_assoc, List.nil_append, parseValueS, parseArrayS] at this ⊢
      rw [if_neg (by decide), if_pos trivial]
      rw [if_neg (by simp; omega), if_neg (by simp)]
      exact this
  | arr xs b hb ih =>
    intro r n d _ hn
    obtain ⟨n, rfl⟩ : ∃ m, n = m + 3 := ⟨n - 3, by simp at hn; omega⟩
    cases d with
    | zero => rw [if_neg (by simp [levels])]; simp [parseValueS]
    | succ d =>
      have h1 := ih [0x5b] r n d (by simp at hn; omega)
      obtain ⟨c, t, hsk, _, hc⟩ := derives_elems_head hb (0x5d :: r)
      simp only [List.cons_append, List.append_assoc, List.nil_append, parseValueS, parseArrayS, arrLoopS] at h1 ⊢
      rw [if_neg (by decide), if_pos trivial]
      rw [if_neg (by simp; omega), if_neg (by simp)]
      rw [hsk] at h1 ⊢
      simp only [if_neg hc, if_true]
      rw [h1]; simp only [levels, Nat.add_le_add_iff_right]
  | objNil w hw =>
    intro r n d _ hn
    obtain ⟨n, rfl⟩ : ∃ m, n = m + 3 := ⟨n - 3, by simp at hn; omega⟩
    cases d with
    | zero => rw [if_neg (by simp [levels])]; simp [parseValueS]
    | succ d =>
      rw [if_pos (by simp [levels, levelsM])]
      have := obj_closeS n d [0x7b] w r true hw
      simp only [List.cons_append, List.append_assoc, List.nil_append, parseValueS, parseObjectS] at this ⊢
      rw [if_pos trivial]
      rw [if_neg (by simp; omega), if_neg (by simp)]
      exact this
  | obj xs b hb ih =>
    intro r n d _ hn
    obtain ⟨n, rfl⟩ : ∃ m, n = m + 3 := ⟨n - 3, by simp at hn; omega⟩
    cases d with
    | zero => rw [if_neg (by simp [levels])]; simp [parseValueS]
    | succ d =>
      have h1 := ih [0x7b] r n d (by simp at hn; omega)
      obtain ⟨t, hsk⟩ := derives_members_head hb (0x7d :: r)
      simp only [List.cons_append, List.append_assoc, List.nil_append, parseValueS, parseObjectS, objLoopS] at h1 ⊢
      rw [if_pos trivial]
      rw [if_neg (by simp; omega), if_neg (by simp)]
      rw [hsk] at h1 ⊢
      simp only [if_true]
      rw [if_neg (by decide)]
      rw [h1]; simp only [levels, Nat.add_le_add_iff_right]
  | elemOne w1 w2 j b h1 h2 hj ih =>
    intro p r n d hn
    obtain ⟨n, rfl⟩ : ∃ m, n = m + 2 := ⟨n - 2, by omega⟩
    obtain ⟨c, t, hb, hc, _⟩ := derives_value_head hj
    have hv := ih (w2 ++ 0x5d :: r) (n + 1) d (follow_of_numStop (numStop_ws_cons h2 (by simp))) (by simp at hn; omega)
    have hs : skipSpaces (w1 ++ b ++ w2 ++ 93 :: r) = b ++ (w2 ++ 93 :: r) := by
      rw [List.append_assoc, List.append_assoc, skipSpaces_ws_append h1, hb, List.cons_append, skipSpaces_cons_of_not hc]
    rw [hs]
    unfold arrItemS
    rw [hv]
    have hl : levelsL [j] = levels j := by simp [levelsL]
    rw [hl]
    by_cases hd : levels j ≤ d
    case neg => rw [if_neg hd, if_neg hd]
    rw [if_pos hd, if_pos hd]
    have := arr_closeS n d (p ++ w1 ++ b) w2 r false h2
    simpa using this
  | elemCons w1 w2 j b xs bs h1 h2 hj hxs ih1 ih2 =>
    intro p r n d hn
    obtain ⟨n, rfl⟩ : ∃ m, n = m + 2 := ⟨n - 2, by omega⟩
    obtain ⟨c, t, hb, hc, _⟩ := derives_value_head hj
    have hv := ih1 (w2 ++ 0x2c :: (bs ++ 0x5d :: r)) (n + 1) d (follow_of_numStop (numStop_ws_cons h2 (by simp))) (by simp at hn; omega)
    have hs : skipSpaces (w1 ++ b ++ w2 ++ 44 :: bs ++ 93 :: r) = b ++ (w2 ++ 44 :: (bs ++ 93 :: r)) := by
      simp only [List.append_assoc]
      rw [skipSpaces_ws_append h1, hb, List.cons_append, skipSpaces_cons_of_not hc]
      simp
    rw [hs]
    unfold arrItemS
    rw [hv]
    have hl : levelsL (j :: xs) ≤ d ↔ levels j ≤ d ∧ levelsL xs ≤ d := by
      simp only [levelsL]; omega
    by_cases hd : levels j ≤ d
    case neg => rw [if_neg hd, if_neg (by rw [hl]; exact fun h => hd h.1)]
    rw [if_pos hd]
    simp only [hl, hd, true_and]
    unfold arrLoopS
    rw [skipSpaces_ws_append h2, skipSpaces_cons_of_not (by decide)]
    simp only
    rw [if_neg (by decide), if_neg (by simp), if_neg (by simp)]
    have h3 := ih2 (p ++ w1 ++ b ++ w2 ++ [0x2c]) r n d (by simp at hn; omega)
    obtain ⟨c', t', hsk, _, hc'⟩ := derives_elems_head hxs (0x5d :: r)
    rw [hsk] at h3 ⊢
    simp only
    rw [if_neg hc']
    simpa using h3
  | memOne w1 w2 w3 w4 k j b h1 h2 h3 h4 hk hj ih =>
    intro p r n d hn
    obtain ⟨n, rfl⟩ : ∃ m, n = m + 2 := ⟨n - 2, by omega⟩
    obtain ⟨c, t, hb, hc, _⟩ := derives_value_head hj
    obtain ⟨t', hk'⟩ := JString.head hk
    have hv := ih (w4 ++ 0x7d :: r) (n + 1) d (follow_of_numStop (numStop_ws_cons h4 (by simp))) (by simp at hn; omega)
    have hs : skipSpaces (w1 ++ k ++ w2 ++ 58 :: (w3 ++ b ++ w4) ++ 125 :: r) = k ++ (w2 ++ 58 :: (w3 ++ (b ++ (w4 ++ 125 :: r)))) := by
      simp only [List.append_assoc]
      rw [skipSpaces_ws_append h1, hk', List.cons_append, skipSpaces_cons_of_not (by decide)]
      simp
    rw [hs]
    unfold objItemS
    rw [parseString_complete hk]
    simp only
    rw [skipSpaces_ws_append h2, skipSpaces_cons_of_not (by decide)]
    simp only
    rw [if_neg (by simp), skipSpaces_ws_append h3]
    have e : skipSpaces (b ++ (w4 ++ 125 :: r)) = b ++ (w4 ++ 125 :: r) := by
      rw [hb, List.cons_append, skipSpaces_cons_of_not hc]
    rw [e, hv]
    have hl : levelsM [(k, j)] = levels j := by simp [levelsM]
    rw [hl]
    by_cases hd : levels j ≤ d
    case neg => rw [if_neg hd, if_neg hd]
    rw [if_pos hd, if_pos hd]
    have := obj_closeS n d (p ++ w1 ++ k ++ w2 ++ 0x3a :: (w3 ++ b)) w4 r false h4
    simpa using this
  | memCons w1 w2 w3 w4 k j b ms bs h1 h2 h3 h4 hk hj hms ih1 ih2 =>
    intro p r n d hn
    obtain ⟨n, rfl⟩ : ∃ m, n = m + 2 := ⟨n - 2, by omega⟩
    obtain ⟨c, t, hb, hc, _⟩ := derives_value_head hj
    obtain ⟨t', hk'⟩ := JString.head hk
    have hv := ih1 (w4 ++ 0x2c :: (bs ++ 0x7d :: r)) (n + 1) d (follow_of_numStop (numStop_ws_cons h4 (by simp))) (by simp at hn; omega)
    have hs : skipSpaces (w1 ++ k ++ w2 ++ 58 :: (w3 ++ b ++ w4 ++ 44 :: bs) ++ 125 :: r) = k ++ (w2 ++ 58 :: (w3 ++ (b ++ (w4 ++ 44 :: (bs ++ 125 :: r))))) := by
      simp only [List.append_assoc]
      rw [skipSpaces_ws_append h1, hk', List.cons_append, skipSpaces_cons_of_not (by decide)]
      simp
    rw [hs]
    unfold objItemS
    rw [parseString_complete hk]
    simp only
    rw [skipSpaces_ws_append h2, skipSpaces_cons_of_not (by decide)]
    simp only
    rw [if_neg (by simp), skipSpaces_ws_append h3]
    have e : skipSpaces (b ++ (w4 ++ 44 :: (bs ++ 125 :: r))) = b ++ (w4 ++ 44 :: (bs ++ 125 :: r)) := by
      rw [hb, List.cons_append, skipSpaces_cons_of_not hc]
    rw [e, hv]
    have hl : levelsM ((k, j) :: ms) ≤ d ↔ levels j ≤ d ∧ levelsM ms ≤ d := by
      simp only [levelsM]; omega
    by_cases hd : levels j ≤ d
    case neg => rw [if_neg hd, if_neg (by rw [hl]; exact fun h => hd h.1)]
    rw [if_pos hd]
    simp only [hl, hd, true_and]
    unfold objLoopS
    rw [skipSpaces_ws_append h4, skipSpaces_cons_of_not (by decide)]
    simp only
    rw [if_neg (by decide), if_neg (by simp), if_neg (by simp)]
    have h5 := ih2 (p ++ w1 ++ k ++ w2 ++ 0x3a :: (w3 ++ b ++ w4 ++ [0x2c])) r n d (by simp at hn; omega)
    obtain ⟨t'', hsk⟩ := derives_members_head hms (0x7d :: r)
    rw [hsk] at h5 ⊢
    simp only
    rw [if_neg (by decide)]
    simpa using h5


end JC

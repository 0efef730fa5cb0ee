import Verif.Model.Encode
/-! Sorting entries by key. -/
namespace JC

/-- The comparison is Go's, the lexicographic order on bytes. -/
theorem bytesLt_iff : ∀ a b : Bytes, bytesLt a b = true ↔ a < b
  | a, [] => by cases a <;> simp [bytesLt]
  | [], _ :: _ => by simp [bytesLt]
  | a :: s, b :: t => by
    simp only [bytesLt, Bool.or_eq_true, decide_eq_true_eq, Bool.and_eq_true, beq_iff_eq, List.cons_lt_cons_iff, bytesLt_iff s t]

theorem blt_irrefl : ∀ a : Bytes, ¬ a < a
  | [] => by simp
  | a :: s => by
    have := blt_irrefl s
    simp only [List.cons_lt_cons_iff, UInt8.lt_irrefl, this, and_false, or_self, not_false_eq_true]

theorem blt_trans : ∀ {a b c : Bytes}, a < b → b < c → a < c
  | _, _, [], _, h => by simp at h
  | _, [], _ :: _, h, _ => by simp at h
  | [], _ :: _, _ :: _, _, _ => by simp
  | a :: s, b :: t, c :: u, h1, h2 => by
    simp only [List.cons_lt_cons_iff] at *
    rcases h1 with h1 | ⟨rfl, h1⟩ <;> rcases h2 with h2 | ⟨rfl, h2⟩
    · exact .inl (UInt8.lt_trans h1 h2)
    · exact .inl h1
    · exact .inl h2
    · exact .inr ⟨rfl, blt_trans h1 h2⟩

theorem blt_total : ∀ a b : Bytes, a < b ∨ a = b ∨ b < a
  | [], [] => by simp
  | [], _ :: _ => by simp
  | _ :: _, [] => by simp
  | a :: s, b :: t => by
    simp only [List.cons_lt_cons_iff, List.cons.injEq]
    have h := blt_total s t
    have hab : a < b ∨ a = b ∨ b < a := by
      simp only [UInt8.lt_iff_toNat_lt, ← UInt8.toNat_inj]; omega
    rcases hab with h1 | rfl | h1
    · exact .inl (.inl h1)
    · rcases h with h | rfl | h
      · exact .inl (.inr ⟨rfl, h⟩)
      · exact .inr (.inl ⟨rfl, rfl⟩)
      · exact .inr (.inr (.inr ⟨rfl, h⟩))
    · exact .inr (.inr (.inl h1))

section
variable {α : Type} (key : α → Bytes)

theorem insertBy_perm (x : α) : ∀ l, (insertBy key x l).Perm (x :: l)
  | [] => .refl _
  | y :: ys => by
    simp only [insertBy]
    split
    · exact ((insertBy_perm x ys).cons y).trans (.swap x y ys)
    · exact .refl _

theorem sortBy_perm : ∀ l, (sortBy key l).Perm l
  | [] => .refl _
  | x :: xs => (insertBy_perm key x _).trans ((sortBy_perm xs).cons x)

/-- No element is after one with a greater key. -/
def SortedBy (l : List α) : Prop := l.Pairwise fun x y => ¬ key y < key x

theorem insertBy_sorted (x : α) : ∀ l, SortedBy key l → SortedBy key (insertBy key x l)
  | [], _ => by simp [insertBy, SortedBy]
  | y :: ys, h => by
    unfold SortedBy at *
    simp only [insertBy]
    rw [List.pairwise_cons] at h
    split
    · rename_i hlt
      rw [bytesLt_iff] at hlt
      rw [List.pairwise_cons]
      refine ⟨?_, insertBy_sorted x ys h.2⟩
      intro z hz hzy
      rcases List.mem_cons.1 ((insertBy_perm key x ys).mem_iff.1 hz) with rfl | hz
      · exact blt_irrefl _ (blt_trans hlt hzy)
      · exact h.1 z hz hzy
    · rename_i hlt
      have hlt : ¬ key y < key x := by rw [← bytesLt_iff]; exact hlt
      rw [List.pairwise_cons]
      refine ⟨?_, List.pairwise_cons.2 h⟩
      intro z hz hzx
      rcases List.mem_cons.1 hz with rfl | hz
      · exact hlt hzx
      · rcases blt_total (key y) (key x) with h1 | h1 | h1
        · exact hlt h1
        · rw [← h1] at hzx; exact h.1 z hz hzx
        · exact h.1 z hz (blt_trans hzx h1)

theorem sortBy_sorted : ∀ l, SortedBy key (sortBy key l)
  | [] => .nil
  | x :: xs => insertBy_sorted key x _ (sortBy_sorted xs)

theorem sorted_unique {l l' : List α} (hp : l.Perm l') (h : SortedBy key l) (h' : SortedBy key l') (hn : (l.map key).Nodup) :
    l = l' := by
  refine List.Perm.eq_of_pairwise (le := fun x y => ¬ key y < key x) ?_ h h' hp
  intro a b ha hb h1 h2
  have he : key a = key b := by
    rcases blt_total (key a) (key b) with h | h | h
    · exact absurd h h2
    · exact h
    · exact absurd h h1
  have hb' := hp.mem_iff.2 hb
  clear hp h h' h1 h2 hb
  induction l with
  | nil => cases ha
  | cons x xs ih =>
    rw [List.map_cons, List.nodup_cons] at hn
    rcases List.mem_cons.1 ha with rfl | ha' <;> rcases List.mem_cons.1 hb' with rfl | hb''
    · rfl
    · exact absurd (List.mem_map.2 ⟨b, hb'', he.symm⟩) hn.1
    · exact absurd (List.mem_map.2 ⟨a, ha', he⟩) hn.1
    · exact ih hn.2 ha' hb''

/-- With distinct keys the result depends only on the set of entries. -/
theorem sortBy_perm_eq {l l' : List α} (hp : l.Perm l') (hn : (l.map key).Nodup) : sortBy key l = sortBy key l' := by
  refine sorted_unique key (((sortBy_perm key l).trans hp).trans (sortBy_perm key l').symm) (sortBy_sorted key l) (sortBy_sorted key l') ?_
  exact ((sortBy_perm key l).map key).nodup_iff.2 hn

theorem sortBy_of_sorted {l : List α} (h : SortedBy key l) (hn : (l.map key).Nodup) : sortBy key l = l :=
  sorted_unique key (sortBy_perm key l) (sortBy_sorted key l) h (((sortBy_perm key l).map key).nodup_iff.2 hn)

end

end JC

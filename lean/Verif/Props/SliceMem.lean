import Verif.Lemmas.SliceMem
/-!
C72: decoding a slice stays within its memory.
-/
namespace JC.Props
open JC Spec

/-- On memory `decodeSlice` does what it does on lists: it uses no memory outside of arrays, and leaves the slice, the
rest of the text and the error that `Model/Decode.lean` says, whatever the decoder of the elements does. -/
theorem C72_same (dec : Dec) (z : DV) (h : SHeap) (s : Hdr) (v : DV) (b : Bytes) (hv : HoldsSlice z h s v) :
    SameRes z (decodeSliceM dec z h s b) (decodeSlice dec z b v) := by
  rw [decodeSlice_eq]
  unfold decodeSliceM
  split
  · exact .ok (.nil ⟨Nat.le_refl _, rfl⟩ rfl)
  · cases b with
    | nil => exact .err hv
    | cons c t =>
      simp only []
      split
      · exact .err hv
      · apply sliceLoopM_same
        cases hv with
        | nil ok hd =>
          refine ⟨⟨Nat.zero_le _, ok.2⟩, rfl, 0, ?_⟩
          have e : h.cells { s with len := 0 } = h.cells s := rfl
          rw [e]
          simp [SHeap.cells, hd, sliceMem]
        | slice d m k ok hd hl hc =>
          refine ⟨⟨Nat.zero_le _, ok.2⟩, rfl, k, ?_⟩
          have e : h.cells { s with len := 0 } = h.cells s := rfl
          rw [e, hc]
          simp [sliceMem]

theorem inv_start (z : DV) (h : SHeap) (s : Hdr) (ok : HdrOk h s) : Inv z h { s with len := 0 } [] (h.cells s) :=
  ⟨⟨Nat.zero_le _, ok.2⟩, rfl, 0, by simp; rfl⟩

theorem own_start (h : SHeap) (s : Hdr) : Own h s h { s with len := 0 } := ⟨around_refl h s, .inl ⟨rfl, rfl, rfl, rfl⟩⟩

theorem mem_own (dec : Dec) (z : DV) (h : SHeap) (s : Hdr) (b : Bytes) (h' : SHeap) (s' : Hdr) (ok : HdrOk h s)
    (hm : MemOf (decodeSliceM dec z h s b) = some (h', s')) :
    h' = h ∨ ((∃ d, Own h s h' { s' with data := d }) ∧ s'.len ≤ b.length) := by
  unfold decodeSliceM at hm
  split at hm
  · simp only [MemOf] at hm; injection hm with hm; injection hm with e1 e2
    exact .inl e1.symm
  · split at hm
    · simp only [MemOf] at hm; injection hm with hm; injection hm with e1 e2
      exact .inl e1.symm
    · rename_i c t _
      split at hm
      · simp only [MemOf] at hm; injection hm with hm; injection hm with e1 e2
        exact .inl e1.symm
      · have := sliceLoopM_own dec z _ h s _ _ _ _ _ _ _ _ (inv_start z h s ok) (own_start h s) hm
        exact .inr ⟨this.1, by have := this.2; simp only [] at this; omega⟩

/-- It changes nothing but the elements of the slice up to its capacity: other arrays, and what lies before and behind
the slice in its own array, stay as they are, whether it succeeds or not. -/
theorem C72_kept (dec : Dec) (z : DV) (h : SHeap) (s : Hdr) (b : Bytes) (h' : SHeap) (s' : Hdr) (ok : HdrOk h s)
    (hm : MemOf (decodeSliceM dec z h s b) = some (h', s')) : KeptAround h s h' := by
  rcases mem_own dec z h s b h' s' ok hm with rfl | ⟨⟨d, own⟩, -⟩
  · exact around_refl _ _
  · exact own.kept

/-- The arrays it makes have at most four cells for each byte of the text and 20 more, all together; and it makes none
as long as the elements fit into the slice. -/
theorem C72_memory (dec : Dec) (z : DV) (h : SHeap) (s : Hdr) (b : Bytes) (h' : SHeap) (s' : Hdr) (ok : HdrOk h s)
    (hm : MemOf (decodeSliceM dec z h s b) = some (h', s')) :
    newCells h h' ≤ 4 * b.length + 20 ∧ (s'.len < s.cap → h'.length = h.length) := by
  have zero : ∀ h' : SHeap, h'.length = h.length → newCells h h' = 0 := by
    intro h' e
    unfold newCells
    rw [List.drop_of_length_le (by omega)]; rfl
  rcases mem_own dec z h s b h' s' ok hm with rfl | ⟨⟨d, own⟩, hl⟩
  · exact ⟨by rw [zero _ rfl]; omega, fun _ => rfl⟩
  · rcases own.mine with ⟨-, -, -, e⟩ | ⟨-, h1, h2, h3⟩
    · exact ⟨by rw [zero _ e]; omega, fun _ => e⟩
    · simp only [] at h1 h2 h3
      exact ⟨by omega, fun h => by omega⟩

/-- The size of an element rounded up to its alignment is the least multiple of the alignment that is not below it. -/
theorem C72_align (a size : Nat) (ha : 0 < a) :
    size ≤ align a size ∧ a ∣ align a size ∧ ∀ m, a ∣ m → size ≤ m → align a size ≤ m := by
  unfold align
  have hdm := Nat.div_add_mod size a
  have hlt := Nat.mod_lt size ha
  by_cases hz : size % a = 0
  · rw [if_neg (by simp [hz])]
    exact ⟨Nat.le_refl _, Nat.dvd_of_mod_eq_zero hz, fun m _ h => h⟩
  · rw [if_pos ⟨by omega, hz⟩]
    have e : (size / a + 1) * a = a * (size / a) + a := by rw [Nat.add_mul, Nat.one_mul, Nat.mul_comm]
    refine ⟨by omega, ⟨size / a + 1, Nat.mul_comm _ _⟩, ?_⟩
    rintro m ⟨k, rfl⟩ hm
    have : size / a < k := Nat.div_lt_of_lt_mul (by
      rcases Nat.lt_or_ge size (a * k) with h | h
      · exact h
      · have : size = a * k := by omega
        rw [this, Nat.mul_mod_right] at hz
        exact absurd rfl hz)
    calc (size / a + 1) * a ≤ k * a := Nat.mul_le_mul_right _ this
      _ = a * k := Nat.mul_comm _ _

/-- Elements lie side by side, aligned, and within `n` times the size. -/
theorem C72_stride (p a size n i j : Nat) (ha : 0 < a) (hp : a ∣ p) (hij : i < j) (hj : j < n) :
    a ∣ elemAddr p a size i ∧ elemAddr p a size i + size ≤ elemAddr p a size j
      ∧ elemAddr p a size j + size ≤ p + n * align a size := by
  obtain ⟨h1, h2, -⟩ := C72_align a size ha
  unfold elemAddr
  have m1 : (i + 1) * align a size ≤ j * align a size := Nat.mul_le_mul_right _ hij
  have m2 : (j + 1) * align a size ≤ n * align a size := Nat.mul_le_mul_right _ hj
  rw [Nat.add_mul, Nat.one_mul] at m1 m2
  exact ⟨Nat.dvd_add hp (Nat.dvd_trans h2 (Nat.dvd_mul_left _ _)), by omega, by omega⟩

/-! Beside them -/

/-- A slice of two elements in the middle of an array of four, with room for two. -/
def midHeap : SHeap := [[.bool true, .bool true, .bool true, .bool true]]
def midHdr : Hdr := ⟨.at 0, 1, 2, 2⟩

/-- Two elements are decoded in place and nothing around them changes. -/
example : decodeSliceM decodeBool (.bool false) midHeap midHdr (bs! "[false,false]")
    = .ok [[.bool true, .bool false, .bool false, .bool true]] ⟨.at 0, 1, 2, 2⟩ [] := by
  with_unfolding_all rfl

/-- The third goes to a new array of twice the room; the old one keeps the first two. -/
example : decodeSliceM decodeBool (.bool false) midHeap midHdr (bs! "[false,false,true]")
    = .ok [[.bool true, .bool false, .bool false, .bool true], [.bool false, .bool false, .bool true, .bool false]]
      ⟨.at 1, 0, 3, 4⟩ [] := by
  with_unfolding_all rfl

example : HdrOk midHeap midHdr := ⟨by decide, _, rfl, by decide⟩
example : align 8 12 = 16 ∧ align 4 12 = 12 := by decide

end JC.Props

import Verif.Lemmas.Mass
/-!
How the contents of a destination grow: the decoding functions (property C96).
-/
namespace JC
open Spec Props

/-- What a decoding function did to contents of mass `M`, with `n` bytes of text and `q` for each; `z` is saved. -/
def Got (z M q n : Nat) : DRes → Prop
  | .ok v r => mass v + z + q * r.length ≤ M + q * n
  | .err v _ _ => mass v + z ≤ M + q * (n + 1)
  | .crash _ => True

theorem Got.le {z M M' q n n' : Nat} {d : DRes} (h : Got z M q n d) (hl : M + q * n ≤ M' + q * n') : Got z M' q n' d := by
  have e1 : q * (n + 1) = q * n + q := by rw [Nat.mul_add, Nat.mul_one]
  have e2 : q * (n' + 1) = q * n' + q := by rw [Nat.mul_add, Nat.mul_one]
  cases d with
  | ok v r => simp only [Got] at h ⊢; omega
  | err v r e => simp only [Got] at h ⊢; omega
  | crash c => trivial

/-- A decoding function adds at most `q` for each byte that it consumes, and saves `z`. -/
def Pays (P : DV → Prop) (z q : Nat) (f : Dec) : Prop := ∀ b p, P p → Got z (mass p) q b.length (f b p)

/-- A decoding function adds at most `q` for each byte that it consumes. -/
def Grow (P : DV → Prop) (q : Nat) (f : Dec) : Prop := Pays P 0 q f

theorem got_inputErr {q n : Nat} {b : Bytes} {p : DV} : Got 0 (mass p) q n (inputErr b p) := by
  simp only [inputErr, Got]; omega

theorem got_same {q : Nat} {b r : Bytes} {p : DV} (h : r.length ≤ b.length) : Got 0 (mass p) q b.length (.ok p r) := by
  have := Nat.mul_le_mul_left q h
  simp only [Got]; omega

theorem got_one {q : Nat} {b r : Bytes} {v p : DV} (h1 : mass v = 1) (h : r.length ≤ b.length) : Got 0 (mass p) q b.length (.ok v r) := by
  have := Nat.mul_le_mul_left q h
  have := mass_pos p
  simp only [Got]; omega

theorem got_err {q n : Nat} {r : Bytes} {e : Err} {p : DV} : Got 0 (mass p) q n (.err p r e) := by
  simp only [Got]; omega

/-- Contents of `k + 1`, for `k` bytes at most. -/
theorem got_text {q k : Nat} {b r : Bytes} {v p : DV} (hq : 3 ≤ q) (h1 : mass v = k + 1) (h : k + 3 * r.length ≤ 3 * b.length) :
    Got 0 (mass p) q b.length (.ok v r) := by
  have h0 := mass_pos p
  obtain ⟨a, rfl⟩ : ∃ a, q = 3 + a := ⟨q - 3, by omega⟩
  have h2 : a * r.length ≤ a * b.length := Nat.mul_le_mul_left _ (by omega)
  simp only [Got, Nat.add_mul]; omega

theorem Grow.mono {P : DV → Prop} {q q' : Nat} {f : Dec} (h : Grow P q f) (hp : Prog f) (hq : q ≤ q') : Grow P q' f := by
  intro b p hP
  have h0 := h b p hP
  have h1 := hp b p
  obtain ⟨a, rfl⟩ := Nat.exists_eq_add_of_le hq
  cases hd : f b p with
  | ok v r =>
    rw [hd] at h0
    have := h1 v r hd
    have h2 : a * r.length ≤ a * b.length := Nat.mul_le_mul_left _ (by omega)
    simp only [Got, Nat.add_mul] at h0 ⊢; omega
  | err v r e =>
    rw [hd] at h0
    simp only [Got, Nat.add_mul] at h0 ⊢
    have : 0 ≤ a * (b.length + 1) := Nat.zero_le _
    omega
  | crash c => trivial

theorem Grow.pays {P : DV → Prop} {q : Nat} {f : Dec} (z : Nat) (h : Grow P q f) (hp : Prog f) : Pays P z (q + z) f := by
  intro b p hP
  have h0 := h b p hP
  have h1 := hp b p
  cases hd : f b p with
  | ok v r =>
    rw [hd] at h0
    have := h1 v r hd
    have h2 : z * (r.length + 1) ≤ z * b.length := Nat.mul_le_mul_left _ (by omega)
    simp only [Nat.mul_add, Nat.mul_one] at h2
    simp only [Got, Nat.add_mul] at h0 ⊢; omega
  | err v r e =>
    rw [hd] at h0
    have h2 : z * 1 ≤ z * (b.length + 1) := Nat.mul_le_mul_left _ (by omega)
    simp only [Nat.mul_one] at h2
    simp only [Got, Nat.add_mul] at h0 ⊢; omega
  | crash c => trivial

section
variable {P : DV → Prop} {q : Nat} {dec : Dec} {z : DV}

theorem skip_mul (q : Nat) (b : Bytes) : q * (skipSpaces b).length ≤ q * b.length := Nat.mul_le_mul_left _ (skipSpaces_length_le b)

theorem tail_mul (q : Nat) (b : Bytes) : q * b.tail.length ≤ q * b.length := Nat.mul_le_mul_left _ (by simp)

theorem sliceLoop_got (hp : Pays P (mass z) q dec) (hd : Pres P dec) (hz : P z) {input : Bytes} :
    ∀ n (done mem : List DV) b, (∀ y ∈ mem, P y) → Got 0 (massL done + massL mem + 1) q b.length (sliceLoop dec z input n done mem b) := by
  intro n
  induction n with
  | zero => intro done mem b _; simp [sliceLoop, Got]
  | succ n ih =>
    intro done mem b h2
    have hs := skip_mul q b
    have elem : ∀ b, Got 0 (massL done + massL mem + 1) q b.length (sliceElem dec z input n done mem b) := by
      intro b
      have h0 := hp b _ (mem_headD hz h2)
      have hh := massL_head z mem
      unfold sliceElem
      cases he : dec b (mem.headD z) with
      | crash c => trivial
      | err x r e =>
        rw [he] at h0
        simp only [Got] at h0
        simp only []
        split <;> (simp only [Got, mass, massL]; omega)
      | ok x r =>
        rw [he] at h0
        simp only [Got] at h0
        refine (ih (done ++ [x]) mem.tail r (mem_tail h2)).le ?_
        rw [massL_snoc]; omega
    rw [sliceLoop_succ]
    split
    · have := tail_mul q (skipSpaces b)
      simp only [Got, mass]; omega
    · split
      · exact (elem _).le (by omega)
      · split
        · simp only [Got, mass]; omega
        · rename_i c t hc
          split
          · simp only [Got, mass]; omega
          · have h3 := skip_mul q t
            rw [hc] at hs
            have h4 : q * t.length ≤ q * (c :: t).length := Nat.mul_le_mul_left _ (by simp)
            exact (elem _).le (by omega)

theorem sliceMem_mass (p : DV) : massL (sliceMem p) + 1 ≤ mass p := by
  cases p
  case slice xs sp => simp only [sliceMem, mass, massL_append]; omega
  all_goals simp only [sliceMem, massL]; exact mass_pos _

theorem slice_got (hp : Pays P (mass z) q dec) (hd : Pres P dec) (hz : P z) {b : Bytes} {p : DV} (hmem : ∀ y ∈ sliceMem p, P y) :
    Got 0 (mass p) q b.length (decodeSlice dec z b p) := by
  rw [decodeSlice_eq]
  split
  · exact got_one (by simp [mass]) (by simp)
  · split
    · exact got_inputErr
    · split
      · exact got_inputErr
      · rename_i c t _ _
        have h1 := sliceLoop_got hp hd hz (input := c :: t) ((c :: t).length + 1) [] (sliceMem p) t hmem
        have h2 := sliceMem_mass p
        have h4 : q * t.length ≤ q * (c :: t).length := Nat.mul_le_mul_left _ (by simp)
        exact h1.le (by simp only [massL]; omega)

theorem arrayRest_got {M : Nat} {p : DV} (hm : mass p ≤ M) : ∀ n b, Got 0 M q b.length (arrayRest p n b) := by
  intro n
  induction n with
  | zero => intro b; simp [arrayRest, Got]
  | succ n ih =>
    intro b
    have hs := skip_mul q b
    simp only [arrayRest]
    split
    · simp only [Got]; omega
    · rename_i c t hc
      rw [hc] at hs
      have h4 : q * t.length ≤ q * (c :: t).length := Nat.mul_le_mul_left _ (by simp)
      split
      · simp only [Got]; omega
      · split
        · simp only [Got]; omega
        · rename_i r he
          have hl := parseValue_length he
          refine (ih r).le ?_
          have h5 := skip_mul q t
          split at hl
          · have := Nat.mul_le_mul_left q (Nat.le_of_lt hl); omega
          · have := Nat.mul_le_mul_left q (Nat.le_of_lt hl); rw [hc] at this; omega

theorem arrayElems_got (hp : Pays P (mass z) q dec) (hd : Pres P dec) (hz : P z) :
    ∀ n (first : Bool) (done mem : List DV) b, (∀ y ∈ mem, P y) → Got 0 (massL done + massL mem + 1) q b.length (arrayElems dec z first done n mem b) := by
  intro n
  induction n with
  | zero =>
    intro first done mem b _
    rw [arrayElems]
    exact arrayRest_got (by simp only [mass, massL_append]; omega) _ _
  | succ n ih =>
    intro first done mem b h2
    have hs := skip_mul q b
    have elem : ∀ b, Got 0 (massL done + massL mem + 1) q b.length (arrayElem dec z done n mem b) := by
      intro b
      have h0 := hp b _ (mem_headD hz h2)
      have hh := massL_head z mem
      unfold arrayElem
      cases he : dec b (mem.headD z) with
      | crash c => trivial
      | err x r e =>
        rw [he] at h0
        simp only [Got] at h0
        simp only [Got, mass, massL_append, massL]; omega
      | ok x r =>
        rw [he] at h0
        simp only [Got] at h0
        refine (ih false (done ++ [x]) mem.tail r (mem_tail h2)).le ?_
        rw [massL_snoc]; omega
    cases first with
    | true => rw [arrayElems_first]; exact (elem _).le (by omega)
    | false =>
      rw [arrayElems_next]
      split
      · simp only [Got, mass, massL_append]; omega
      · rename_i c t hc
        rw [hc] at hs
        have h3 := skip_mul q t
        have h4 : q * t.length ≤ q * (c :: t).length := Nat.mul_le_mul_left _ (by simp)
        split
        · exact (elem _).le (by omega)
        · split
          · simp only [Got, mass, massL_append]; omega
          · simp only [Got, mass, massL_append]; omega

theorem arrMem_mass (p : DV) : massL (arrMem p) + 1 ≤ mass p := by
  cases p
  case array xs => simp only [arrMem, mass]; omega
  all_goals simp only [arrMem, massL]; exact mass_pos _

theorem array_got (hp : Pays P (mass z) q dec) (hd : Pres P dec) (hz : P z) (n : Nat) {b : Bytes} {p : DV} (hmem : ∀ y ∈ arrMem p, P y) :
    Got 0 (mass p) q b.length (decodeArray n dec z b p) := by
  rw [decodeArray_eq]
  split
  · exact got_same (by simp)
  · split
    · exact got_inputErr
    · split
      · exact got_inputErr
      · rename_i c t _ _
        have h1 := arrayElems_got hp hd hz n true [] (arrMem p) t hmem
        have h2 := arrMem_mass p
        have h4 : q * t.length ≤ q * (c :: t).length := Nat.mul_le_mul_left _ (by simp)
        exact h1.le (by simp only [massL]; omega)

/-! ### maps -/

theorem decodeKey_mass {k : KTy} {b : Bytes} {x : DV} {r : Bytes} (h : decodeKey k b = .ok x r) : keyMass (keyOf x) + 3 * r.length ≤ 3 * b.length := by
  have hl := decodeKey_len h
  have one : ∀ m : MK, (∀ s, m ≠ .str s) → keyMass m + 3 * r.length ≤ 3 * b.length := by
    intro m hm
    cases m with
    | str s => exact absurd rfl (hm s)
    | int z => simp only [keyMass]; omega
    | user s => simp only [keyMass]; omega
  have nil : keyMass (.str []) + 3 * r.length ≤ 3 * b.length := by simp only [keyMass, List.length_nil]; omega
  cases k with
  | str =>
    simp only [decodeKey, decodeString] at h
    split at h
    · injection h with h _; subst h; exact nil
    · split at h
      · cases h
      · split at h
        · exact absurd h inputErr_ne
        · cases h
      · rename_i s r' n e
        injection h with h h'; subst h h'
        have := unquote_len3 e
        simp only [keyOf, keyMass]; omega
  | int k =>
    have hb : ∀ b x r, decodeInt k b (.int 0) = .ok x r → ∃ z, x = .int z := by
      intro b x r h
      unfold decodeInt at h
      simp only [] at h
      repeat' split at h
      all_goals first
        | (injection h with h _; exact ⟨_, h.symm⟩)
        | cases h
    have hx : ∃ z, x = .int z := by
      simp only [decodeKey, decodeFromString] at h
      split at h
      · exact hb _ _ _ h
      · split at h
        · cases h
        · exact absurd h inputErr_ne
        · split at h
          · cases h
          · cases h
          · rename_i e
            split at h
            · cases h
            · injection h with h _; subst h
              exact hb _ _ _ e
    obtain ⟨z, rfl⟩ := hx
    exact one _ (by intro s; simp [keyOf])
  | text tk =>
    simp only [decodeKey] at h
    have hb : ∀ b x r, decodeTextUnmarshaler tk.answer b (.user none) = .ok x r → ∃ z, x = .user z := by
      intro b x r h
      unfold decodeTextUnmarshaler at h
      repeat' split at h
      all_goals first
        | (injection h with h _; exact ⟨_, h.symm⟩)
        | exact absurd h inputErr_ne
        | cases h
    split at h
    · cases h
    · cases h
    · rename_i v r' e
      injection h with h _; subst h
      obtain ⟨y, rfl⟩ := hb _ _ _ e
      cases y with
      | none => exact nil
      | some s => exact one _ (by intro s; simp [TextKey.store, keyOf])

theorem memberKey_mass {key : Bytes → DRes} {f : DV → Nat} (hk : ∀ b x r, key b = .ok x r → f x + 3 * r.length ≤ 3 * b.length) {first : Bool}
    {b : Bytes} {d : DV} {r : Bytes} (h : memberKey key first b = .inr (.inr (d, r))) : f d + 3 * r.length ≤ 3 * b.length := by
  have one : ∀ b, memberKey key true b = .inr (.inr (d, r)) → f d + 3 * r.length ≤ 3 * b.length := by
    intro b h
    unfold memberKey at h
    simp only [if_true] at h
    split at h
    · simp at h
    · split at h
      · simp at h
      · simp at h
      · rename_i r0 e
        have h0 := hk _ _ _ e
        have h1 := skipSpaces_length_le r0
        split at h
        · simp at h
        · rename_i c t e2
          rw [e2] at h1; simp at h1
          split at h
          · simp at h
          · injection h with h; injection h with h; injection h with h' h; subst h h'
            have := skipSpaces_length_le t
            omega
  cases first with
  | true => exact one b h
  | false =>
    cases b with
    | nil => simp [memberKey] at h
    | cons c t =>
      by_cases hc : c = 0x2c
      · subst hc
        rw [memberKey_comma] at h
        have := one _ h
        have := skipSpaces_length_le t
        simp; omega
      · simp [memberKey, hc] at h

theorem three_mul {q k r b : Nat} (hq : 3 ≤ q) (h : k + 3 * r ≤ 3 * b) : k + q * r ≤ q * b := by
  obtain ⟨a, rfl⟩ : ∃ a, q = 3 + a := ⟨q - 3, by omega⟩
  have h2 : a * r ≤ a * b := Nat.mul_le_mul_left _ (by omega)
  simp only [Nat.add_mul]; omega

theorem mapLoopD_got {k : KTy} (hp : Pays P (mass z) q dec) (hz : P z) (hq : 3 ≤ q) {p : DV} {fresh : Bool} {input : Bytes} :
    ∀ n first (m : List (MK × DV)) b M, massE m + 1 ≤ M → mass p ≤ M → Got 0 M q b.length (mapLoopD k dec z p fresh input n first m b) := by
  intro n
  induction n with
  | zero => intro first m b M _ _; simp [mapLoopD, Got]
  | succ n ih =>
    intro first m b M hM hpM
    have hs := skip_mul q b
    have hdest : mass (if fresh then p else .map m) ≤ M := by
      split
      · exact hpM
      · simp only [mass]; omega
    rw [mapLoopD]
    simp only []
    split
    · have := tail_mul q (skipSpaces b)
      simp only [Got, mass]; omega
    · split
      · trivial
      · simp only [Got]; omega
      · rename_i kv b' e
        have h1 := three_mul hq (memberKey_mass (fun b x r h => decodeKey_mass h) e)
        have h0 := hp b' z hz
        split
        · trivial
        · split <;> (simp only [Got]; omega)
        · rename_i v r e2
          rw [e2] at h0
          simp only [Got] at h0
          have h3 := massE_set (keyOf kv) v m
          refine (ih false _ r (M + keyMass (keyOf kv) + mass v) (by omega) (by omega)).le ?_
          omega

theorem map_got {k : KTy} (hp : Pays P (mass z) q dec) (hz : P z) (hq : 3 ≤ q) {b : Bytes} {p : DV} :
    Got 0 (mass p) q b.length (decodeMap k dec z b p) := by
  unfold decodeMap
  split
  · exact got_one (by simp [mass]) (by simp)
  · split
    · exact got_inputErr
    · split
      · exact got_inputErr
      · rename_i c t _ _
        have h4 : q * t.length ≤ q * (c :: t).length := Nat.mul_le_mul_left _ (by simp)
        have h0 := mass_pos p
        split
        · rename_i m
          exact (mapLoopD_got hp hz hq _ _ _ t (mass (.map m)) (by simp only [mass]; omega) (Nat.le_refl _)).le (by omega)
        · exact (mapLoopD_got hp hz hq _ _ _ t (mass p) (by simp only [massE]; omega) (Nat.le_refl _)).le (by omega)

end

end JC

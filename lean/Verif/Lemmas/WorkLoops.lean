import Verif.Lemmas.WorkBound
/-!
How many steps the loops over elements and members take, and so the decoding functions of arrays, slices, maps, structs and
pointers.
-/
namespace JC
open Spec Props

/-- The steps of a loop on `b`: as `Cost`, but `c0` more, and on an error `C` more. -/
def CostL (K c0 C E : Nat) (b : Bytes) (x : DRes × Nat) : Prop :=
  match x.1 with
  | .ok _ r => r.length < b.length ∧ x.2 + K * r.length ≤ K * b.length + c0
  | _ => x.2 ≤ E * (b.length + 1) + C + c0

theorem lift_excess {K m n x c : Nat} (h : x + 50 * m ≤ 50 * n + c) (hm : m ≤ n) (hK : 50 ≤ K) : x + K * m ≤ K * n + c := by
  obtain ⟨d, rfl⟩ := Nat.exists_eq_add_of_le hm
  rw [Nat.mul_add] at h ⊢
  have := Nat.mul_le_mul_right d hK
  omega

/-- What an element and the rest of the loop take together. -/
theorem costL_next {K c0 C E w l : Nat} {b b' r : Bytes} {y : DRes × Nat} (hw : w + 50 * b'.length ≤ 50 * b.length + c0) (hb : b'.length ≤ b.length)
    (hd : r.length < b'.length ∧ l + K * r.length ≤ K * b'.length) (hK : 50 ≤ K) (hE : K ≤ E) (hn : CostL K 0 C E r y) :
    CostL K c0 C E b (tick w (tick l y)) := by
  obtain ⟨h1, h2⟩ := hd
  have h3 := lift_excess hw hb hK
  have h4 := lift_excess hw hb (Nat.le_trans hK hE)
  have h5 := lift h2 (by omega) hE
  have e1 : E * (b.length + 1) = E * b.length + E := Nat.mul_succ _ _
  have e2 : E * (r.length + 1) = E * r.length + E := Nat.mul_succ _ _
  obtain ⟨y, m⟩ := y
  cases y with
  | ok v r2 =>
    obtain ⟨h6, h7⟩ := hn
    simp only [] at h6 h7
    exact ⟨by omega, show m + l + w + _ ≤ _ by omega⟩
  | err v r2 e => simp only [CostL] at hn; exact (show m + l + w ≤ _ by omega)
  | crash c => simp only [CostL] at hn; exact (show m + l + w ≤ _ by omega)

theorem costL_elem {K c0 C E w : Nat} {b b' : Bytes} {d : DRes × Nat} {o : PR × Nat} {dest : DV → DV} {next : DV → Bytes → DRes × Nat}
    (hw : w + 50 * b'.length ≤ 50 * b.length + c0) (hb : b'.length ≤ b.length) (hd : Cost K 0 E b' d) (ho : o.2 ≤ C)
    (hK : 50 ≤ K) (hE : K ≤ E) (hn : ∀ x r, d.1 = .ok x r → CostL K 0 C E r (next x r)) :
    CostL K c0 C E b (tick w (elemW d o dest next)) := by
  have h4 := lift_excess hw hb (Nat.le_trans hK hE)
  have e1 : E * (b.length + 1) = E * b.length + E := Nat.mul_succ _ _
  have e2 : E * (b'.length + 1) = E * b'.length + E := Nat.mul_succ _ _
  obtain ⟨d, l⟩ := d
  cases d with
  | crash c => simp only [Cost] at hd; exact (show l + w ≤ _ by omega)
  | err x r e =>
    simp only [Cost] at hd
    obtain ⟨o, k⟩ := o
    simp only [] at ho
    cases o <;> exact (show l + k + w ≤ _ by omega)
  | ok x r => exact costL_next hw hb ⟨hd.1, hd.2⟩ hK hE (hn x r rfl)

theorem costL_array {K c0 C E w : Nat} {b b' : Bytes} {d : DRes × Nat} {dest : DV → DV} {next : DV → Bytes → DRes × Nat}
    (hw : w + 50 * b'.length ≤ 50 * b.length + c0) (hb : b'.length ≤ b.length) (hd : Cost K 0 E b' d)
    (hK : 50 ≤ K) (hE : K ≤ E) (hn : ∀ x r, d.1 = .ok x r → CostL K 0 C E r (next x r)) :
    CostL K c0 C E b (tick w (arrayNextW d dest next)) := by
  have h4 := lift_excess hw hb (Nat.le_trans hK hE)
  have e1 : E * (b.length + 1) = E * b.length + E := Nat.mul_succ _ _
  have e2 : E * (b'.length + 1) = E * b'.length + E := Nat.mul_succ _ _
  obtain ⟨d, l⟩ := d
  cases d with
  | crash c => simp only [Cost] at hd; exact (show l + w ≤ _ by omega)
  | err x r e => simp only [Cost] at hd; exact (show l + w ≤ _ by omega)
  | ok x r => exact costL_next hw hb ⟨hd.1, hd.2⟩ hK hE (hn x r rfl)

/-- The loop stops with an error after few steps. -/
theorem costL_stop {K c0 C E w : Nat} {b r : Bytes} {v : DV} {e : Err} (hE : 50 ≤ E) (hw : w ≤ 50 * b.length + 50) : CostL K c0 C E b (.err v r e, w) := by
  have h := Nat.mul_le_mul_right (b.length + 1) hE
  exact (show w ≤ _ by omega)

theorem costL_err {K c0 C E w : Nat} {b r : Bytes} {v : DV} {e : Err} (hE : 200 ≤ E) (hw : w ≤ 200 * b.length + 200) : CostL K c0 C E b (.err v r e, w) := by
  have h := Nat.mul_le_mul_right (b.length + 1) hE
  exact (show w ≤ _ by omega)

theorem costL_crash {K c0 C E w : Nat} {b : Bytes} {c : Crash} (hE : 200 ≤ E) (hw : w ≤ 200 * b.length + 200) : CostL K c0 C E b (.crash c, w) := by
  have h := Nat.mul_le_mul_right (b.length + 1) hE
  exact (show w ≤ _ by omega)

theorem costL_ok {K c0 C E w : Nat} {b r : Bytes} {v : DV} (hr : r.length < b.length) (hw : w + 50 * r.length ≤ 50 * b.length + c0) (hK : 50 ≤ K) :
    CostL K c0 C E b (.ok v r, w) := ⟨hr, lift_excess hw (by omega) hK⟩

theorem skip_cons {b : Bytes} {c : UInt8} {t : Bytes} (h : (skipSpacesW b).1 = c :: t) : (skipSpacesW b).2 + t.length = b.length ∧ t.length < b.length := by
  have h1 := skipSpacesW_snd b
  have h2 := skipSpaces_length_le b
  rw [skipSpacesW_fst] at h
  rw [h, List.length_cons] at h1 h2
  omega

theorem skip_len (b : Bytes) : (skipSpacesW b).2 + (skipSpacesW b).1.length = b.length + 1 ∧ (skipSpacesW b).1.length ≤ b.length := by
  rw [skipSpacesW_fst]
  exact ⟨skipSpacesW_snd b, skipSpaces_length_le b⟩

/-! ### Slices -/

theorem sliceLoopT_cost {K C E : Nat} {d : DecW} (h : CostD K 0 E d) (hK : 50 ≤ K) (hE : K ≤ E) {input : Bytes} (hC : (parseValueW input).2 ≤ C) (z : DV) :
    ∀ n done mem b, CostL K 2 C E b (sliceLoopT d z input n done mem b) ∧ (done ≠ [] → CostL K 0 C E b (sliceLoopT d z input n done mem b)) := by
  intro n
  induction n with
  | zero => intro done mem b; exact ⟨Nat.zero_le _, fun _ => Nat.zero_le _⟩
  | succ n ih =>
    intro done mem b
    have key : CostL K (if done.isEmpty then 2 else 0) C E b (sliceLoopT d z input (n + 1) done mem b) := by
      have hl := skip_len b
      unfold sliceLoopT
      generalize hc : (if done.isEmpty then 2 else 0 : Nat) = c0
      simp only []
      split
      · rename_i hh
        obtain ⟨t, ht⟩ : ∃ t, (skipSpacesW b).1 = ch! ']' :: t := by
          revert hh
          cases (skipSpacesW b).1 with
          | nil => simp
          | cons c t => intro hh; simp at hh; exact ⟨t, by rw [hh]⟩
        have := skip_cons ht
        rw [ht]
        exact costL_ok (by simp only [List.tail_cons]; omega) (by simp only [List.tail_cons]; omega) hK
      · split
        · rename_i hd
          rw [if_pos hd] at hc
          subst hc
          refine costL_elem (by omega) hl.2 (h _ _) hC hK hE fun x r _ => (ih _ _ _).2 (by simp)
        · cases hs : (skipSpacesW b).1 with
          | nil => exact costL_stop (by omega) (by omega)
          | cons c t =>
            have := skip_cons hs
            simp only []
            split
            · exact costL_stop (by omega) (by omega)
            · have hl' := skip_len t
              refine costL_elem (by omega) (by omega) (h _ _) hC hK hE fun x r _ => (ih _ _ _).2 (by simp)
    constructor
    · revert key
      unfold CostL
      split <;> (intro key; split at key <;> first | exact key | exact ⟨key.1, by omega⟩ | omega)
    · intro hd
      have : done.isEmpty = false := by cases done with
        | nil => contradiction
        | cons _ _ => rfl
      rw [this] at key
      exact key

/-- Brackets around a loop. -/
theorem cost_close {K c0 C E s : Nat} {c : UInt8} {t : Bytes} {x : DRes × Nat} (h : CostL K c0 C E t x) (hs : c0 + 5 + s ≤ K)
    (hC : C + c0 + 5 ≤ E + 40 * (t.length + 2)) : Cost K s (E + 40) (c :: t) (tick 5 x) := by
  obtain ⟨x, k⟩ := x
  have e1 : (E + 40) * (t.length + 1 + 1) = E * (t.length + 1) + E + 40 * (t.length + 2) := by
    rw [Nat.add_mul, Nat.mul_succ E]
  have e2 : K * (t.length + 1) = K * t.length + K := Nat.mul_succ _ _
  cases x with
  | ok v r =>
    obtain ⟨h1, h2⟩ := h
    simp only [] at h1 h2
    exact cost_ok (by rw [List.length_cons]; omega) (by rw [List.length_cons, e2]; omega)
  | err v r e => simp only [CostL] at h; exact cost_err (by rw [List.length_cons, e1]; omega)
  | crash c => simp only [CostL] at h; exact cost_crash (by rw [List.length_cons, e1]; omega)

theorem cost_null' {K s E : Nat} {b : Bytes} {v : DV} (h : hasNullPrefix b = true) (hK : 50 ≤ K) (hs : s + 5 ≤ K) : Cost K s E b (.ok v (b.drop 4), 5) := by
  have := null_len h
  have e : K * (b.drop 4).length + K * 4 = K * b.length := by
    rw [← Nat.mul_add, List.length_drop]; congr 1; omega
  refine cost_ok ?_ (by omega)
  rw [List.length_drop]; omega

theorem cost_input' {K s E k : Nat} {b : Bytes} {p : DV} (hk : k ≤ 10) (hE : 50 ≤ E) : Cost K s E b (tick k (inputErrW b p)) := by
  have h := Nat.mul_le_mul_right (b.length + 1) hE
  exact cost_input (by omega)

theorem decodeSliceT_cost {K s E : Nat} {d : DecW} (h : CostD K 0 E d) (hK : 50 ≤ K) (hE : K ≤ E) (hs : s + 7 ≤ K) (z : DV) :
    CostD K s (E + 40) (decodeSliceT d z) := by
  intro b p
  unfold decodeSliceT
  split
  · exact cost_null' ‹_› hK (by omega)
  · cases b with
    | nil => exact cost_input' (by omega) (by omega)
    | cons c t =>
      simp only []
      split
      · exact cost_input' (by omega) (by omega)
      · have hp := parseValueW_le (c :: t)
        rw [List.length_cons] at hp
        exact cost_close ((sliceLoopT_cost h hK hE hp z _ _ _ _).1) (by omega) (by omega)

/-! ### Arrays -/

theorem arrayRestW_cost (p : DV) : ∀ n b, Cost 50 40 50 b (arrayRestW p n b) := by
  intro n
  induction n with
  | zero => intro b; exact Nat.zero_le _
  | succ n ih =>
    intro b
    have hl := skip_len b
    unfold arrayRestW
    simp only []
    cases hs : (skipSpacesW b).1 with
    | nil => exact cost_err (by omega)
    | cons c t =>
      have hc := skip_cons hs
      rw [hs, List.length_cons] at hl
      simp only []
      split
      · exact cost_ok (by omega) (by omega)
      · obtain ⟨b', m, hm0, hm1, hm2⟩ : ∃ b' m, (if c = ch! ',' then skipSpacesW t else (c :: t, 0)) = (b', m) ∧ (skipSpacesW b).2 + m + 1 + b'.length ≤ b.length + 3 ∧ b'.length ≤ b.length := by
          split
          · have := skip_len t
            exact ⟨_, _, rfl, by omega, by omega⟩
          · exact ⟨_, _, rfl, by rw [List.length_cons]; omega, by rw [List.length_cons]; omega⟩
        rw [hm0]
        simp only []
        cases hp : parseValueW b' with
        | mk x k =>
          have hle := parseValueW_le b'
          rw [hp] at hle
          simp only [] at hle
          cases x with
          | fail r e => exact cost_err (by omega)
          | ok v r =>
            have hok := parseValueW_okB hp
            have h0 := ih r
            revert h0
            simp only []
            cases arrayRestW p n r with
            | mk y l => cases y with
              | ok v r2 => intro h0; obtain ⟨h1, h2⟩ := h0; simp only [] at h1 h2; exact cost_ok (by omega) (by omega)
              | err v r2 e => intro h0; simp only [Cost] at h0; exact cost_err (by omega)
              | crash c => intro h0; simp only [Cost] at h0; exact cost_crash (by omega)

theorem arrayElemsW_cost {K E : Nat} {d : DecW} (h : CostD K 0 E d) (hK : 50 ≤ K) (hE : K ≤ E) (z : DV) : ∀ n first done mem b,
    CostL K (if first then 2 else 0) 2 E b (arrayElemsW d z first done n mem b) := by
  intro n
  induction n with
  | zero =>
    intro first done mem b
    have hr := arrayRestW_cost (.array (done ++ mem)) (b.length + 1) b
    unfold arrayElemsW
    revert hr
    cases arrayRestW (.array (done ++ mem)) (b.length + 1) b with
    | mk x k => cases x with
      | ok v r => intro hr; obtain ⟨h1, h2⟩ := hr; simp only [] at h1 h2; exact costL_ok h1 (by omega) hK
      | err v r e => intro hr; simp only [Cost] at hr; have := Nat.mul_le_mul_right (b.length + 1) (Nat.le_trans hK hE); exact (show k + 1 ≤ _ by omega)
      | crash c => intro hr; simp only [Cost] at hr; have := Nat.mul_le_mul_right (b.length + 1) (Nat.le_trans hK hE); exact (show k + 1 ≤ _ by omega)
  | succ n ih =>
    intro first done mem b
    have hl := skip_len b
    unfold arrayElemsW
    simp only []
    split
    · exact costL_array (by omega) hl.2 (h _ _) hK hE fun x r _ => ih false _ _ _
    · cases hs : (skipSpacesW b).1 with
      | nil => exact costL_stop (by omega) (by omega)
      | cons c t =>
        have := skip_cons hs
        simp only []
        split
        · have hl' := skip_len t
          exact costL_array (by omega) (by omega) (h _ _) hK hE fun x r _ => ih false _ _ _
        · split
          · exact costL_ok (by omega) (by omega) hK
          · exact costL_stop (by omega) (by omega)

theorem decodeArrayW_cost {K s E : Nat} {d : DecW} (h : CostD K 0 E d) (hK : 50 ≤ K) (hE : K ≤ E) (hs : s + 7 ≤ K) (n : Nat) (z : DV) :
    CostD K s (E + 40) (decodeArrayW n d z) := by
  intro b p
  unfold decodeArrayW
  split
  · exact cost_null' ‹_› hK (by omega)
  · cases b with
    | nil => exact cost_input' (by omega) (by omega)
    | cons c t =>
      simp only []
      split
      · exact cost_input' (by omega) (by omega)
      · exact cost_close (arrayElemsW_cost h hK hE z _ true _ _ _) (by simp only [if_true]; omega) (by simp only [if_true]; omega)

/-! ### Maps and structs -/

theorem mapLoopT_cost {K C E : Nat} {d : DecW} (h : CostD K 0 E d) (hK : 50 ≤ K) (hE : K ≤ E) (hE2 : 200 ≤ E) {input : Bytes} (hC : (parseValueW input).2 ≤ C)
    (k : KTy) (z p : DV) (fr : Bool) : ∀ n first m b, CostL K 0 C E b (mapLoopT k d z p fr input n first m b) := by
  intro n
  induction n with
  | zero => intro _ _ _; exact Nat.zero_le _
  | succ n ih =>
    intro first m b
    have hl := skip_len b
    have hEb := Nat.mul_le_mul_right (b.length + 1) hE2
    have hm := memberKeyT_cost (decodeKeyW_cost k) first (skipSpacesW b).1
    unfold mapLoopT
    simp only []
    split
    · rename_i hh
      cases hs : (skipSpacesW b).1 with
      | nil => rw [hs] at hh; simp at hh
      | cons c t =>
        have := skip_cons hs
        exact costL_ok (by simp only [List.tail_cons]; omega) (by simp only [List.tail_cons]; omega) hK
    · revert hm
      cases memberKeyT (decodeKeyW k) first (skipSpacesW b).1 with
      | mk x l => cases x with
        | inl c => intro hm; simp only [CostM] at hm; exact (show _ + l + 1 ≤ _ by omega)
        | inr x => cases x with
          | inl y => intro hm; simp only [CostM] at hm; exact (show _ + l + 1 ≤ _ by omega)
          | inr y =>
            intro hm
            obtain ⟨h1, h2⟩ := hm
            simp only [] at h1 h2 ⊢
            exact costL_elem (by omega) (by omega) (h _ _) hC hK hE fun x r _ => ih _ _ _

theorem decodeMapT_cost {K s E : Nat} {d : DecW} (h : CostD K 0 E d) (hK : 50 ≤ K) (hE : K ≤ E) (hE2 : 200 ≤ E) (hs : s + 7 ≤ K) (k : KTy) (z : DV) :
    CostD K s (E + 40) (decodeMapT k d z) := by
  intro b p
  unfold decodeMapT
  split
  · exact cost_null' ‹_› hK (by omega)
  · cases b with
    | nil => exact cost_input' (by omega) (by omega)
    | cons c t =>
      simp only []
      split
      · exact cost_input' (by omega) (by omega)
      · have hp := parseValueW_le (c :: t)
        rw [List.length_cons] at hp
        split <;> exact cost_close (mapLoopT_cost h hK hE hE2 hp _ _ _ _ _ _ _ _) (by omega) (by omega)

theorem structLoopT_cost {c : DCfg} {K C E : Nat} {ds : List DecW} (h : ∀ d ∈ ds, CostD K 0 E d) (hK : 50 ≤ K) (hE : K ≤ E) (hE2 : 200 ≤ E) {input : Bytes} (hC : (parseValueW input).2 ≤ C)
    (names : List Bytes) : ∀ n first fs b, CostL K 0 C E b (structLoopT c names ds input n first fs b) := by
  intro n
  induction n with
  | zero => intro _ _ _; exact Nat.zero_le _
  | succ n ih =>
    intro first fs b
    have hl := skip_len b
    have hEb := Nat.mul_le_mul_right (b.length + 1) hE2
    have hm := memberKeyT_cost structKeyW_cost first (skipSpacesW b).1
    unfold structLoopT
    simp only []
    split
    · rename_i hh
      cases hs : (skipSpacesW b).1 with
      | nil => rw [hs] at hh; simp at hh
      | cons c t =>
        have := skip_cons hs
        exact costL_ok (by simp only [List.tail_cons]; omega) (by simp only [List.tail_cons]; omega) hK
    · revert hm
      cases memberKeyT structKeyW first (skipSpacesW b).1 with
      | mk x l => cases x with
        | inl c => intro hm; simp only [CostM] at hm; exact (show _ + l + 1 ≤ _ by omega)
        | inr x => cases x with
          | inl y => intro hm; simp only [CostM] at hm; exact (show _ + l + 1 ≤ _ by omega)
          | inr y =>
            intro hm
            obtain ⟨kv, b'⟩ := y
            obtain ⟨h1, h2⟩ := hm
            simp only [] at h1 h2 ⊢
            split
            · split
              · exact costL_err hE2 (by omega)
              · have hpl := parseValueW_le b'
                cases hp : parseValueW b' with
                | mk x m =>
                  rw [hp] at hpl
                  simp only [] at hpl
                  cases x with
                  | fail r e => exact costL_err hE2 (by omega)
                  | ok v r =>
                    have hok := parseValueW_okB hp
                    have := costL_next (K := K) (c0 := 0) (C := C) (E := E) (w := (skipSpacesW b).2 + l + 1) (l := m) (b := b) (b' := b') (r := r) (by omega) (by omega)
                      ⟨hok.1, lift (K := 10) (by omega) (by omega) (by omega)⟩ hK hE (ih false fs r)
                    rw [tick_tick] at this
                    simp only []
                    rw [show (skipSpacesW b).2 + l + m + 1 = (skipSpacesW b).2 + l + 1 + m by omega]
                    exact this
            · rename_i i _
              cases hd : ds[i]? with
              | none => exact costL_crash hE2 (by omega)
              | some d =>
                exact costL_elem (by omega) (by omega) (h d (List.mem_of_getElem? hd) _ _) hC hK hE fun x r _ => ih _ _ _

theorem decodeStructT_cost {c : DCfg} {K s E : Nat} {ds : List DecW} (h : ∀ d ∈ ds, CostD K 0 E d) (hK : 50 ≤ K) (hE : K ≤ E) (hE2 : 200 ≤ E) (hs : s + 7 ≤ K) (names : List Bytes) :
    CostD K s (E + 40) (decodeStructT c names ds) := by
  intro b p
  unfold decodeStructT
  split
  · exact cost_null' ‹_› hK (by omega)
  · cases b with
    | nil => exact cost_input' (by omega) (by omega)
    | cons ch t =>
      simp only []
      split
      · exact cost_input' (by omega) (by omega)
      · have hp := parseValueW_le (ch :: t)
        rw [List.length_cons] at hp
        exact cost_close (structLoopT_cost h hK hE hE2 hp _ _ _ _ _) (by omega) (by omega)

/-! ### Pointers and byte slices -/

theorem decodePointerW_cost {K s E : Nat} {d : DecW} (h : CostD K (s + 5) E d) (hK : 50 ≤ K) (hs : s + 5 ≤ K) (e : Bool) (z : DV) :
    CostD K s (E + 5) (decodePointerW e d z) := by
  intro b p
  have go : ∀ v, Cost K s (E + 5) b ((d b v).1.map .ptr, (d b v).2 + 5) := by
    intro v
    have h0 := h b v
    have e1 : (E + 5) * (b.length + 1) = E * (b.length + 1) + 5 * (b.length + 1) := Nat.add_mul _ _ _
    revert h0
    cases d b v with
    | mk x k => cases x with
      | ok v r => intro h0; obtain ⟨h1, h2⟩ := h0; exact cost_ok h1 (by simp only [] at h2 ⊢; omega)
      | err v r e => intro h0; simp only [Cost] at h0; exact cost_err (by simp only [e1]; omega)
      | crash c => intro h0; simp only [Cost] at h0; exact cost_crash (by simp only [e1]; omega)
  unfold decodePointerW
  split
  · cases p with
    | ptr v =>
      simp only []
      split
      · exact go _
      · exact cost_null' ‹_› hK hs
    | _ => exact cost_null' ‹_› hK hs
  · exact go _

theorem decodeBytesW_cost : CostD 50 20 200 decodeBytesW := by
  intro b p
  have hul := unquoteW_le b
  unfold decodeBytesW
  split
  · exact cost_null' ‹_› (by omega) (by omega)
  · cases b with
    | nil => exact cost_input' (by omega) (by omega)
    | cons c t =>
      simp only []
      have go : ∀ q f, Cost 50 20 200 (c :: t)
          ((decodeSliceT (decodeIntW .uint8) (.int 0) (c :: t) q).1.map f, (decodeSliceT (decodeIntW .uint8) (.int 0) (c :: t) q).2 + 6) := by
        intro q f
        have h0 := decodeSliceT_cost (s := 43) (fun b p => (decodeIntW_cost .uint8 b p).mono (Nat.zero_le _) (Nat.le_refl _) (Nat.le_refl _))
          (Nat.le_refl 50) (by omega) (by omega) (.int 0) (c :: t) q
        revert h0
        cases decodeSliceT (decodeIntW .uint8) (.int 0) (c :: t) q with
        | mk x k => cases x with
          | ok v r => intro h0; obtain ⟨h1, h2⟩ := h0; exact cost_ok h1 (by simp only [] at h2 ⊢; omega)
          | err v r e => intro h0; simp only [Cost] at h0; exact cost_err (by simp only []; omega)
          | crash c => intro h0; simp only [Cost] at h0; exact cost_crash (by simp only []; omega)
      split
      · exact cost_input' (by omega) (by omega)
      split
      · split
        · exact go _ _
        · exact cost_input' (by omega) (by omega)
      · cases hu : parseStringUnquote (c :: t) [] with
        | panic => exact cost_crash (by omega)
        | fail r e => exact cost_input (by omega)
        | ok s r n =>
          obtain ⟨h1, h2⟩ := unquoteW_ok hu
          simp only []
          split
          · exact cost_err (by omega)
          · exact cost_ok (by omega) (by omega)

end JC

import Verif.Lemmas.WorkTypes
import Verif.Lemmas.WorkIface
import Verif.Spec.WorkSquare
/-!
How many steps decoding takes whatever the text and however deep the type: at most a number times the square of the length.
The steps are paid out of the square of what is left of the text.
-/
namespace JC
open Spec Props

def sq (n : Nat) : Nat := (n + 1) * (n + 1)

theorem sq_pos (n : Nat) : n + 1 ≤ sq n := Nat.le_mul_of_pos_left _ (by omega)

theorem sq_add (r d : Nat) : sq (r + d) = sq r + 2 * (d * (r + 1)) + d * d := by
  unfold sq
  have e1 : r + d + 1 = (r + 1) + d := by omega
  have e2 : ∀ x : Nat, (x + d) * (x + d) = x * x + 2 * (d * x) + d * d := by
    intro x
    rw [Nat.add_mul, Nat.mul_add, Nat.mul_add, Nat.mul_comm x d]
    omega
  rw [e1, e2]

theorem sq_step {r d b : Nat} (h : r + d ≤ b) : sq r + 2 * d + d * d ≤ sq b := by
  obtain ⟨e, rfl⟩ := Nat.exists_eq_add_of_le h
  have h1 : sq (r + d) ≤ sq (r + d + e) := Nat.mul_le_mul (by omega) (by omega)
  have h2 := sq_add r d
  have h3 : d ≤ d * (r + 1) := Nat.le_mul_of_pos_right _ (by omega)
  omega

theorem sq_mono {r b : Nat} (h : r ≤ b) : sq r ≤ sq b := Nat.mul_le_mul (by omega) (by omega)

theorem sq_lt {r b : Nat} (h : r < b) : sq r < sq b := by
  have := sq_step (show r + 1 ≤ b by omega)
  omega

/-- The steps of a decoding function on `b`: at most `A` times the square of the length, of which `s` are left over, and on success
also `A` times the square of the length of what is left. -/
def CostQ (A s : Nat) (b : Bytes) (x : DRes × Nat) : Prop :=
  match x.1 with
  | .ok _ r => r.length < b.length ∧ x.2 + s + A * sq r.length ≤ A * sq b.length
  | _ => x.2 + s ≤ A * sq b.length

def CostQD (P : DV → Prop) (A s : Nat) (d : DecW) : Prop := ∀ b p, P p → CostQ A s b (d b p)

theorem costQ_ok {A s k : Nat} {b r : Bytes} {v : DV} (h1 : r.length < b.length) (h2 : k + s + A * sq r.length ≤ A * sq b.length) :
    CostQ A s b (.ok v r, k) := ⟨h1, h2⟩

theorem costQ_err {A s k : Nat} {b r : Bytes} {v : DV} {e : Err} (h : k + s ≤ A * sq b.length) : CostQ A s b (.err v r e, k) := h

theorem costQ_crash {A s k : Nat} {b : Bytes} {c : Crash} (h : k + s ≤ A * sq b.length) : CostQ A s b (.crash c, k) := h

theorem lin_sq {A m n x c : Nat} (h : x + A * m ≤ A * n + c) (hm : m ≤ n) : x + A * sq m ≤ A * sq n + c := by
  obtain ⟨d, rfl⟩ := Nat.exists_eq_add_of_le hm
  have h1 := Nat.mul_le_mul_left A (sq_step (Nat.le_refl (m + d)))
  have h2 : A * (sq m + d) ≤ A * (sq m + 2 * d + d * d) := Nat.mul_le_mul_left _ (by omega)
  rw [Nat.mul_add] at h h2
  omega

theorem CostQ.more {A s A' : Nat} {b : Bytes} {x : DRes × Nat} (h : CostQ A s b x) (k : Nat) (hA : A + k ≤ A') : CostQ A' (s + k) b x := by
  have h1 : (A + k) * sq b.length ≤ A' * sq b.length := Nat.mul_le_mul_right _ hA
  have h2 : k ≤ k * sq b.length := Nat.le_mul_of_pos_right _ (by have := sq_pos b.length; omega)
  rw [Nat.add_mul] at h1
  unfold CostQ at *
  split at h
  · exact ⟨h.1, by have := lift_slack h.2 (sq_lt h.1) hA; omega⟩
  · omega

theorem CostQ.mono {A s s' A' : Nat} {b : Bytes} {x : DRes × Nat} (h : CostQ A s b x) (hA : A ≤ A') (hs : s' ≤ s) : CostQ A' s' b x := by
  have h' := h.more 0 hA
  unfold CostQ at *
  split at h'
  · exact ⟨h'.1, by omega⟩
  · omega

theorem CostQD.any {P : DV → Prop} {A s : Nat} {d : DecW} (h : CostQD P A s d) : CostQD P A 0 d := fun b p hp => (h b p hp).mono (Nat.le_refl _) (Nat.zero_le _)

/-- A number of steps for each byte is less. -/
theorem Cost.square {K s E A s' : Nat} {b : Bytes} {x : DRes × Nat} (h : Cost K s E b x) (hK : K + s' ≤ A) (hE : E + s' ≤ A) : CostQ A s' b x := by
  have h1 : (E + s') * sq b.length ≤ A * sq b.length := Nat.mul_le_mul_right _ hE
  have h2 : s' ≤ s' * sq b.length := Nat.le_mul_of_pos_right _ (by have := sq_pos b.length; omega)
  have h3 : E * (b.length + 1) ≤ E * sq b.length := Nat.mul_le_mul_left _ (sq_pos _)
  rw [Nat.add_mul] at h1
  obtain ⟨x, k⟩ := x
  cases x with
  | ok v r =>
    obtain ⟨h5, h6⟩ := h
    simp only [] at h5 h6
    have h4 := lin_sq (x := k + s) (A := K) (m := r.length) (n := b.length) (c := 0) (by omega) (by omega)
    have := lift_slack (x := k) (L := A) (s := s') (K := K) (by omega) (sq_lt h5) hK
    exact costQ_ok h5 (by omega)
  | err v r e => simp only [Cost] at h; exact costQ_err (by omega)
  | crash c => simp only [Cost] at h; exact costQ_crash (by omega)

theorem CostD.square {P : DV → Prop} {K s E A s' : Nat} {d : DecW} (h : CostD K s E d) (hK : K + s' ≤ A) (hE : E + s' ≤ A) : CostQD P A s' d :=
  fun b p _ => (h b p).square hK hE

/-! ### Loops -/

/-- The steps of a loop on `b`: as `CostQ`, but `c0` more, and on an error `C` more. -/
def CostQL (A c0 C : Nat) (b : Bytes) (x : DRes × Nat) : Prop :=
  match x.1 with
  | .ok _ r => r.length < b.length ∧ x.2 + A * sq r.length ≤ A * sq b.length + c0
  | _ => x.2 ≤ A * sq b.length + C + c0

theorem excess_sq {A m n x c : Nat} (h : x + 50 * m ≤ 50 * n + c) (hm : m ≤ n) (hA : 50 ≤ A) : x + A * sq m ≤ A * sq n + c :=
  lin_sq (lift_excess h hm hA) hm

theorem costQL_next {A c0 C w l : Nat} {b b' r : Bytes} {y : DRes × Nat} (hw : w + 50 * b'.length ≤ 50 * b.length + c0) (hb : b'.length ≤ b.length)
    (hd : r.length < b'.length ∧ l + A * sq r.length ≤ A * sq b'.length) (hA : 50 ≤ A) (hn : CostQL A 0 C r y) :
    CostQL A c0 C b (tick w (tick l y)) := by
  obtain ⟨h1, h2⟩ := hd
  have h3 := excess_sq hw hb hA
  obtain ⟨y, m⟩ := y
  cases y with
  | ok v r2 =>
    obtain ⟨h6, h7⟩ := hn
    simp only [] at h6 h7
    exact ⟨by omega, show m + l + w + _ ≤ _ by omega⟩
  | err v r2 e => simp only [CostQL] at hn; exact (show m + l + w ≤ _ by omega)
  | crash c => simp only [CostQL] at hn; exact (show m + l + w ≤ _ by omega)

theorem costQL_elem {A c0 C w : Nat} {b b' : Bytes} {d : DRes × Nat} {o : PR × Nat} {dest : DV → DV} {next : DV → Bytes → DRes × Nat}
    (hw : w + 50 * b'.length ≤ 50 * b.length + c0) (hb : b'.length ≤ b.length) (hd : CostQ A 0 b' d) (ho : o.2 ≤ C)
    (hA : 50 ≤ A) (hn : ∀ x r, d.1 = .ok x r → CostQL A 0 C r (next x r)) : CostQL A c0 C b (tick w (elemW d o dest next)) := by
  have h3 := excess_sq hw hb hA
  obtain ⟨d, l⟩ := d
  cases d with
  | crash c => simp only [CostQ] at hd; exact (show l + w ≤ _ by omega)
  | err x r e =>
    simp only [CostQ] at hd
    obtain ⟨o, k⟩ := o
    simp only [] at ho
    cases o <;> exact (show l + k + w ≤ _ by omega)
  | ok x r => exact costQL_next hw hb ⟨hd.1, hd.2⟩ hA (hn x r rfl)

theorem costQL_array {A c0 C w : Nat} {b b' : Bytes} {d : DRes × Nat} {dest : DV → DV} {next : DV → Bytes → DRes × Nat}
    (hw : w + 50 * b'.length ≤ 50 * b.length + c0) (hb : b'.length ≤ b.length) (hd : CostQ A 0 b' d)
    (hA : 50 ≤ A) (hn : ∀ x r, d.1 = .ok x r → CostQL A 0 C r (next x r)) : CostQL A c0 C b (tick w (arrayNextW d dest next)) := by
  have h3 := excess_sq hw hb hA
  obtain ⟨d, l⟩ := d
  cases d with
  | crash c => simp only [CostQ] at hd; exact (show l + w ≤ _ by omega)
  | err x r e => simp only [CostQ] at hd; exact (show l + w ≤ _ by omega)
  | ok x r => exact costQL_next hw hb ⟨hd.1, hd.2⟩ hA (hn x r rfl)

theorem sq_lin {A : Nat} (hA : 200 ≤ A) (b : Bytes) : 200 * b.length + 200 ≤ A * sq b.length := by
  have h := Nat.mul_le_mul hA (sq_pos b.length)
  omega

theorem costQL_err {A c0 C w : Nat} {b r : Bytes} {v : DV} {e : Err} (hA : 200 ≤ A) (hw : w ≤ 200 * b.length + 200) : CostQL A c0 C b (.err v r e, w) := by
  have h := sq_lin hA b
  exact (show w ≤ _ by omega)

theorem costQL_crash {A c0 C w : Nat} {b : Bytes} {c : Crash} (hA : 200 ≤ A) (hw : w ≤ 200 * b.length + 200) : CostQL A c0 C b (.crash c, w) := by
  have h := sq_lin hA b
  exact (show w ≤ _ by omega)

theorem costQL_ok {A c0 C w : Nat} {b r : Bytes} {v : DV} (hr : r.length < b.length) (hw : w + 50 * r.length ≤ 50 * b.length + c0) (hA : 200 ≤ A) :
    CostQL A c0 C b (.ok v r, w) := ⟨hr, excess_sq hw (by omega) (by omega)⟩

/-- Brackets around a loop. -/
theorem costQ_close {A c0 C s : Nat} {c : UInt8} {t : Bytes} {x : DRes × Nat} (h : CostQL A c0 C t x) (hs : c0 + 5 + s ≤ A) (hA : 200 ≤ A)
    (hC : C ≤ 10 * t.length + 20) : CostQ A s (c :: t) (tick 5 x) := by
  obtain ⟨x, k⟩ := x
  have e1 : A * sq (t.length + 1) = A * sq t.length + 2 * (A * (t.length + 1)) + A := by
    rw [sq_add, Nat.mul_add, Nat.mul_add, Nat.one_mul, Nat.mul_left_comm, Nat.mul_one]
  have e2 := Nat.mul_le_mul_right (t.length + 1) hA
  cases x with
  | ok v r =>
    obtain ⟨h1, h2⟩ := h
    simp only [] at h1 h2
    exact costQ_ok (by rw [List.length_cons]; omega) (by rw [List.length_cons, e1]; omega)
  | err v r e => simp only [CostQL] at h; exact costQ_err (by rw [List.length_cons, e1]; omega)
  | crash c => simp only [CostQL] at h; exact costQ_crash (by rw [List.length_cons, e1]; omega)

theorem costQ_null {A s : Nat} {b : Bytes} {v : DV} (h : hasNullPrefix b = true) (hs : s + 50 ≤ A) : CostQ A s b (.ok v (b.drop 4), 5) :=
  (cost_null' (K := 50) (s := 0) (E := 0) h (Nat.le_refl _) (by omega)).square (by omega) (by omega)

theorem costQ_input {A s k : Nat} {b : Bytes} {p : DV} (hk : k ≤ 10) (hs : s + 50 ≤ A) : CostQ A s b (tick k (inputErrW b p)) :=
  (cost_input' (K := 0) (s := 0) (E := 50) hk (Nat.le_refl _)).square (by omega) (by omega)

theorem sliceLoopT_square {P : DV → Prop} {A C : Nat} {d : DecW} (h : CostQD P A 0 d) (hA : 200 ≤ A) {input : Bytes} (hC : (parseValueW input).2 ≤ C) {z : DV} (hz : P z) :
    ∀ n done mem b, (∀ y ∈ mem, P y) → CostQL A 2 C b (sliceLoopT d z input n done mem b) ∧ (done ≠ [] → CostQL A 0 C b (sliceLoopT d z input n done mem b)) := by
  intro n
  induction n with
  | zero => intro done mem b _; exact ⟨Nat.zero_le _, fun _ => Nat.zero_le _⟩
  | succ n ih =>
    intro done mem b hm
    have key : CostQL A (if done.isEmpty then 2 else 0) C b (sliceLoopT d z input (n + 1) done mem b) := by
      have hl := skip_len b
      unfold sliceLoopT
      generalize hc : (if done.isEmpty then 2 else 0 : Nat) = c0
      simp only []
      split
      · rename_i hh
        obtain ⟨t, ht⟩ : ∃ t, (skipSpacesW b).1 = ch! ']' :: t := by
          revert hh
          cases (skipSpacesW b).1 with
          | nil => simp
          | cons c t => intro hh; simp at hh; exact ⟨t, by rw [hh]⟩
        have := skip_cons ht
        rw [ht]
        exact costQL_ok (by simp only [List.tail_cons]; omega) (by simp only [List.tail_cons]; omega) hA
      · split
        · rename_i hd
          rw [if_pos hd] at hc
          subst hc
          refine costQL_elem (by omega) hl.2 (h _ _ (mem_headD hz hm)) hC (by omega) fun x r _ => (ih _ _ _ (mem_tail hm)).2 (by simp)
        · cases hs : (skipSpacesW b).1 with
          | nil => exact costQL_err hA (by omega)
          | cons c t =>
            have := skip_cons hs
            simp only []
            split
            · exact costQL_err hA (by omega)
            · have hl' := skip_len t
              refine costQL_elem (by omega) (by omega) (h _ _ (mem_headD hz hm)) hC (by omega) fun x r _ => (ih _ _ _ (mem_tail hm)).2 (by simp)
    constructor
    · revert key
      unfold CostQL
      split <;> (intro key; split at key <;> first | exact key | exact ⟨key.1, by omega⟩ | omega)
    · intro hd
      have : done.isEmpty = false := by cases done with
        | nil => contradiction
        | cons _ _ => rfl
      rw [this] at key
      exact key

theorem decodeSliceT_square {P : DV → Prop} {A s : Nat} {d : DecW} (h : CostQD P A 0 d) (hA : 200 ≤ A) (hs : s + 50 ≤ A) {z : DV} (hz : P z)
    {PS : DV → Prop} (hl : ∀ d s, PS (.slice d s) → (∀ y ∈ d, P y) ∧ ∀ y ∈ s, P y) : CostQD PS A s (decodeSliceT d z) := by
  intro b p hp
  have hmem : ∀ x ∈ (match p with | .slice xs sp => xs ++ sp | _ => []), P x := by
    cases p <;> simp
    case slice xs sp =>
      rintro x (hx | hx)
      · exact (hl _ _ hp).1 x hx
      · exact (hl _ _ hp).2 x hx
  unfold decodeSliceT
  split
  · exact costQ_null ‹_› hs
  · cases b with
    | nil => exact costQ_input (by omega) hs
    | cons c t =>
      simp only []
      split
      · exact costQ_input (by omega) hs
      · have hp := parseValueW_le (c :: t)
        rw [List.length_cons] at hp
        exact costQ_close ((sliceLoopT_square h hA hp hz _ _ _ _ hmem).1) (by omega) hA (by omega)

theorem arrayElemsW_square {P : DV → Prop} {A : Nat} {d : DecW} (h : CostQD P A 0 d) (hA : 200 ≤ A) {z : DV} (hz : P z) : ∀ n first done mem b, (∀ y ∈ mem, P y) →
    CostQL A (if first then 2 else 0) 2 b (arrayElemsW d z first done n mem b) := by
  intro n
  induction n with
  | zero =>
    intro first done mem b _
    have hr := arrayRestW_cost (.array (done ++ mem)) (b.length + 1) b
    have hl := sq_lin hA b
    unfold arrayElemsW
    revert hr
    cases arrayRestW (.array (done ++ mem)) (b.length + 1) b with
    | mk x k => cases x with
      | ok v r => intro hr; obtain ⟨h1, h2⟩ := hr; simp only [] at h1 h2; exact costQL_ok h1 (by omega) hA
      | err v r e => intro hr; simp only [Cost] at hr; exact (show k + 1 ≤ _ by omega)
      | crash c => intro hr; simp only [Cost] at hr; exact (show k + 1 ≤ _ by omega)
  | succ n ih =>
    intro first done mem b hm
    have hl := skip_len b
    unfold arrayElemsW
    simp only []
    split
    · exact costQL_array (by omega) hl.2 (h _ _ (mem_headD hz hm)) (by omega) fun x r _ => ih false _ _ _ (mem_tail hm)
    · cases hs : (skipSpacesW b).1 with
      | nil => exact costQL_err hA (by omega)
      | cons c t =>
        have := skip_cons hs
        simp only []
        split
        · have hl' := skip_len t
          exact costQL_array (by omega) (by omega) (h _ _ (mem_headD hz hm)) (by omega) fun x r _ => ih false _ _ _ (mem_tail hm)
        · split
          · exact costQL_ok (by omega) (by omega) hA
          · exact costQL_err hA (by omega)

theorem decodeArrayW_square {P : DV → Prop} {A s : Nat} {d : DecW} (h : CostQD P A 0 d) (hA : 200 ≤ A) (hs : s + 50 ≤ A) (n : Nat) {z : DV} (hz : P z)
    {PS : DV → Prop} (hl : ∀ d, PS (.array d) → ∀ y ∈ d, P y) : CostQD PS A s (decodeArrayW n d z) := by
  intro b p hp
  have hmem : ∀ x ∈ (match p with | .array xs => xs | _ => []), P x := by
    cases p <;> simp
    case array xs => exact hl _ hp
  unfold decodeArrayW
  split
  · exact costQ_null ‹_› hs
  · cases b with
    | nil => exact costQ_input (by omega) hs
    | cons c t =>
      simp only []
      split
      · exact costQ_input (by omega) hs
      · exact costQ_close (arrayElemsW_square h hA hz _ true _ _ _ hmem) (by simp only [if_true]; omega) hA (by omega)

theorem mapLoopT_square {P : DV → Prop} {A C : Nat} {d : DecW} (h : CostQD P A 0 d) (hA : 200 ≤ A) {input : Bytes} (hC : (parseValueW input).2 ≤ C)
    (k : KTy) {z : DV} (hz : P z) (p : DV) (fr : Bool) : ∀ n first m b, CostQL A 0 C b (mapLoopT k d z p fr input n first m b) := by
  intro n
  induction n with
  | zero => intro _ _ _; exact Nat.zero_le _
  | succ n ih =>
    intro first m b
    have hl := skip_len b
    have hAb := sq_lin hA b
    have hm := memberKeyT_cost (decodeKeyW_cost k) first (skipSpacesW b).1
    unfold mapLoopT
    simp only []
    split
    · rename_i hh
      cases hs : (skipSpacesW b).1 with
      | nil => rw [hs] at hh; simp at hh
      | cons c t =>
        have := skip_cons hs
        exact costQL_ok (by simp only [List.tail_cons]; omega) (by simp only [List.tail_cons]; omega) hA
    · revert hm
      cases memberKeyT (decodeKeyW k) first (skipSpacesW b).1 with
      | mk x l => cases x with
        | inl c => intro hm; simp only [CostM] at hm; exact (show _ + l + 1 ≤ _ by omega)
        | inr x => cases x with
          | inl y => intro hm; simp only [CostM] at hm; exact (show _ + l + 1 ≤ _ by omega)
          | inr y =>
            intro hm
            obtain ⟨h1, h2⟩ := hm
            simp only [] at h1 h2 ⊢
            exact costQL_elem (by omega) (by omega) (h _ _ hz) hC (by omega) fun x r _ => ih _ _ _

theorem decodeMapT_square {P PS : DV → Prop} {A s : Nat} {d : DecW} (h : CostQD P A 0 d) (hA : 200 ≤ A) (hs : s + 50 ≤ A) (k : KTy) {z : DV} (hz : P z) :
    CostQD PS A s (decodeMapT k d z) := by
  intro b p _
  unfold decodeMapT
  split
  · exact costQ_null ‹_› hs
  · cases b with
    | nil => exact costQ_input (by omega) hs
    | cons c t =>
      simp only []
      split
      · exact costQ_input (by omega) hs
      · have hp := parseValueW_le (c :: t)
        rw [List.length_cons] at hp
        split <;> exact costQ_close (mapLoopT_square h hA hp _ hz _ _ _ _ _ _) (by omega) hA (by omega)

theorem structLoopT_square {P : DV → Prop} {c : DCfg} {A C : Nat} {ds : List DecW} (h : ∀ d ∈ ds, CostQD P A 0 d) (hp : ∀ d ∈ ds, Pres P d.plain)
    (hu : P (.user none)) (hA : 200 ≤ A) {input : Bytes} (hC : (parseValueW input).2 ≤ C)
    (names : List Bytes) : ∀ n first fs b, (∀ y ∈ fs, P y) → CostQL A 0 C b (structLoopT c names ds input n first fs b) := by
  intro n
  induction n with
  | zero => intro _ _ _ _; exact Nat.zero_le _
  | succ n ih =>
    intro first fs b hf
    have hl := skip_len b
    have hAb := sq_lin hA b
    have hm := memberKeyT_cost structKeyW_cost first (skipSpacesW b).1
    unfold structLoopT
    simp only []
    split
    · rename_i hh
      cases hs : (skipSpacesW b).1 with
      | nil => rw [hs] at hh; simp at hh
      | cons c t =>
        have := skip_cons hs
        exact costQL_ok (by simp only [List.tail_cons]; omega) (by simp only [List.tail_cons]; omega) hA
    · revert hm
      cases memberKeyT structKeyW first (skipSpacesW b).1 with
      | mk x l => cases x with
        | inl c => intro hm; simp only [CostM] at hm; exact (show _ + l + 1 ≤ _ by omega)
        | inr x => cases x with
          | inl y => intro hm; simp only [CostM] at hm; exact (show _ + l + 1 ≤ _ by omega)
          | inr y =>
            intro hm
            obtain ⟨kv, b'⟩ := y
            obtain ⟨h1, h2⟩ := hm
            simp only [] at h1 h2 ⊢
            split
            · split
              · exact costQL_err hA (by omega)
              · have hpl := parseValueW_le b'
                cases hv : parseValueW b' with
                | mk x m =>
                  rw [hv] at hpl
                  simp only [] at hpl
                  cases x with
                  | fail r e => exact costQL_err hA (by omega)
                  | ok v r =>
                    have hok := parseValueW_okB hv
                    have := costQL_next (A := A) (c0 := 0) (C := C) (w := (skipSpacesW b).2 + l + 1) (l := m) (b := b) (b' := b') (r := r) (by omega) (by omega)
                      ⟨hok.1, by have := excess_sq (A := A) (x := m) (m := r.length) (n := b'.length) (c := 0) (by omega) (by omega) (by omega); omega⟩ (by omega) (ih false fs r hf)
                    rw [tick_tick] at this
                    simp only []
                    rw [show (skipSpacesW b).2 + l + m + 1 = (skipSpacesW b).2 + l + 1 + m by omega]
                    exact this
            · rename_i i _
              cases hd : ds[i]? with
              | none => exact costQL_crash hA (by omega)
              | some d =>
                have hm := List.mem_of_getElem? hd
                have hcell := mem_getD (i := i) hu hf
                exact costQL_elem (by omega) (by omega) (h d hm _ _ hcell) hC (by omega) fun x r e => ih _ _ _ (mem_set (hp d hm _ _ _ _ hcell e) hf)

theorem decodeStructT_square {P : DV → Prop} {c : DCfg} {A s : Nat} {ds : List DecW} (h : ∀ d ∈ ds, CostQD P A 0 d) (hpr : ∀ d ∈ ds, Pres P d.plain)
    (hu : P (.user none)) (hA : 200 ≤ A) (hs : s + 50 ≤ A) (names : List Bytes) {PS : DV → Prop} (hl : ∀ d, PS (.struct d) → ∀ y ∈ d, P y) :
    CostQD PS A s (decodeStructT c names ds) := by
  intro b p hp
  have hmem : ∀ x ∈ (match p with | .struct fs => fs | _ => []), P x := by
    cases p <;> simp
    case struct xs => exact hl _ hp
  unfold decodeStructT
  split
  · exact costQ_null ‹_› hs
  · cases b with
    | nil => exact costQ_input (by omega) hs
    | cons ch t =>
      simp only []
      split
      · exact costQ_input (by omega) hs
      · have hp := parseValueW_le (ch :: t)
        rw [List.length_cons] at hp
        exact costQ_close (structLoopT_square h hpr hu hA hp _ _ _ _ _ hmem) (by omega) hA (by omega)

theorem decodePointerW_square {P : DV → Prop} {A s : Nat} {d : DecW} (h : CostQD P A (s + 5) d) (hs : s + 50 ≤ A) (e : Bool) {z : DV} (hz : P z)
    {PS : DV → Prop} (hl : ∀ v, PS (.ptr v) → P v) : CostQD PS A s (decodePointerW e d z) := by
  intro b p hp
  have go : ∀ v, P v → CostQ A s b ((d b v).1.map .ptr, (d b v).2 + 5) := by
    intro v hv
    have h0 := h b v hv
    revert h0
    cases d b v with
    | mk x k => cases x with
      | ok v r => intro h0; obtain ⟨h1, h2⟩ := h0; exact costQ_ok h1 (by simp only [] at h2 ⊢; omega)
      | err v r e => intro h0; simp only [CostQ] at h0; exact costQ_err (by simp only []; omega)
      | crash c => intro h0; simp only [CostQ] at h0; exact costQ_crash (by simp only []; omega)
  unfold decodePointerW
  split
  · cases p with
    | ptr v =>
      simp only []
      split
      · exact go _ (hl _ hp)
      · exact costQ_null ‹_› hs
    | _ => exact costQ_null ‹_› hs
  · refine go _ ?_
    cases p <;> first | exact hz | exact hl _ hp

/-! ### The `string` option -/

/-- The steps for a text up to four times as long. -/
theorem sq_quoted {A v r b : Nat} (h : v + 4 * r + 8 ≤ 4 * b) (hA : 300 ≤ A) : ∃ X, A * sq v ≤ 16 * X ∧ 20 * A * sq r + 20 * X ≤ 20 * A * sq b ∧
    A ≤ X ∧ 300 * (b - r) ≤ X := by
  obtain ⟨d, rfl⟩ := Nat.exists_eq_add_of_le (show r ≤ b by omega)
  have hd : v + 1 ≤ 4 * d := by omega
  refine ⟨A * (d * d), ?_, ?_, ?_, ?_⟩
  · have h1 : sq v ≤ 4 * d * (4 * d) := Nat.mul_le_mul hd hd
    have h2 : 4 * d * (4 * d) = 16 * (d * d) := by rw [Nat.mul_mul_mul_comm]
    rw [← Nat.mul_left_comm]
    exact Nat.mul_le_mul_left _ (by omega)
  · have h1 := sq_step (Nat.le_refl (r + d))
    have := Nat.mul_le_mul_left (20 * A) (show sq r + d * d ≤ sq (r + d) by omega)
    rw [Nat.mul_add, Nat.mul_assoc, Nat.mul_assoc] at this
    rw [Nat.mul_assoc]
    exact this
  · exact Nat.le_mul_of_pos_right _ (Nat.mul_pos (by omega) (by omega))
  · rw [show r + d - r = d by omega]
    exact Nat.mul_le_mul hA (Nat.le_mul_of_pos_right _ (by omega))

theorem decodeFromStringW_square {P : DV → Prop} {A s : Nat} {d : DecW} (h : CostQD P A 0 d) (hA : 300 ≤ A) (hs : s ≤ A) :
    CostQD P (20 * A) s (decodeFromStringW d) := by
  intro b p hp
  have hul := unquoteW_le b
  have hAb := sq_lin (A := A) (by omega) b
  have hA1 : A ≤ A * sq b.length := Nat.le_mul_of_pos_right _ (by have := sq_pos b.length; omega)
  have e20 : 20 * A * sq b.length = 20 * (A * sq b.length) := Nat.mul_assoc _ _ _
  unfold decodeFromStringW
  split
  · have h0 := h b p hp
    revert h0
    cases d b p with
    | mk x k => cases x with
      | ok v r =>
        intro h0
        obtain ⟨h1, h2⟩ := h0
        refine costQ_ok h1 ?_
        simp only [] at h2
        have := lift_slack (L := 20 * A) (s := s + 5) (x := k) h2 (sq_lt h1) (by omega)
        simp only []; omega
      | err v r e => intro h0; simp only [CostQ] at h0; exact costQ_err (by simp only [e20]; omega)
      | crash c => intro h0; simp only [CostQ] at h0; exact costQ_crash (by simp only [e20]; omega)
  · cases hu : parseStringUnquote b [] with
    | panic => exact costQ_crash (by rw [e20]; omega)
    | fail r e =>
      have := inputErrW_le [] p
      exact costQ_err (by simp only [e20, tick_snd, List.length_nil] at *; omega)
    | ok v r n =>
      obtain ⟨h1, h2⟩ := unquoteW_ok hu
      obtain ⟨X, hx1, hx2, hx3, hx4⟩ := sq_quoted (A := A) (unquote_len hu) hA
      have h3 := unquote_len hu
      have h0 := h v p hp
      simp only []
      revert h0
      cases d v p with
      | mk x k => cases x with
        | err p' r' e => intro h0; simp only [CostQ] at h0; exact costQ_err (by omega)
        | crash c => intro h0; simp only [CostQ] at h0; exact costQ_crash (by omega)
        | ok p' v' =>
          intro h0
          obtain ⟨h4, h5⟩ := h0
          simp only [] at h4 h5 ⊢
          have hsk := skipSpacesW_snd v'
          split
          · exact costQ_err (by omega)
          · exact costQ_ok (by omega) (by omega)

theorem decodeFromStringToIntW_square (l : Lib) {P : DV → Prop} {A s : Nat} {d : DecW} (h : CostQD P A 0 d) (hA : 300 ≤ A) (hs : s ≤ A) :
    CostQD P (20 * A) s (decodeFromStringToIntW l d) := by
  intro b p hp
  have hul := unquoteW_le b
  have hAb := sq_lin (A := A) (by omega) b
  have hA1 : A ≤ A * sq b.length := Nat.le_mul_of_pos_right _ (by have := sq_pos b.length; omega)
  have e20 : 20 * A * sq b.length = 20 * (A * sq b.length) := Nat.mul_assoc _ _ _
  unfold decodeFromStringToIntW
  split
  · have h0 := h b p hp
    revert h0
    cases d b p with
    | mk x k => cases x with
      | ok v r =>
        intro h0
        obtain ⟨h1, h2⟩ := h0
        refine costQ_ok h1 ?_
        simp only [] at h2
        have := lift_slack (L := 20 * A) (s := s + 5) (x := k) h2 (sq_lt h1) (by omega)
        simp only []; omega
      | err v r e => intro h0; simp only [CostQ] at h0; exact costQ_err (by simp only [e20]; omega)
      | crash c => intro h0; simp only [CostQ] at h0; exact costQ_crash (by simp only [e20]; omega)
  split
  · have := parseNumberW_le b
    exact costQ_err (by rw [e20]; omega)
  split
  · exact costQ_err (by rw [e20]; omega)
  · cases hu : parseStringUnquote b [] with
    | panic => exact costQ_crash (by rw [e20]; omega)
    | fail r e =>
      have := inputErrW_le [] p
      exact costQ_err (by simp only [e20, tick_snd, List.length_nil] at *; omega)
    | ok v0 r n =>
      obtain ⟨h1, h2⟩ := unquoteW_ok hu
      have h3 := unquote_len hu
      have hst := stripZeroes_len v0
      simp only []
      generalize stripZeroes v0 = v at hst ⊢
      obtain ⟨X, hx1, hx2, hx3, hx4⟩ := sq_quoted (A := A) (v := v.length) (r := r.length) (b := b.length) (by omega) hA
      have h0 := h v p hp
      have hpn := parseNumberW_le v
      have hpv := parseValueW_le v
      revert h0
      cases d v p with
      | mk x k => cases x with
        | err p' r' e =>
          intro h0; simp only [CostQ] at h0
          simp only []
          split
          · split <;> exact costQ_err (by omega)
          · revert hpn
            cases parseNumberW v with
            | mk y m => cases y with
              | ok _ _ => intro hpn; exact costQ_err (by simp only [] at hpn; omega)
              | fail _ _ =>
                intro hpn
                revert hpv
                cases parseValueW v with
                | mk z m' => cases z <;> (intro hpv; exact costQ_err (by simp only [] at hpn hpv; omega))
        | crash c => intro h0; simp only [CostQ] at h0; exact costQ_crash (by omega)
        | ok p' v' =>
          intro h0
          obtain ⟨h4, h5⟩ := h0
          simp only [] at h4 h5 ⊢
          split
          · exact costQ_err (by omega)
          · exact costQ_ok (by omega) (by omega)

/-! ### Interfaces -/

variable {c : DCfg} {dyn : Ty → DecW}

theorem ifaceValueW_square (c : DCfg) (n : Nat) (b : Bytes) (p : DV) : CostQ 60 40 b (ifaceValueW c n b p) := by
  have hl := parseValueW_le b
  have h60 : 60 * (b.length + 1) ≤ 60 * sq b.length := Nat.mul_le_mul_left _ (sq_pos _)
  cases h : parseValue b with
  | fail r e =>
    cases n with
    | zero => exact costQ_crash (by omega)
    | succ n =>
      have ef := parseValueW_fst b
      rw [h] at ef
      revert hl ef
      rcases hb : parseValueW b with ⟨x, k⟩
      intro hl ef
      simp only [] at ef hl
      subst ef
      simp only [ifaceValueW, hb]
      exact costQ_err (by omega)
  | ok v r =>
    obtain ⟨j, hj, hk⟩ := ifaceValueW_any c n p h
    have h1 : levels j ≤ v.length := levels_le_length hj
    have h2 : 60 * levels j * v.length ≤ 60 * (v.length * v.length) := by
      rw [Nat.mul_assoc]
      exact Nat.mul_le_mul_left _ (Nat.mul_le_mul_right _ h1)
    have h3 : b.length = v.length + r.length := by
      have := (parseValue_sound h).1
      rw [this]; simp
    have h4 := sq_step (show r.length + v.length ≤ b.length by omega)
    have h5 : 1 ≤ v.length := by
      obtain ⟨ch, t, rfl, _⟩ := derives_value_head hj
      simp
    have hfst := congrFun (congrFun (ifaceValueW_fst c n) b) p
    simp only [DecW.plain] at hfst
    revert hk hfst
    rcases ifaceValueW c n b p with ⟨x, k⟩
    intro hk hfst
    simp only [] at hk hfst
    cases x with
    | ok x r' =>
      obtain ⟨v', hv'⟩ := ifaceValue_rest hfst.symm
      rw [h] at hv'
      injection hv' with _ e
      subst e
      exact costQ_ok (by omega) (by omega)
    | err x r' e => exact costQ_err (by omega)
    | crash x => exact costQ_crash (by omega)

theorem parseIntoW_square {P : DV → Prop} {A s : Nat} {d : DecW} (h : CostQD P A s d) (he : ErrLen d.plain) (hA : 50 ≤ A) : CostQD P (A + 10) s (parseIntoW d) := by
  intro b p hp
  have hs := skip_len b
  have h0 := (h (skipSpacesW b).1 p hp).more 10 (Nat.le_refl _)
  have h1 := h (skipSpacesW b).1 p hp
  have he := he (skipSpacesW b).1 p
  have e1 : (A + 10) * sq b.length = A * sq b.length + 10 * sq b.length := Nat.add_mul _ _ _
  have e2 := Nat.mul_le_mul_left A (sq_mono hs.2)
  have e3 := sq_pos b.length
  unfold parseIntoW
  revert h0 h1 he
  simp only [DecW.plain]
  generalize d (skipSpacesW b).1 p = d
  obtain ⟨d, k⟩ := d
  cases d with
  | crash x => intro _ h1 _; simp only [CostQ] at h1; exact costQ_crash (by omega)
  | err x r e =>
    intro _ h1 he
    have := he _ _ _ rfl
    have hr := skip_len r
    simp only [CostQ] at h1
    exact costQ_err (by omega)
  | ok x r =>
    intro h0 _ _
    obtain ⟨h1, h2⟩ := h0
    have hr := skip_len r
    simp only [] at h1 h2 ⊢
    have h3 := excess_sq (A := A + 10) (x := (skipSpacesW b).2) (m := (skipSpacesW b).1.length) (n := b.length) (c := 1) (by omega) (by omega) (by omega)
    have h4 := excess_sq (A := A + 10) (x := (skipSpacesW r).2) (m := (skipSpacesW r).1.length) (n := r.length) (c := 1) (by omega) (by omega) (by omega)
    exact costQ_ok (by omega) (by omega)

theorem parseInvalidW_square (b : Bytes) (p : DV) : CostQ 60 20 b (parseInvalidW b p) := by
  have hs := skip_len b
  have hl := parseValueW_le (skipSpaces b)
  have h60 : 60 * (b.length + 1) ≤ 60 * sq b.length := Nat.mul_le_mul_left _ (sq_pos _)
  rw [skipSpacesW_fst] at hs
  unfold parseInvalidW parseInvalid
  cases h : parseValue (skipSpaces b) with
  | fail r e =>
    have := (parseValue_tail h).length_le
    have := skip_len r
    exact costQ_err (by simp only []; omega)
  | ok v r =>
    have := (parseValue_suf h).length_le
    have := skip_len r
    exact costQ_err (by simp only []; omega)

theorem CostQ.tick {A s k : Nat} {b : Bytes} {x : DRes × Nat} (h : CostQ A (s + k) b x) : CostQ A s b (tick k x) := by
  obtain ⟨x, l⟩ := x
  cases x with
  | ok v r => obtain ⟨h1, h2⟩ := h; simp only [] at h1 h2; exact ⟨h1, show l + k + s + _ ≤ _ by omega⟩
  | err v r e => simp only [CostQ] at h; exact (show l + k + s ≤ _ by omega)
  | crash c => simp only [CostQ] at h; exact (show l + k + s ≤ _ by omega)

/-- What holds of decoding into pointers found in interfaces: one level down it takes at most `D` times the square. -/
def DynQ (Q : Ty → Prop) (m D : Nat) (dyn : Ty → DecW) : Prop :=
  (∀ m', m = m' + 1 → ∀ t, Q t → CostQD (Held Q · m') D 0 (parseIntoW (dyn t))) ∧ DynPres Q m (plainAll dyn) ∧ ∀ t, ErrLen (dyn t).plain

section
variable {Q : Ty → Prop} {m D : Nat}

theorem dynQ_cost (hd : DynQ Q m D dyn) {t : Ty} {w : DV} (h : Held Q (.iface (.ptr t) (.ptr w)) m) (b : Bytes) : CostQ (D + 40) 40 b (parseIntoW (dyn t) b w) := by
  cases m with
  | zero => simp [Held] at h
  | succ m =>
    simp only [Held] at h
    have := (hd.1 m rfl t h.1 b w h.2).more 40 (Nat.le_refl _)
    exact this.mono (Nat.le_refl _) (by omega)

theorem decodeInterfaceW_square (hd : DynQ Q m D dyn) : CostQD (Held Q · m) (D + 90) 35 (decodeInterfaceW c dyn) := by
  intro b p hp
  unfold decodeInterfaceW
  split
  · rename_i t v
    split
    · rename_i w
      split
      · exact costQ_null (by simp_all) (by omega)
      · have h0 := (dynQ_cost hd hp b).mono (A' := D + 90) (by omega) (Nat.le_refl _)
        revert h0
        cases parseIntoW (dyn t) b w with
        | mk x k => cases x with
          | ok v r => intro h0; obtain ⟨h1, h2⟩ := h0; simp only [] at h1 h2; exact costQ_ok h1 (by omega)
          | err v r e => intro h0; simp only [CostQ] at h0; exact costQ_err (by omega)
          | crash c => intro h0; simp only [CostQ] at h0; exact costQ_crash (by omega)
    · split
      · exact costQ_null ‹_› (by omega)
      · exact ((parseInvalidW_square b _).more 30 (Nat.le_refl _)).mono (by omega) (by omega) |>.tick
  · exact (ifaceValueW_square c _ b p).mono (by omega) (by omega)

theorem decodeInterfaceW_err (hd : DynQ Q m D dyn) : ErrLen (decodeInterfaceW c dyn).plain := by
  rw [decodeInterfaceW_fst]
  exact iface_err (c := c) (dyn := plainAll dyn) hd.2.2

theorem decodeIfaceMW_square (hd : DynQ Q m D dyn) (e : Bool) : CostQD (Held Q · m) (D + 150) 20 (decodeIfaceMW c dyn e) := by
  intro b p hp
  unfold decodeIfaceMW
  split
  · exact costQ_null ‹_› (by omega)
  · have hu : CostQ (D + 150) 20 b (tick 5 (unsupportedW b p)) :=
      ((unsupportedW_cost b p).square (s' := 25) (by omega) (by omega)).tick
    split
    · split
      · rename_i t w
        have h0 := (dynQ_cost hd hp b).mono (A' := D + 150) (by omega) (Nat.le_refl _)
        revert h0
        cases parseIntoW (dyn t) b w with
        | mk x k => cases x with
          | ok v r => intro h0; obtain ⟨h1, h2⟩ := h0; simp only [] at h1 h2; exact costQ_ok h1 (by simp only []; omega)
          | err v r e => intro h0; simp only [CostQ] at h0; exact costQ_err (by simp only []; omega)
          | crash c => intro h0; simp only [CostQ] at h0; exact costQ_crash (by simp only []; omega)
      · exact ((parseInvalidW_square b _).more 30 (Nat.le_refl _)).mono (by omega) (by omega) |>.tick
      · exact hu
    · split
      · exact ((parseIntoW_square (decodeInterfaceW_square hd) (decodeInterfaceW_err hd) (by omega) b p hp).mono (by omega) (by omega)).tick
      · exact hu

end

/-! ### Types -/

theorem quad_ge (k D q : Nat) : 400 + 5 * k + D ≤ quad k D q := Nat.le_mul_of_pos_right _ (Nat.pow_pos (by omega))

theorem quad_succ (k D q : Nat) : quad k D (q + 1) = 20 * quad k D q := by
  unfold quad
  rw [Nat.pow_succ, ← Nat.mul_assoc, Nat.mul_comm]

theorem quad_mono (k D : Nat) {q q' : Nat} (h : q ≤ q') : quad k D q ≤ quad k D q' := Nat.mul_le_mul_left _ (Nat.pow_le_pow_right (by omega) h)

theorem CostD.leafQ {P : DV → Prop} {k D q E : Nat} {d : DecW} (h : CostD 50 20 E d) (hE : E ≤ 200) : CostQD P (quad k D q) (20 + 5 * k) d :=
  h.square (by have := quad_ge k D q; omega) (by have := quad_ge k D q; omega)

section
variable {Q : Ty → Prop} {m D : Nat}

mutual
theorem decW_square (hd : DynQ Q m D dyn) {k : Nat} : ∀ (t : Ty) (q : Nat), Bounded k q t →
    CostQD (Held Q · m) (quad k D q) (20 + 5 * (k - ptrs t)) (decW c dyn t)
  | .bool, q, _ => decodeBoolW_cost.leafQ (by omega)
  | .int k, q, _ => (decodeIntW_cost k).leafQ (by omega)
  | .float32, q, _ => (decodeFloatW_cost _ _).leafQ (by omega)
  | .float64, q, _ => (decodeFloatW_cost _ _).leafQ (by omega)
  | .number, q, _ => decodeNumberW_cost.leafQ (by omega)
  | .string, q, _ => decodeStringW_cost.leafQ (by omega)
  | .bytes, q, _ => decodeBytesW_cost.leafQ (by omega)
  | .duration, q, _ => (decodeDurationW_cost _).leafQ (by omega)
  | .time, q, _ => (decodeTimeW_cost _).leafQ (by omega)
  | .raw, q, _ => decodeRawW_cost.leafQ (by omega)
  | .iface, q, _ => fun b p hp =>
    ((decodeInterfaceW_square hd b p hp).more (5 * k) (by have := quad_ge k D q; omega)).mono (Nat.le_refl _) (by simp only [ptrs]; omega)
  | .ifaceM e, q, _ => fun b p hp =>
    ((decodeIfaceMW_square hd e b p hp).more (5 * k) (by have := quad_ge k D q; omega)).mono (Nat.le_refl _) (by simp only [ptrs]; omega)
  | .mapSI, q, _ => by
    have := quad_ge k D q
    exact decodeMapT_square (P := (Held Q · m)) (fun b p hp => (decodeInterfaceW_square hd b p hp).mono (by omega) (by omega)) (by omega) (by simp only [ptrs]; omega) _
      (by simp [Held])
  | .slice t, q, h => by
    have := quad_ge k D q
    exact decodeSliceT_square (decW_square hd t q (by simpa only [Bounded] using h)).any (by omega) (by simp only [ptrs]; omega) (held_zero Q m t)
      (by intro d s; simp [Held, heldL_iff])
  | .array n t, q, h => by
    have := quad_ge k D q
    exact decodeArrayW_square (decW_square hd t q (by simpa only [Bounded] using h)).any (by omega) (by simp only [ptrs]; omega) _ (held_zero Q m t)
      (by intro d; simp [Held, heldL_iff])
  | .map kt t, q, h => by
    have := quad_ge k D q
    exact decodeMapT_square (decW_square hd t q (by simpa only [Bounded] using h)).any (by omega) (by simp only [ptrs]; omega) _ (held_zero Q m t)
  | .mapRaw, q, _ => by
    have := quad_ge k D q
    exact decodeMapT_square (P := fun _ => True) (decodeRawW_cost.leafQ (k := k) (D := D) (q := q) (by omega)).any (by omega) (by simp only [ptrs]; omega) _ trivial
  | .ptr t, q, h => by
    have := quad_ge k D q
    simp only [Bounded] at h
    have ih := decW_square hd t q h.2
    rw [show 20 + 5 * (k - ptrs t) = 20 + 5 * (k - ptrs (.ptr t)) + 5 by simp only [ptrs]; omega] at ih
    exact decodePointerW_square ih (by omega) _ (held_zero Q m t) (by intro v; simp [Held])
  | .struct fs, q, h => by
    have := quad_ge k D q
    refine decodeStructT_square (decWF_square hd fs q (by simpa only [Bounded] using h)) ?_ (by simp [Held]) (by omega) (by simp only [ptrs]; omega) _
      (by intro d; simp [Held, heldL_iff])
    intro d hm
    have hf := decWF_fst (c := c) dyn fs
    have : d.plain ∈ decF c (plainAll dyn) fs := by rw [← hf]; exact List.mem_map_of_mem hm
    exact decF_pres hd.2.1 fs _ this
  | .quoted t, q, h => by
    simp only [Bounded] at h
    obtain ⟨q', rfl, h⟩ := h
    have := quad_ge k D q'
    rw [quad_succ]
    exact decodeFromStringW_square (decW_square hd t q' h).any (by omega) (by simp only [ptrs]; omega)
  | .quotedInt t, q, h => by
    simp only [Bounded] at h
    obtain ⟨q', rfl, h⟩ := h
    have := quad_ge k D q'
    rw [quad_succ]
    exact decodeFromStringToIntW_square c.lib (decW_square hd t q' h).any (by omega) (by simp only [ptrs]; omega)
  | .jsonU f, q, _ => (decodeJSONUW_cost f).leafQ (by omega)
  | .textU f, q, _ => (decodeTextUW_cost f).leafQ (by omega)
  | .unsupported, q, _ => unsupportedW_cost.leafQ (by omega)
theorem decWF_square (hd : DynQ Q m D dyn) {k : Nat} : ∀ (fs : List (Bytes × Ty)) (q : Nat), BoundedF k q fs →
    ∀ d ∈ decWF c dyn fs, CostQD (Held Q · m) (quad k D q) 0 d
  | [], _, _ => by intro d hd; simp [decWF] at hd
  | (_, t) :: fs, q, h => by
    intro d hm
    simp only [decWF, List.mem_cons] at hm
    simp only [BoundedF] at h
    rcases hm with rfl | hm
    · exact (decW_square hd t q h.1).any
    · exact decWF_square hd fs q h.2 d hm
end

end

/-- With pointers in interfaces up to `n` deep. -/
theorem decNW_square (c : DCfg) (k q : Nat) : ∀ n t, Bounded k q t → CostQD (Held (Bounded k q) · n) (perSquare k q n) 0 (decNW c n t) := by
  intro n
  induction n with
  | zero =>
    intro t ht
    refine (decW_square (Q := Bounded k q) (m := 0) (D := 0) ⟨fun m' e => by omega, fun m' e => by omega, fun t b p v r e h => by simp [DecW.plain] at h⟩ t q ht).any
  | succ n ih =>
    intro t ht
    refine (decW_square (Q := Bounded k q) (m := n + 1) (D := perSquare k q n + 10) ⟨?_, ?_, ?_⟩ t q ht).any
    · intro m' e t ht
      obtain rfl : n = m' := by omega
      refine parseIntoW_square (ih t ht) ?_ ?_
      · rw [decNW_fst]; exact decN_err c n t
      · have : quad k 0 q ≤ perSquare k q n := by
          cases n with
          | zero => exact Nat.le_refl _
          | succ n => exact Nat.mul_le_mul_right _ (by omega)
        have := quad_ge k 0 q
        omega
    · intro m' e t ht
      obtain rfl : n = m' := by omega
      show Pres _ (decNW c n t).plain
      rw [decNW_fst]; exact decN_pres c n t
    · intro t
      rw [decNW_fst]; exact decN_err c n t

/-! Pointers in interfaces do not matter where there are no interfaces. -/

mutual
theorem decW_noIface (dyn' : Ty → DecW) : ∀ t, NoIface t → decW c dyn t = decW c dyn' t
  | .bool, _ | .int _, _ | .float32, _ | .float64, _ | .number, _ | .string, _ | .bytes, _ | .duration, _ | .time, _ | .raw, _ | .mapRaw, _
  | .jsonU _, _ | .textU _, _ | .unsupported, _ => by all_goals simp only [decW]
  | .iface, h | .ifaceM _, h | .mapSI, h => by all_goals simp [NoIface] at h
  | .slice t, h | .array _ t, h | .map _ t, h | .ptr t, h | .quoted t, h | .quotedInt t, h => by
    all_goals simp only [NoIface] at h; simp only [decW, decW_noIface dyn' t h]
  | .struct fs, h => by simp only [NoIface] at h; simp only [decW, decWF_noIface dyn' fs h]
theorem decWF_noIface (dyn' : Ty → DecW) : ∀ fs, NoIfaceF fs → decWF c dyn fs = decWF c dyn' fs
  | [], _ => rfl
  | (_, t) :: fs, h => by simp only [NoIfaceF] at h; simp only [decWF, decW_noIface dyn' t h.1, decWF_noIface dyn' fs h.2]
end

end JC

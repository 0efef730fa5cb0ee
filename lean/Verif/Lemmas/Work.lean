import Verif.Model.Work
import Verif.Lemmas.ParseValue
/-!
The parser with a count of its steps returns what the parser returns, and takes no more than ten steps for each byte
it goes over.
-/
namespace JC
open Spec

/-! ### The results are those of the parser -/

theorem tick_fst {α : Type} (k : Nat) (x : α × Nat) : (tick k x).1 = x.1 := rfl
theorem tick_snd {α : Type} (k : Nat) (x : α × Nat) : (tick k x).2 = x.2 + k := rfl

theorem skipSpacesW_fst : ∀ b, (skipSpacesW b).1 = skipSpaces b
  | [] => rfl
  | c :: t => by
    rw [skipSpacesW, skipSpaces_eq, List.dropWhile_cons]
    split
    · rw [tick_fst, skipSpacesW_fst t, skipSpaces_eq]
    · rfl

theorem skipSpacesW_snd : ∀ b, (skipSpacesW b).2 + (skipSpaces b).length = b.length + 1
  | [] => rfl
  | c :: t => by
    have ih := skipSpacesW_snd t
    rw [skipSpaces_eq] at ih
    rw [skipSpacesW, skipSpaces_eq, List.dropWhile_cons]
    split
    · rw [tick_snd, List.length_cons]; omega
    · simp only []; omega

theorem indexByteW_fst : ∀ b c, (indexByteW b c).1 = indexByte b c
  | [], _ => rfl
  | x :: xs, c => by
    rw [indexByteW, indexByte]
    split
    · rfl
    · simp only []; rw [indexByteW_fst xs c]

theorem indexByteW_some : ∀ b c k, indexByte b c = some k → (indexByteW b c).2 = k + 1
  | [], _, _, h => by simp [indexByte] at h
  | x :: xs, c, k, h => by
    rw [indexByte] at h
    rw [indexByteW]
    split at h
    · rw [if_pos ‹_›]; injection h with h; rw [← h]
    · rw [if_neg ‹_›]
      obtain ⟨l, hl, rfl⟩ := Option.map_eq_some_iff.1 h
      simp only []; rw [indexByteW_some xs c l hl]

theorem indexByteW_le : ∀ b c, (indexByteW b c).2 ≤ b.length + 1
  | [], _ => by simp [indexByteW]
  | x :: xs, c => by
    rw [indexByteW]
    have := indexByteW_le xs c
    split
    · simp
    · simp only [List.length_cons]; omega

theorem skipDigitsW_fst : ∀ b, (skipDigitsW b).1 = skipDigits b
  | [] => rfl
  | c :: t => by
    rw [skipDigitsW, skipDigits]
    split
    · rw [tick_fst, skipDigitsW_fst t]
    · rfl

theorem skipDigitsW_snd : ∀ b, (skipDigitsW b).2 + (skipDigits b).length = b.length + 1
  | [] => rfl
  | c :: t => by
    have ih := skipDigitsW_snd t
    rw [skipDigitsW, skipDigits]
    split
    · rw [tick_snd, List.length_cons]; omega
    · simp; omega

theorem numExpW_fst (b s : Bytes) : (numExpW b s).1 = numExp b s := by
  unfold numExpW numExp
  cases s with
  | nil => rfl
  | cons c t =>
    simp only []
    split
    · cases t with
      | nil => rfl
      | cons d u =>
        simp only []
        by_cases hd : d = 43 ∨ d = 45
        · rw [if_pos hd]
          cases u with
          | nil => rfl
          | cons d u =>
            simp only []
            split
            · simp only [skipDigitsW_fst]
            · rfl
        · rw [if_neg hd]
          simp only []
          split
          · simp only [skipDigitsW_fst]
          · rfl
    · rfl

theorem numFracW_fst (b s : Bytes) : (numFracW b s).1 = numFrac b s := by
  unfold numFracW numFrac
  cases s with
  | nil => simp only [tick_fst, numExpW_fst]
  | cons c t =>
    simp only []
    split
    · cases t with
      | nil => rfl
      | cons d u =>
        simp only []
        split
        · simp only [tick_fst, numExpW_fst, skipDigitsW_fst]
        · rfl
    · simp only [tick_fst, numExpW_fst]

theorem parseNumberW_fst (b : Bytes) : (parseNumberW b).1 = parseNumber b := by
  unfold parseNumberW parseNumber
  cases b with
  | nil => rfl
  | cons c0 t0 =>
    simp only []
    generalize (if c0 = 45 then t0 else c0 :: t0) = s
    cases s with
    | nil => rfl
    | cons d u =>
      simp only []
      split
      · split
        · cases u with
          | nil => rfl
          | cons e u =>
            simp only []
            split
            · rfl
            · split
              · rfl
              · simp only [tick_fst, numFracW_fst, skipDigitsW_fst]
        · simp only [tick_fst, numFracW_fst, skipDigitsW_fst]
      · rfl

theorem scanStringW_fst (b : Bytes) : ∀ t i, (scanStringW b t i).1 = scanString b t i := by
  intro t i
  fun_induction scanString b t i <;> unfold scanStringW <;> simp_all [tick_fst]
  rw [if_neg (by rw [UInt8.not_lt]; assumption), tick_fst]
  assumption

theorem parseStringFastW_fst (b : Bytes) : (parseStringFastW b).1 = parseStringFast b := by
  unfold parseStringFastW parseStringFast
  split
  · rfl
  · rfl
  · rename_i q t _
    simp only [indexByteW_fst]
    split
    · rfl
    · cases indexByte t 34 with
      | none => rfl
      | some k =>
        simp only []
        by_cases h1 : indexByte (t.take (k + 1)) 92 = none
        · rw [if_pos h1]
          by_cases h2 : asciiValidPrint (t.take (k + 1)) = true
          · rw [if_pos h2, if_pos ⟨h1, h2⟩]
          · rw [if_neg h2, if_neg (fun h => h2 h.2), tick_fst, scanStringW_fst]
        · rw [if_neg h1, if_neg (fun h => h1 h.1), tick_fst, scanStringW_fst]

theorem parseStringW_fst (b : Bytes) : (parseStringW b).1 = parseString b := by
  unfold parseStringW parseString
  rw [← parseStringFastW_fst]
  cases parseStringFastW b with
  | mk x k => cases x <;> rfl

structure SameAt (n : Nat) : Prop where
  value : ∀ b, (parseValueWF n b).1 = parseValueF n b
  object : ∀ b, (parseObjectWF n b).1 = parseObjectF n b
  array : ∀ b, (parseArrayWF n b).1 = parseArrayF n b
  objLoop : ∀ a f b, (objLoopW n a f b).1 = objLoop n a f b
  objItem : ∀ a b, (objItemW n a b).1 = objItem n a b
  arrLoop : ∀ a f b, (arrLoopW n a f b).1 = arrLoop n a f b
  arrItem : ∀ a b, (arrItemW n a b).1 = arrItem n a b

theorem sameAt (n : Nat) : SameAt n := by
  induction n with
  | zero => constructor <;> intros <;> rfl
  | succ n ih =>
    constructor
    · intro b
      cases b with
      | nil => rfl
      | cons c t =>
        simp only [parseValueWF, parseValueF]
        repeat' split
        all_goals simp only [tick_fst, ih.object, ih.array, parseStringW_fst, parseNumberW_fst]
    · intro b
      unfold parseObjectWF parseObjectF
      split
      · rfl
      · cases b with
        | nil => rfl
        | cons c t =>
          simp only []
          split
          · rfl
          · rw [tick_fst, ih.objLoop]
    · intro b
      unfold parseArrayWF parseArrayF
      split
      · rfl
      · cases b with
        | nil => rfl
        | cons c t =>
          simp only []
          split
          · rfl
          · rw [tick_fst, ih.arrLoop]
    · intro a f b
      simp only [objLoopW, JC.objLoop, skipSpacesW_fst]
      generalize skipSpaces b = b
      cases b with
      | nil => rfl
      | cons c t =>
        simp only []
        split
        · rfl
        · split
          · rw [tick_fst, ih.objItem]
          · split
            · rfl
            · generalize skipSpaces t = t
              cases t with
              | nil => rfl
              | cons c t =>
                simp only []
                split
                · rfl
                · rw [tick_fst, ih.objItem]
    · intro a b
      simp only [objItemW, JC.objItem, skipSpacesW_fst]
      rw [← parseStringW_fst]
      generalize parseStringW b = q
      obtain ⟨q, k⟩ := q
      cases q with
      | fail r e => rfl
      | ok v b =>
        simp only []
        generalize skipSpaces b = b
        cases b with
        | nil => rfl
        | cons c t =>
          simp only []
          split
          · rfl
          · rw [← ih.value]
            generalize parseValueWF n (skipSpaces t) = q
            obtain ⟨q, l⟩ := q
            cases q with
            | fail r e => rfl
            | ok v r => simp only [tick_fst, ih.objLoop]
    · intro a f b
      simp only [arrLoopW, JC.arrLoop, skipSpacesW_fst]
      generalize skipSpaces b = b
      cases b with
      | nil => rfl
      | cons c t =>
        simp only []
        split
        · rfl
        · split
          · rw [tick_fst, ih.arrItem]
          · split
            · rfl
            · generalize skipSpaces t = t
              cases t with
              | nil => rfl
              | cons c t =>
                simp only []
                split
                · rfl
                · rw [tick_fst, ih.arrItem]
    · intro a b
      simp only [arrItemW, JC.arrItem]
      rw [← ih.value]
      generalize parseValueWF n b = q
      obtain ⟨q, l⟩ := q
      cases q with
      | fail r e => rfl
      | ok v r => simp only [tick_fst, ih.arrLoop]

theorem parseValueW_fst (b : Bytes) : (parseValueW b).1 = parseValue b := (sameAt _).value b

/-! ### The steps of the parser -/

/-- The steps of a parse function on `b`: if it succeeds at least one and at most ten for each byte it goes over, less
`s`; otherwise at most ten for each byte there is and `f` more. -/
def Lin (b : Bytes) (s f : Nat) (x : PR × Nat) : Prop :=
  match x.1 with
  | .ok _ r => r.length ≤ b.length ∧ x.2 + 10 * r.length + s ≤ 10 * b.length ∧ b.length ≤ r.length + x.2
  | .fail _ _ => x.2 ≤ 10 * b.length + f

theorem lin_ok {b v r : Bytes} {s f k : Nat} (h1 : r.length ≤ b.length) (h2 : k + 10 * r.length + s ≤ 10 * b.length)
    (h3 : b.length ≤ r.length + k) : Lin b s f (.ok v r, k) := ⟨h1, h2, h3⟩

theorem lin_fail {b r : Bytes} {e : Err} {s f k : Nat} (h : k ≤ 10 * b.length + f) : Lin b s f (.fail r e, k) := h

/-- A function called on what is left. -/
theorem Lin.on {b b' : Bytes} {s s' f f' k : Nat} {x : PR × Nat} (h : Lin b' s' f' x)
    (h1 : k + s + 10 * b'.length ≤ 10 * b.length + s') (h2 : b'.length ≤ b.length) (h3 : b.length ≤ b'.length + k)
    (h4 : k + 10 * b'.length + f' ≤ 10 * b.length + f) : Lin b s f (tick k x) := by
  unfold Lin at *
  rw [tick_fst, tick_snd]
  split
  · rename_i v r e
    rw [e] at h
    simp only [] at h
    omega
  · rename_i r er e
    rw [e] at h
    simp only [] at h
    omega

theorem lin_okAt {b s : Bytes} {k m f : Nat} (h1 : s.length ≤ b.length) (h2 : k + 10 * s.length + m ≤ 10 * b.length)
    (h3 : b.length ≤ s.length + k) : Lin b m f (okAt b s, k) := by
  unfold okAt
  apply lin_ok <;> simp only [List.length_drop] <;> omega

theorem lin_closeAt {a b : Bytes} {k m f : Nat} (ha : b.length ≤ a.length) {b0 : Bytes} (hb : b ≠ []) (h1 : b.length ≤ b0.length)
    (h2 : k + 10 * b.length + m ≤ 10 * b0.length + 10) (h3 : b0.length + 1 ≤ b.length + k) : Lin b0 m f (closeAt a b, k) := by
  have : 0 < b.length := List.length_pos_iff.2 hb
  unfold closeAt
  apply lin_ok <;> simp only [List.length_drop] <;> omega

theorem tick_tick {α : Type} (k l : Nat) (x : α × Nat) : tick k (tick l x) = tick (k + l) x := by
  unfold tick; simp only []; congr 1; omega

theorem tick_mk {α : Type} (k l : Nat) (x : α) : tick k (x, l) = (x, l + k) := rfl

theorem skipDigitsW_pos (u : Bytes) : 1 ≤ (skipDigitsW u).2 := by
  cases u with
  | nil => simp [skipDigitsW]
  | cons x y =>
    rw [skipDigitsW]; split
    · rw [tick_snd]; omega
    · simp

theorem numExpW_lin (b s : Bytes) (k m : Nat) (h1 : s.length < b.length) (h2 : k + 10 * s.length + m + 1 ≤ 10 * b.length)
    (h3 : b.length ≤ s.length + k) : Lin b m 9 (tick k (numExpW b s)) := by
  unfold numExpW
  cases s with
  | nil => exact lin_okAt (by simp) (by simp at *; omega) (by simp at *; omega)
  | cons c t =>
    simp only []
    split
    · have key : ∀ (d : UInt8) (u : Bytes), u.length ≤ t.length → t.length ≤ u.length + 2 → t ≠ [] →
          Lin b m 9 (tick k (if isDigit d then (okAt b (skipDigitsW u).1, (skipDigitsW u).2 + 3) else (.fail [] .syntax, 3))) := by
        intro d u hu1 hu2 hu3
        have := List.length_pos_iff.2 hu3
        split
        · have := skipDigitsW_snd u
          have : 1 ≤ (skipDigitsW u).2 := skipDigitsW_pos u
          refine lin_okAt ?_ ?_ ?_ <;> simp only [skipDigitsW_fst, List.length_cons] at * <;> omega
        · exact lin_fail (by simp at *; omega)
      cases t with
      | nil => exact lin_fail (by simp at *; omega)
      | cons d u =>
        simp only []
        by_cases hd : d = 43 ∨ d = 45
        · rw [if_pos hd]
          cases u with
          | nil => exact lin_fail (by simp at *; omega)
          | cons d u => exact key d u (by simp; omega) (by simp) (by simp)
        · rw [if_neg hd]
          exact key d u (by simp) (by simp) (by simp)
    · exact lin_okAt (by omega) (by simp at *; omega) (by simp at *; omega)

theorem numFracW_lin (b s : Bytes) (k m : Nat) (h1 : s.length < b.length) (h2 : k + 10 * s.length + m + 2 ≤ 10 * b.length)
    (h3 : b.length ≤ s.length + k) : Lin b m 9 (tick k (numFracW b s)) := by
  unfold numFracW
  cases s with
  | nil =>
    simp only [tick_tick]
    exact numExpW_lin _ _ _ _ h1 (by simp at *; omega) (by simp at *; omega)
  | cons c t =>
    simp only []
    split
    · cases t with
      | nil => exact lin_fail (by simp at *; omega)
      | cons d u =>
        simp only []
        split
        · have := skipDigitsW_snd u
          have hl : (skipDigits u).length ≤ u.length + 1 := by omega
          rw [tick_tick, skipDigitsW_fst]
          simp only [List.length_cons] at *
          apply numExpW_lin <;> omega
        · exact lin_fail (by simp at *; omega)
    · simp only [tick_tick]
      exact numExpW_lin _ _ _ _ h1 (by simp at *; omega) (by simp at *; omega)

theorem parseNumberW_lin (b : Bytes) : Lin b 3 9 (parseNumberW b) := by
  unfold parseNumberW
  cases b with
  | nil => exact lin_fail (by simp)
  | cons c0 t0 =>
    simp only []
    have hs : (if c0 = 45 then t0 else c0 :: t0).length ≤ t0.length + 1 ∧ t0.length ≤ (if c0 = 45 then t0 else c0 :: t0).length := by
      split <;> simp
    revert hs
    generalize (if c0 = 45 then t0 else c0 :: t0) = s
    intro hs
    cases s with
    | nil => exact lin_fail (by simp)
    | cons d u =>
      simp only []
      simp only [List.length_cons] at hs
      split
      · split
        · cases u with
          | nil => apply lin_okAt <;> simp only [List.length_cons, List.length_nil] at * <;> omega
          | cons e u =>
            simp only []
            split
            · apply lin_okAt <;> simp only [List.length_cons] at * <;> omega
            · split
              · exact lin_fail (by simp)
              · have := skipDigitsW_snd (e :: u)
                have he : isDigit e = false := by simpa using ‹¬ isDigit e = true›
                have hl : skipDigits (e :: u) = e :: u := by simp [skipDigits, he]
                rw [skipDigitsW_fst, hl]
                rw [hl] at this
                apply numFracW_lin <;> simp only [List.length_cons] at * <;> omega
        · have := skipDigitsW_snd (d :: u)
          have hl : skipDigits (d :: u) = skipDigits u := by simp [skipDigits, ‹isDigit d = true›]
          have hu := skipDigitsW_snd u
          have hu1 := skipDigitsW_pos u
          rw [skipDigitsW_fst, hl]
          rw [hl] at this
          apply numFracW_lin <;> simp only [List.length_cons] at * <;> omega
      · exact lin_fail (by simp only [List.length_cons]; omega)

/-! strings -/

theorem scanStringW_steps (b : Bytes) : ∀ t i, b.length = t.length + i →
    match (scanStringW b t i).1 with
    | .ok _ r _ => (scanStringW b t i).2 + r.length = t.length
    | .fail _ _ => (scanStringW b t i).2 ≤ t.length + 6 := by
  intro t i
  fun_induction scanStringW b t i <;> intro h <;> simp_all [tick_fst, tick_snd]
  · rename_i ih1
    have ih1 := ih1 (by omega)
    split
    · rename_i e1; rw [e1] at ih1; simp only [] at ih1; omega
    · rename_i e1; rw [e1] at ih1; simp only [] at ih1; omega
  · rename_i ih1
    have ih1 := ih1 (by omega)
    split
    · rename_i e1; rw [e1] at ih1; simp only [] at ih1; omega
    · rename_i e1; rw [e1] at ih1; simp only [] at ih1; omega
  · omega
  · rename_i ih1
    have ih1 := ih1 (by omega)
    split
    · rename_i e1; rw [e1] at ih1; simp only [] at ih1; omega
    · rename_i e1; rw [e1] at ih1; simp only [] at ih1; omega

/-- A string takes at most four steps for each of its bytes, less two. -/
theorem parseStringFastW_steps (b : Bytes) :
    match (parseStringFastW b).1 with
    | .ok _ r _ => r.length + 2 ≤ b.length ∧ (parseStringFastW b).2 + 4 * r.length + 2 ≤ 4 * b.length ∧
        b.length ≤ r.length + (parseStringFastW b).2
    | .fail _ _ => (parseStringFastW b).2 ≤ 4 * b.length + 7 := by
  cases hs : (parseStringFastW b).1 with
  | ok v r esc =>
    simp only []
    have hp : parseString b = .ok v r := by
      unfold parseString; rw [← parseStringFastW_fst, hs]
    obtain ⟨hb, hv⟩ := parseString_sound hp
    obtain ⟨x, hx⟩ := hv
    unfold parseStringFastW at hs ⊢
    split at hs
    · simp at hs
    · simp at hs
    · rename_i q t hne
      simp only [indexByteW_fst] at hs ⊢
      split at hs
      · simp at hs
      · rw [if_neg ‹_›]
        have ht : t = x ++ 0x22 :: r := by
          have := congrArg List.tail hb
          simpa using this
        cases hi : indexByte t 34 with
        | none => rw [hi] at hs; simp at hs
        | some k =>
          have hk : k ≤ x.length := by
            obtain ⟨p, y, hy, hpl, hpn⟩ := indexByte_some hi
            apply Nat.le_of_not_lt
            intro hlt
            have hm : (0x22 : UInt8) ∈ p := by
              have e : p ++ 34 :: y = x ++ 0x22 :: r := by rw [← hy, ht]
              have hl : p = x ++ 0x22 :: (p.drop (x.length + 1)) := by
                have h1 : (p ++ 34 :: y).take p.length = p := by simp
                rw [e] at h1
                rw [← h1]
                rw [List.take_append]
                have h2 : List.take p.length x = x := List.take_of_length_le (by omega)
                rw [h2]
                obtain ⟨m, hm⟩ : ∃ m, p.length - x.length = m + 1 := ⟨p.length - x.length - 1, by omega⟩
                rw [hm, List.take_succ_cons]
                simp [List.drop_append]
              rw [hl]; simp
            exact hpn hm
          have i1 := indexByteW_some t 34 k hi
          have htl : t.length = x.length + 1 + r.length := by rw [ht]; simp; omega
          have hlen : (t.take (k + 1)).length = k + 1 := by rw [List.length_take]; omega
          have i2 := indexByteW_le (t.take (k + 1)) 92
          have i3 : 1 ≤ (indexByteW (t.take (k + 1)) 92).2 := by
            cases (t.take (k + 1)) with
            | nil => simp [indexByteW]
            | cons x y => rw [indexByteW]; split <;> simp
          rw [hi] at hs
          simp only [] at hs ⊢
          split at hs
          · rw [if_pos ‹_›]
            split at hs
            · rw [if_pos ‹_›]
              injection hs with h1 h2 h3
              have : r.length = t.length - (k + 1) := by rw [← h2]; simp
              simp only [List.length_cons]
              omega
            · rw [if_neg ‹_›]
              rw [tick_fst] at hs
              have := scanStringW_steps (q :: t) t 1 (by simp)
              rw [hs] at this
              simp only [] at this
              simp only [tick_snd, List.length_cons]
              omega
          · rw [if_neg ‹_›]
            rw [tick_fst] at hs
            have := scanStringW_steps (q :: t) t 1 (by simp)
            rw [hs] at this
            simp only [] at this
            simp only [tick_snd, List.length_cons]
            omega
  | fail r e =>
    simp only []
    unfold parseStringFastW at hs ⊢
    split at hs
    · simp
    · simp
    · rename_i q t hne
      simp only [indexByteW_fst] at hs ⊢
      split at hs
      · rw [if_pos ‹_›]; simp
      · rw [if_neg ‹_›]
        have i0 := indexByteW_le t 34
        cases hi : indexByte t 34 with
        | none => simp only [List.length_cons]; omega
        | some k =>
          have i2 := indexByteW_le (t.take (k + 1)) 92
          have hlen : (t.take (k + 1)).length ≤ t.length := by rw [List.length_take]; omega
          rw [hi] at hs
          simp only [] at hs ⊢
          split at hs
          · rw [if_pos ‹_›]
            split at hs
            · simp at hs
            · rw [if_neg ‹_›]
              rw [tick_fst] at hs
              have := scanStringW_steps (q :: t) t 1 (by simp)
              rw [hs] at this
              simp only [] at this
              simp only [tick_snd, List.length_cons]
              omega
          · rw [if_neg ‹_›]
            rw [tick_fst] at hs
            have := scanStringW_steps (q :: t) t 1 (by simp)
            rw [hs] at this
            simp only [] at this
            simp only [tick_snd, List.length_cons]
            omega

theorem parseStringW_lin (b : Bytes) : Lin b 12 9 (parseStringW b) := by
  have h := parseStringFastW_steps b
  unfold parseStringW
  revert h
  cases parseStringFastW b with
  | mk x k =>
    cases x with
    | ok v r e => intro h; simp only [] at h ⊢; apply lin_ok <;> omega
    | fail r e => intro h; simp only [] at h ⊢; apply lin_fail; omega

structure LinAt (n : Nat) : Prop where
  value : ∀ b, Lin b 2 10 (parseValueWF n b)
  object : ∀ b, Lin b 3 9 (parseObjectWF n b)
  array : ∀ b, Lin b 3 9 (parseArrayWF n b)
  objFirst : ∀ a b, b.length ≤ a.length → Lin b 0 12 (objLoopW n a true b)
  objNext : ∀ a b, b.length ≤ a.length → Lin b 5 10 (objLoopW n a false b)
  objItem : ∀ a b, b.length ≤ a.length → Lin b 2 10 (objItemW n a b)
  arrFirst : ∀ a b, b.length ≤ a.length → Lin b 0 12 (arrLoopW n a true b)
  arrNext : ∀ a b, b.length ≤ a.length → Lin b 5 10 (arrLoopW n a false b)
  arrItem : ∀ a b, b.length ≤ a.length → Lin b 2 10 (arrItemW n a b)

theorem lin_word {b : Bytes} {p : PR} {k : Nat} (h : p = .ok (b.take k) (b.drop k) ∧ k ≤ b.length ∨ ∃ r e, p = .fail r e)
    {m : Nat} (hm : k ≤ m) (hm2 : m + 2 ≤ 10 * k) (hm3 : m ≤ 10) : Lin b 2 10 (p, m) := by
  rcases h with ⟨rfl, hk⟩ | ⟨r, e, rfl⟩
  · apply lin_ok <;> simp only [List.length_drop] <;> omega
  · exact lin_fail (by omega)

theorem linAt (n : Nat) : LinAt n := by
  induction n with
  | zero => constructor <;> intros <;> exact lin_fail (by simp)
  | succ n ih =>
    constructor
    · intro b
      cases b with
      | nil => exact lin_fail (by simp)
      | cons c t =>
        simp only [parseValueWF]
        split
        · exact (ih.object (c :: t)).on (by omega) (by omega) (by omega) (by omega)
        split
        · exact (ih.array (c :: t)).on (by omega) (by omega) (by omega) (by omega)
        split
        · exact (parseStringW_lin (c :: t)).on (by omega) (by omega) (by omega) (by omega)
        split
        · refine lin_word (k := 4) ?_ (by omega) (by omega) (by omega)
          unfold parseNull
          split
          · exact .inl ⟨rfl, by omega⟩
          · split <;> exact .inr ⟨_, _, rfl⟩
        split
        · refine lin_word (k := 4) ?_ (by omega) (by omega) (by omega)
          unfold parseTrue
          split
          · exact .inl ⟨rfl, by omega⟩
          · split <;> exact .inr ⟨_, _, rfl⟩
        split
        · refine lin_word (k := 5) ?_ (by omega) (by omega) (by omega)
          unfold parseFalse
          split
          · exact .inl ⟨rfl, by omega⟩
          · split <;> exact .inr ⟨_, _, rfl⟩
        split
        · exact (parseNumberW_lin (c :: t)).on (by omega) (by omega) (by omega) (by omega)
        · exact lin_fail (by simp)
    · intro b
      unfold parseObjectWF
      split
      · exact lin_fail (by simp)
      · cases b with
        | nil => exact lin_fail (by simp)
        | cons c t =>
          simp only []
          split
          · exact lin_fail (by simp)
          · exact (ih.objFirst (c :: t) t (by simp)).on (by simp; omega) (by simp) (by simp) (by simp; omega)
    · intro b
      unfold parseArrayWF
      split
      · exact lin_fail (by simp)
      · cases b with
        | nil => exact lin_fail (by simp)
        | cons c t =>
          simp only []
          split
          · exact lin_fail (by simp)
          · exact (ih.arrFirst (c :: t) t (by simp)).on (by simp; omega) (by simp) (by simp) (by simp; omega)
    · intro a b hab
      simp only [objLoopW, skipSpacesW_fst]
      have hs := skipSpacesW_snd b
      have hl := skipSpaces_length_le b
      revert hs hl
      generalize skipSpaces b = s
      intro hs hl
      cases s with
      | nil => exact lin_fail (by simp at *; omega)
      | cons c t =>
        simp only [List.length_cons] at hs hl
        simp only []
        split
        · refine lin_closeAt ?_ (by simp) ?_ ?_ ?_ <;> simp only [List.length_cons] <;> omega
        · rw [if_pos trivial]
          refine (ih.objItem a (c :: t) (by simp only [List.length_cons]; omega)).on ?_ ?_ ?_ ?_ <;> simp only [List.length_cons] <;> omega
    · intro a b hab
      simp only [objLoopW, skipSpacesW_fst]
      have hs := skipSpacesW_snd b
      have hl := skipSpaces_length_le b
      revert hs hl
      generalize skipSpaces b = s
      intro hs hl
      cases s with
      | nil => exact lin_fail (by simp at *; omega)
      | cons c t =>
        simp only [List.length_cons] at hs hl
        simp only []
        split
        · refine lin_closeAt ?_ (by simp) ?_ ?_ ?_ <;> simp only [List.length_cons] <;> omega
        · rw [if_neg (by simp)]
          split
          · exact lin_fail (by omega)
          · have hs' := skipSpacesW_snd t
            have hl' := skipSpaces_length_le t
            revert hs' hl'
            generalize skipSpaces t = u
            intro hs' hl'
            cases u with
            | nil => exact lin_fail (by simp at *; omega)
            | cons c u =>
              simp only [List.length_cons] at hs' hl'
              simp only []
              split
              · exact lin_fail (by omega)
              · refine (ih.objItem a (c :: u) (by simp only [List.length_cons]; omega)).on ?_ ?_ ?_ ?_ <;> simp only [List.length_cons] <;> omega
    · intro a b hab
      simp only [objItemW]
      have hv := parseStringW_lin b
      revert hv
      cases parseStringW b with
      | mk x k =>
        intro hv
        cases x with
        | fail r e =>
          have : k ≤ 10 * b.length + 9 := hv
          exact lin_fail (by omega)
        | ok v r =>
          obtain ⟨h1, h2, h3⟩ := hv
          simp only [] at h1 h2 h3
          simp only [skipSpacesW_fst]
          have hs := skipSpacesW_snd r
          have hl := skipSpaces_length_le r
          revert hs hl
          generalize skipSpaces r = s
          intro hs hl
          cases s with
          | nil => exact lin_fail (by simp at *; omega)
          | cons c t =>
            simp only [List.length_cons] at hs hl
            simp only []
            split
            · exact lin_fail (by omega)
            · have hs' := skipSpacesW_snd t
              have hl' := skipSpaces_length_le t
              revert hs' hl'
              generalize skipSpaces t = u
              intro hs' hl'
              have hv := ih.value u
              revert hv
              cases parseValueWF n u with
              | mk x l =>
                intro hv
                cases x with
                | fail q e =>
                  have : l ≤ 10 * u.length + 10 := hv
                  exact lin_fail (by omega)
                | ok v q =>
                  obtain ⟨g1, g2, g3⟩ := hv
                  simp only [] at g1 g2 g3 ⊢
                  exact (ih.objNext a q (by omega)).on (by omega) (by omega) (by omega) (by omega)
    · intro a b hab
      simp only [arrLoopW, skipSpacesW_fst]
      have hs := skipSpacesW_snd b
      have hl := skipSpaces_length_le b
      revert hs hl
      generalize skipSpaces b = s
      intro hs hl
      cases s with
      | nil => exact lin_fail (by simp at *; omega)
      | cons c t =>
        simp only [List.length_cons] at hs hl
        simp only []
        split
        · refine lin_closeAt ?_ (by simp) ?_ ?_ ?_ <;> simp only [List.length_cons] <;> omega
        · rw [if_pos trivial]
          refine (ih.arrItem a (c :: t) (by simp only [List.length_cons]; omega)).on ?_ ?_ ?_ ?_ <;> simp only [List.length_cons] <;> omega
    · intro a b hab
      simp only [arrLoopW, skipSpacesW_fst]
      have hs := skipSpacesW_snd b
      have hl := skipSpaces_length_le b
      revert hs hl
      generalize skipSpaces b = s
      intro hs hl
      cases s with
      | nil => exact lin_fail (by simp at *; omega)
      | cons c t =>
        simp only [List.length_cons] at hs hl
        simp only []
        split
        · refine lin_closeAt ?_ (by simp) ?_ ?_ ?_ <;> simp only [List.length_cons] <;> omega
        · rw [if_neg (by simp)]
          split
          · exact lin_fail (by omega)
          · have hs' := skipSpacesW_snd t
            have hl' := skipSpaces_length_le t
            revert hs' hl'
            generalize skipSpaces t = u
            intro hs' hl'
            cases u with
            | nil => exact lin_fail (by simp at *; omega)
            | cons c u =>
              simp only [List.length_cons] at hs' hl'
              simp only []
              split
              · exact lin_fail (by omega)
              · refine (ih.arrItem a (c :: u) (by simp only [List.length_cons]; omega)).on ?_ ?_ ?_ ?_ <;> simp only [List.length_cons] <;> omega
    · intro a b hab
      simp only [arrItemW]
      have hv := ih.value b
      revert hv
      cases parseValueWF n b with
      | mk x l =>
        intro hv
        cases x with
        | fail r e => exact hv
        | ok v r =>
          obtain ⟨h1, h2, h3⟩ := hv
          simp only [] at h1 h2 h3 ⊢
          exact (ih.arrNext a r (by omega)).on (by omega) (by omega) (by omega) (by omega)

/-- Parsing takes at most ten steps for each byte of the value, or of the text if there is none. -/
theorem parseValueW_lin (b : Bytes) : Lin b 2 10 (parseValueW b) := (linAt _).value b

end JC

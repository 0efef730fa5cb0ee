import Verif.Lemmas.Ascii
import Verif.Spec.Grammar
import Verif.Model.Parse
/-! Helper lemmas: bytes, whitespace, digits, hexadecimal. -/
namespace JC
open Spec

theorem isSpace_iff (c : UInt8) : isSpace c = true ↔ IsWs c := by
  simp only [isSpace, Bool.or_eq_true, beq_iff_eq]
  constructor
  · rintro (((rfl | rfl) | rfl) | rfl) <;> constructor
  · rintro (_ | _ | _ | _) <;> simp

theorem isDigit_iff (c : UInt8) : isDigit c = true ↔ Digit c := by
  simp [isDigit, Digit]

theorem isSimpleEsc_iff (c : UInt8) : isSimpleEsc c = true ↔ SimpleEsc c := by
  simp only [isSimpleEsc, SimpleEsc, Bool.or_eq_true, beq_iff_eq]
  constructor
  · rintro (((((((rfl | rfl) | rfl) | rfl) | rfl) | rfl) | rfl) | rfl) <;> simp
  · rintro (rfl | rfl | rfl | rfl | rfl | rfl | rfl | rfl) <;> simp

theorem _root_.JC.Spec.Ws.nil : Ws [] := by simp [Ws]
theorem _root_.JC.Spec.Ws.append {a b : Bytes} (ha : Ws a) (hb : Ws b) : Ws (a ++ b) := by
  intro c hc; rcases List.mem_append.1 hc with h | h
  · exact ha c h
  · exact hb c h
theorem _root_.JC.Spec.Ws.cons {c : UInt8} {b : Bytes} (hc : IsWs c) (hb : Ws b) : Ws (c :: b) := by
  intro d hd; rcases List.mem_cons.1 hd with rfl | h
  · exact hc
  · exact hb d h

theorem skipSpacesN_fst (b : Bytes) : (skipSpacesN b).1 = b.dropWhile isSpace := by
  induction b with
  | nil => rfl
  | cons c t ih =>
    simp only [skipSpacesN, List.dropWhile_cons]
    split
    · rw [← ih]
      split
      · rename_i h; rw [h]
      · rename_i h; rw [h]
    · rfl

theorem skipSpaces_eq (b : Bytes) : skipSpaces b = b.dropWhile isSpace := skipSpacesN_fst b

/-- the whitespace skipped by `skipSpaces` -/
def wsPrefix (b : Bytes) : Bytes := b.takeWhile isSpace

theorem wsPrefix_ws (b : Bytes) : Ws (wsPrefix b) := by
  intro c hc
  have : ∀ l : Bytes, c ∈ l.takeWhile isSpace → isSpace c = true := by
    intro l
    induction l with
    | nil => simp
    | cons d t ih =>
      simp only [List.takeWhile_cons]
      split
      · intro h
        rcases List.mem_cons.1 h with rfl | h
        · assumption
        · exact ih h
      · simp
  exact (isSpace_iff c).1 (this b hc)

theorem wsPrefix_append (b : Bytes) : wsPrefix b ++ skipSpaces b = b := by
  rw [skipSpaces_eq]; exact List.takeWhile_append_dropWhile

theorem skipSpaces_length_le (b : Bytes) : (skipSpaces b).length ≤ b.length := by
  have h := congrArg List.length (wsPrefix_append b)
  rw [List.length_append] at h; omega

theorem skipSpaces_cons_of_not {c : UInt8} {t : Bytes} (h : isSpace c = false) :
    skipSpaces (c :: t) = c :: t := by
  rw [skipSpaces_eq, List.dropWhile_cons]; simp [h]

theorem skipSpaces_nil : skipSpaces [] = [] := rfl

theorem skipSpaces_ws_append {w : Bytes} (h : Ws w) (b : Bytes) : skipSpaces (w ++ b) = skipSpaces b := by
  induction w with
  | nil => rfl
  | cons c t ih =>
    have hc : isSpace c = true := (isSpace_iff c).2 (h c (by simp))
    rw [List.cons_append, skipSpaces_eq, List.dropWhile_cons, if_pos hc, ← skipSpaces_eq]
    exact ih (fun d hd => h d (by simp [hd]))

theorem skipSpaces_ws {w : Bytes} (h : Ws w) : skipSpaces w = [] := by
  have := skipSpaces_ws_append h []
  rwa [List.append_nil] at this

theorem skipSpaces_head (b : Bytes) (c : UInt8) (t : Bytes) (h : skipSpaces b = c :: t) : isSpace c = false := by
  induction b with
  | nil => simp [skipSpaces, skipSpacesN] at h
  | cons d s ih =>
    rw [skipSpaces_eq, List.dropWhile_cons] at h
    split at h
    · exact ih (by rw [skipSpaces_eq]; exact h)
    · injection h with h1 h2
      subst h1
      simpa using ‹¬ isSpace d = true›

theorem skipSpaces_eq_nil {b : Bytes} (h : skipSpaces b = []) : Ws b := by
  have := wsPrefix_append b
  rw [h, List.append_nil] at this
  rw [← this]; exact wsPrefix_ws b

theorem skipSpaces_idem (b : Bytes) : skipSpaces (skipSpaces b) = skipSpaces b := by
  cases h : skipSpaces b with
  | nil => rfl
  | cons c t => exact skipSpaces_cons_of_not (skipSpaces_head b c t h)

theorem exists_skip (b : Bytes) : ∃ w, Ws w ∧ b = w ++ skipSpaces b :=
  ⟨wsPrefix b, wsPrefix_ws b, (wsPrefix_append b).symm⟩

/-! digits -/

theorem skipDigits_append (ds r : Bytes) (hd : ∀ c ∈ ds, Digit c)
    (hr : ∀ c, r.head? = some c → isDigit c = false) : skipDigits (ds ++ r) = r := by
  induction ds with
  | nil =>
    cases r with
    | nil => rfl
    | cons c t => simp [skipDigits, hr c rfl]
  | cons d t ih =>
    have := (isDigit_iff d).2 (hd d (by simp))
    simp only [List.cons_append, skipDigits, this, if_true]
    exact ih (fun c hc => hd c (by simp [hc]))

theorem exists_skipDigits (s : Bytes) : ∃ ds, s = ds ++ skipDigits s ∧ (∀ c ∈ ds, Digit c) ∧
    (∀ c, (skipDigits s).head? = some c → isDigit c = false) := by
  induction s with
  | nil => exact ⟨[], rfl, by simp, by simp [skipDigits]⟩
  | cons c t ih =>
    by_cases h : isDigit c = true
    · obtain ⟨ds, h1, h2, h3⟩ := ih
      refine ⟨c :: ds, ?_, ?_, ?_⟩
      · simp only [skipDigits, h, if_true, List.cons_append]; rw [← h1]
      · intro d hd
        rcases List.mem_cons.1 hd with rfl | hd
        · exact (isDigit_iff d).1 h
        · exact h2 d hd
      · simp only [skipDigits, h, if_true]; exact h3
    · refine ⟨[], ?_, by simp, ?_⟩
      · simp [skipDigits, h]
      · simp only [Bool.not_eq_true] at h
        simp [skipDigits, h]

theorem okAt_append (p r : Bytes) : okAt (p ++ r) r = .ok p r := by
  simp [okAt]

/-! hexadecimal -/

theorem hexVal_isSome_iff (c : UInt8) : (hexVal c).isSome = true ↔ HexDigit c := by
  unfold hexVal HexDigit
  split
  · simp_all
  · split
    · simp_all
    · split <;> simp_all

theorem hexVal_lt {c : UInt8} {x : Nat} (h : hexVal c = some x) : x < 16 := by
  unfold hexVal at h
  simp only [UInt8.le_iff_toNat_le] at h
  have e1 : (0x30 : UInt8).toNat = 48 := rfl
  have e2 : (0x39 : UInt8).toNat = 57 := rfl
  have e3 : (0x41 : UInt8).toNat = 65 := rfl
  have e4 : (0x46 : UInt8).toNat = 70 := rfl
  have e5 : (0x61 : UInt8).toNat = 97 := rfl
  have e6 : (0x66 : UInt8).toNat = 102 := rfl
  rw [e1, e2, e3, e4, e5, e6] at h
  split at h
  · injection h; omega
  · split at h
    · injection h; omega
    · split at h
      · injection h; omega
      · contradiction

theorem parseUnicode_some {b : Bytes} {u : Nat} (h : parseUnicode b = some u) :
    ∃ h1 h2 h3 h4 t x1 x2 x3 x4, b = h1 :: h2 :: h3 :: h4 :: t ∧ hexVal h1 = some x1 ∧
      hexVal h2 = some x2 ∧ hexVal h3 = some x3 ∧ hexVal h4 = some x4 ∧
      u = ((x1 * 16 + x2) * 16 + x3) * 16 + x4 := by
  unfold parseUnicode at h
  match b, h with
  | h1 :: h2 :: h3 :: h4 :: t, h =>
    have hl : ¬ (h1 :: h2 :: h3 :: h4 :: t).length < 4 := by simp
    rw [if_neg hl] at h
    simp only [List.take_succ_cons, List.take_zero, parseUintHex, reduceCtorEq, if_false, parseUintHexLoop] at h
    cases e1 : hexVal h1 with
    | none => simp [e1] at h
    | some x1 =>
      have l1 := hexVal_lt e1
      cases e2 : hexVal h2 with
      | none => simp [e1, e2] at h
      | some x2 =>
        have l2 := hexVal_lt e2
        cases e3 : hexVal h3 with
        | none =>
          simp only [e1, e2, e3, Nat.zero_mul] at h
          repeat (first | rw [if_neg (by omega)] at h)
          simp at h
        | some x3 =>
          have l3 := hexVal_lt e3
          cases e4 : hexVal h4 with
          | none =>
            simp only [e1, e2, e3, e4, Nat.zero_mul] at h
            repeat (first | rw [if_neg (by omega)] at h)
            simp at h
          | some x4 =>
            have l4 := hexVal_lt e4
            simp only [e1, e2, e3, e4, Nat.zero_mul] at h
            repeat (first | rw [if_neg (by omega)] at h)
            refine ⟨h1, h2, h3, h4, t, x1, x2, x3, x4, rfl, e1, e2, e3, e4, ?_⟩
            simp at h
            omega

theorem parseUnicode_of_hex {h1 h2 h3 h4 : UInt8} {t : Bytes} {x1 x2 x3 x4 : Nat}
    (e1 : hexVal h1 = some x1) (e2 : hexVal h2 = some x2) (e3 : hexVal h3 = some x3)
    (e4 : hexVal h4 = some x4) :
    parseUnicode (h1 :: h2 :: h3 :: h4 :: t) = some (((x1 * 16 + x2) * 16 + x3) * 16 + x4) := by
  have l1 := hexVal_lt e1
  have l2 := hexVal_lt e2
  have l3 := hexVal_lt e3
  have l4 := hexVal_lt e4
  unfold parseUnicode
  have hl : ¬ (h1 :: h2 :: h3 :: h4 :: t).length < 4 := by simp
  rw [if_neg hl]
  simp only [List.take_succ_cons, List.take_zero, parseUintHex, reduceCtorEq, if_false, parseUintHexLoop]
  simp only [e1, e2, e3, e4, Nat.zero_mul]
  repeat (first | rw [if_neg (by omega)])
  simp

theorem _root_.JC.Spec.HexDigit.val {c : UInt8} (h : HexDigit c) : ∃ x, hexVal c = some x :=
  Option.isSome_iff_exists.1 ((hexVal_isSome_iff c).2 h)

theorem _root_.JC.Spec.HexDigit.of_val {c : UInt8} {x : Nat} (h : hexVal c = some x) : HexDigit c :=
  (hexVal_isSome_iff c).1 (by rw [h]; rfl)

/-! indexByte -/

theorem indexByte_none {b : Bytes} {c : UInt8} : indexByte b c = none ↔ c ∉ b := by
  induction b with
  | nil => simp [indexByte]
  | cons d t ih =>
    simp only [indexByte]
    split
    · simp_all
    · simp only [Option.map_eq_none_iff, ih, List.mem_cons]
      have : c ≠ d := fun h => ‹¬ d = c› h.symm
      simp [this]

theorem indexByte_some {b : Bytes} {c : UInt8} {k : Nat} (h : indexByte b c = some k) :
    ∃ p r, b = p ++ c :: r ∧ p.length = k ∧ c ∉ p := by
  induction b generalizing k with
  | nil => simp [indexByte] at h
  | cons d t ih =>
    simp only [indexByte] at h
    split at h
    · injection h with h; subst h
      exact ⟨[], t, by simp_all, rfl, by simp⟩
    · simp only [Option.map_eq_some_iff] at h
      obtain ⟨k', hk, rfl⟩ := h
      obtain ⟨p, r, rfl, hl, hn⟩ := ih hk
      refine ⟨d :: p, r, rfl, by simp [hl], ?_⟩
      have : c ≠ d := fun h => ‹¬ d = c› h.symm
      simp [this, hn]

theorem indexByte_append {p r : Bytes} {c : UInt8} (h : c ∉ p) : indexByte (p ++ c :: r) c = some p.length := by
  induction p with
  | nil => simp [indexByte]
  | cons d t ih =>
    have : ¬ d = c := by intro hh; apply h; simp [hh]
    simp only [List.cons_append, indexByte, this, if_false]
    rw [ih (by intro hh; apply h; simp [hh])]
    simp

end JC

import Verif.Lemmas.ParseFuel
import Verif.Lemmas.Unique
import Verif.Lemmas.ParseValue
import Verif.Spec.Stream
/-! How the scanner behaves on a beginning of a longer text: what it accepts or
rejects before reaching the end stays accepted or rejected. -/
namespace JC
open Spec

theorem skipSpaces_ext {b : Bytes} (h : skipSpaces b ≠ []) (s : Bytes) : skipSpaces (b ++ s) = skipSpaces b ++ s := by
  rw [skipSpaces_eq] at *
  rw [skipSpaces_eq]
  induction b with
  | nil => simp at h
  | cons c t ih =>
    rw [List.cons_append, List.dropWhile_cons, List.dropWhile_cons]
    rw [List.dropWhile_cons] at h
    split
    · rename_i hc; rw [if_pos hc] at h; exact ih h
    · rfl

theorem skipDigits_ext {b : Bytes} (h : skipDigits b ≠ []) (s : Bytes) : skipDigits (b ++ s) = skipDigits b ++ s := by
  induction b with
  | nil => simp [skipDigits] at h
  | cons c t ih =>
    rw [List.cons_append]
    simp only [skipDigits] at *
    split
    · rename_i hc; rw [if_pos hc] at h; exact ih h
    · rfl

theorem okAt_ext {b rest v r : Bytes} (h : okAt b rest = .ok v r) (s : Bytes) : okAt (b ++ s) (rest ++ s) = .ok v (r ++ s) := by
  unfold okAt at *
  injection h with h1 h2
  have e : (b ++ s).length - (rest ++ s).length = b.length - rest.length := by simp only [List.length_append]; omega
  rw [e, List.take_append_of_le_length (by omega), List.drop_append_of_le_length (by omega), h1, h2]

theorem okAt_ne {b rest v r : Bytes} (h : okAt b rest = .ok v r) (hr : r ≠ []) : rest ≠ [] := by
  unfold okAt at h
  injection h with h1 h2
  rintro rfl
  simp at h2
  exact hr h2

theorem numExp_ext {b x v r : Bytes} (h : numExp b x = .ok v r) (hr : r ≠ []) (s : Bytes) : numExp (b ++ s) (x ++ s) = .ok v (r ++ s) := by
  cases x with
  | nil => exact absurd rfl (okAt_ne h hr)
  | cons c t =>
    rw [List.cons_append]
    unfold numExp at *
    simp only [] at *
    split
    · rename_i hc
      rw [if_pos hc] at h
      cases t with
      | nil => simp at h
      | cons d u =>
        rw [List.cons_append]
        simp only [] at *
        by_cases hd : d = 43 ∨ d = 45
        · rw [if_pos hd] at h ⊢
          cases u with
          | nil => simp at h
          | cons d' u =>
            simp only [List.cons_append] at *
            split
            · rename_i hd'
              rw [if_pos hd'] at h
              rw [skipDigits_ext (okAt_ne h hr)]
              exact okAt_ext h s
            · rename_i hd'; rw [if_neg hd'] at h; cases h
        · rw [if_neg hd] at h ⊢
          simp only [List.cons_append] at *
          split
          · rename_i hd'
            rw [if_pos hd'] at h
            rw [skipDigits_ext (okAt_ne h hr)]
            exact okAt_ext h s
          · rename_i hd'; rw [if_neg hd'] at h; cases h
    · rename_i hc
      rw [if_neg hc] at h
      exact okAt_ext h s

theorem numExp_fail {b x r : Bytes} {e : Err} (h : numExp b x = .fail r e) : r = [] := by
  unfold numExp at h
  simp only [okAt] at h
  repeat' split at h
  all_goals first | (injection h with h; exact h.symm) | cases h

theorem numFrac_ext {b x v r : Bytes} (h : numFrac b x = .ok v r) (hr : r ≠ []) (s : Bytes) : numFrac (b ++ s) (x ++ s) = .ok v (r ++ s) := by
  cases x with
  | nil => exact absurd rfl (okAt_ne h hr)
  | cons c t =>
    rw [List.cons_append]
    unfold numFrac at *
    simp only [] at *
    split
    · rename_i hc
      rw [if_pos hc] at h
      cases t with
      | nil => simp at h
      | cons d u =>
        simp only [List.cons_append] at *
        split
        · rename_i hd
          rw [if_pos hd] at h
          have hne : skipDigits u ≠ [] := by
            intro e; rw [e] at h; exact okAt_ne h hr rfl
          rw [skipDigits_ext hne]
          exact numExp_ext h hr s
        · rename_i hd; rw [if_neg hd] at h; cases h
    · rename_i hc
      rw [if_neg hc] at h
      exact numExp_ext h hr s

theorem numFrac_fail {b x r : Bytes} {e : Err} (h : numFrac b x = .fail r e) (hr : r ≠ []) (b' s v' r' : Bytes) : numFrac b' (x ++ s) ≠ .ok v' r' := by
  cases x with
  | nil => simp [numFrac, numExp, okAt] at h
  | cons c t =>
    rw [List.cons_append]
    unfold numFrac at *
    simp only [] at *
    split
    · rename_i hc
      rw [if_pos hc] at h
      cases t with
      | nil => simp at h; exact absurd h.1 hr
      | cons d u =>
        simp only [List.cons_append] at *
        split
        · rename_i hd
          rw [if_pos hd] at h
          exact absurd (numExp_fail h) hr
        · simp
    · rename_i hc
      rw [if_neg hc] at h
      exact absurd (numExp_fail h) hr

theorem parseNumber_ext {b v r : Bytes} (h : parseNumber b = .ok v r) (hr : r ≠ []) (s : Bytes) : parseNumber (b ++ s) = .ok v (r ++ s) := by
  cases b with
  | nil => simp [parseNumber] at h
  | cons c0 t0 =>
    rw [List.cons_append]
    unfold parseNumber at *
    simp only [] at *
    have key : ∀ x : Bytes, (match x with
        | [] => PR.fail [] Err.syntax
        | d :: u =>
          if isDigit d = true then
            if d = 48 then
              match u with
              | [] => okAt (c0 :: t0) u
              | e :: _ =>
                if e ≠ 46 ∧ e ≠ 101 ∧ e ≠ 69 then okAt (c0 :: t0) u
                else if isDigit e = true then PR.fail u Err.syntax else numFrac (c0 :: t0) (skipDigits u)
            else numFrac (c0 :: t0) (skipDigits x)
          else PR.fail x Err.syntax) = .ok v r →
        (match x ++ s with
        | [] => PR.fail [] Err.syntax
        | d :: u =>
          if isDigit d = true then
            if d = 48 then
              match u with
              | [] => okAt (c0 :: t0 ++ s) u
              | e :: _ =>
                if e ≠ 46 ∧ e ≠ 101 ∧ e ≠ 69 then okAt (c0 :: t0 ++ s) u
                else if isDigit e = true then PR.fail u Err.syntax else numFrac (c0 :: t0 ++ s) (skipDigits u)
            else numFrac (c0 :: t0 ++ s) (skipDigits (x ++ s))
          else PR.fail (x ++ s) Err.syntax) = .ok v (r ++ s) := by
      intro x h
      cases x with
      | nil => simp at h
      | cons d u =>
        simp only [List.cons_append] at *
        split
        · rename_i hd
          rw [if_pos hd] at h
          split
          · rename_i h0
            rw [if_pos h0] at h
            cases u with
            | nil => exact absurd rfl (okAt_ne h hr)
            | cons e w =>
              simp only [List.cons_append] at *
              split
              · rename_i he
                rw [if_pos he] at h
                exact okAt_ext h s
              · rename_i he
                rw [if_neg he] at h
                split
                · rename_i he'; rw [if_pos he'] at h; cases h
                · rename_i he'
                  rw [if_neg he'] at h
                  have hne : skipDigits (e :: w) ≠ [] := by
                    intro e; rw [e] at h; exact okAt_ne h hr rfl
                  have := skipDigits_ext hne s
                  rw [List.cons_append] at this
                  rw [this]
                  exact numFrac_ext h hr s
          · rename_i h0
            rw [if_neg h0] at h
            have hne : skipDigits (d :: u) ≠ [] := by
              intro e; rw [e] at h; exact okAt_ne h hr rfl
            have := skipDigits_ext hne s
            rw [List.cons_append] at this
            rw [this]
            exact numFrac_ext h hr s
        · rename_i hd; rw [if_neg hd] at h; cases h
    by_cases hc : c0 = 45
    · rw [if_pos hc] at h ⊢
      exact key t0 h
    · rw [if_neg hc] at h ⊢
      exact key (c0 :: t0) h

theorem parseNumber_cut {b r : Bytes} {e : Err} (h : parseNumber b = .fail r e) (hr : r ≠ []) (s v' r' : Bytes) :
    parseNumber (b ++ s) ≠ .ok v' r' := by
  cases b with
  | nil => simp [parseNumber] at h; exact absurd h.1 hr
  | cons c0 t0 =>
    rw [List.cons_append]
    unfold parseNumber at *
    simp only [] at *
    have key : ∀ x : Bytes, (match x with
        | [] => PR.fail [] Err.syntax
        | d :: u =>
          if isDigit d = true then
            if d = 48 then
              match u with
              | [] => okAt (c0 :: t0) u
              | e :: _ =>
                if e ≠ 46 ∧ e ≠ 101 ∧ e ≠ 69 then okAt (c0 :: t0) u
                else if isDigit e = true then PR.fail u Err.syntax else numFrac (c0 :: t0) (skipDigits u)
            else numFrac (c0 :: t0) (skipDigits x)
          else PR.fail x Err.syntax) = .fail r e →
        (match x ++ s with
        | [] => PR.fail [] Err.syntax
        | d :: u =>
          if isDigit d = true then
            if d = 48 then
              match u with
              | [] => okAt (c0 :: t0 ++ s) u
              | e :: _ =>
                if e ≠ 46 ∧ e ≠ 101 ∧ e ≠ 69 then okAt (c0 :: t0 ++ s) u
                else if isDigit e = true then PR.fail u Err.syntax else numFrac (c0 :: t0 ++ s) (skipDigits u)
            else numFrac (c0 :: t0 ++ s) (skipDigits (x ++ s))
          else PR.fail (x ++ s) Err.syntax) ≠ .ok v' r' := by
      intro x h
      cases x with
      | nil => simp at h; exact absurd h.1 hr
      | cons d u =>
        simp only [List.cons_append] at *
        split
        · rename_i hd
          rw [if_pos hd] at h
          split
          · rename_i h0
            rw [if_pos h0] at h
            cases u with
            | nil => simp [okAt] at h
            | cons e w =>
              simp only [List.cons_append] at *
              split
              · rename_i he
                rw [if_pos he] at h
                simp [okAt] at h
              · rename_i he
                rw [if_neg he] at h
                split
                · simp
                · rename_i he'
                  rw [if_neg he'] at h
                  have hne : skipDigits (e :: w) ≠ [] := by
                    intro e; rw [e] at h; simp [numFrac, numExp, okAt] at h
                  have := skipDigits_ext hne s
                  rw [List.cons_append] at this
                  rw [this]
                  exact numFrac_fail h hr _ s _ _
          · rename_i h0
            rw [if_neg h0] at h
            have hne : skipDigits (d :: u) ≠ [] := by
              intro e; rw [e] at h; simp [numFrac, numExp, okAt] at h
            have := skipDigits_ext hne s
            rw [List.cons_append] at this
            rw [this]
            exact numFrac_fail h hr _ s _ _
        · simp
    by_cases hc : c0 = 45
    · rw [if_pos hc] at h ⊢
      exact key t0 h
    · rw [if_neg hc] at h ⊢
      exact key (c0 :: t0) h

/-! ### strings -/

/-- The text ends inside a `\u` escape, in a string with a `\"` before it. -/
def BadCut (b : Bytes) : Prop := ∃ x y h, b = x ++ 0x5c :: 0x22 :: (y ++ 0x5c :: 0x75 :: h) ∧ JChars y ∧ h.length < 4

theorem BadCut.suffix {p b : Bytes} (h : BadCut b) : BadCut (p ++ b) := by
  obtain ⟨x, y, z, rfl, h1, h2⟩ := h
  exact ⟨p ++ x, y, z, by simp, h1, h2⟩

theorem BadCut.tail {c : UInt8} {b : Bytes} (h : BadCut b) : BadCut (c :: b) := BadCut.suffix (p := [c]) h

theorem BadCut.skip {b : Bytes} (h : BadCut (skipSpaces b)) : BadCut b := by
  rw [← wsPrefix_append b]; exact h.suffix

theorem BadCut.quote {b s : Bytes} (h : BadCut b) : QuoteThenU (b ++ s) := by
  obtain ⟨x, y, z, rfl, h1, h2⟩ := h
  exact ⟨x, y, z ++ s, by simp, h1⟩

theorem unicode_quote {b : Bytes} (h : 0x22 ∈ b.take 4) : parseUnicode b = none := by
  cases e : parseUnicode b with
  | none => rfl
  | some u =>
    obtain ⟨h1, h2, h3, h4, t, x1, x2, x3, x4, rfl, v1, v2, v3, v4, _⟩ := parseUnicode_some e
    simp only [List.take_succ_cons, List.take_zero, List.mem_cons, List.not_mem_nil, or_false] at h
    have : hexVal 0x22 = none := by decide
    rcases h with rfl | rfl | rfl | rfl <;> simp_all

/-- a quote inside a sequence of characters is escaped -/
theorem jchars_has_quote {y : Bytes} (hy : JChars y) (h : 0x22 ∈ y) : ∃ a b, y = a ++ 0x5c :: 0x22 :: b ∧ JChars b := by
  induction hy with
  | nil => simp at h
  | plain c b h1 h2 h3 h4 ih =>
    rcases List.mem_cons.1 h with h | h
    · exact absurd h.symm h2
    · obtain ⟨p, q, rfl, hq⟩ := ih h
      exact ⟨c :: p, q, rfl, hq⟩
  | esc e b h1 h2 ih =>
    by_cases he : e = 0x22
    · subst he; exact ⟨[], b, rfl, h2⟩
    · have : 0x22 ∈ b := by simpa [Ne.symm he] using h
      obtain ⟨p, q, rfl, hq⟩ := ih this
      exact ⟨0x5c :: e :: p, q, rfl, hq⟩
  | uni h1 h2 h3 h4 b e1 e2 e3 e4 hb ih =>
    have ne : ∀ {d : UInt8}, HexDigit d → 0x22 ≠ d := by
      rintro d hd rfl; revert hd; unfold HexDigit; decide
    have : 0x22 ∈ b := by simpa [ne e1, ne e2, ne e3, ne e4] using h
    obtain ⟨p, q, rfl, hq⟩ := ih this
    exact ⟨0x5c :: 0x75 :: h1 :: h2 :: h3 :: h4 :: p, q, rfl, hq⟩

/-- why the slow scan fails with input left -/
theorem scanString_cut (b : Bytes) : ∀ (t : Bytes) (i : Nat) (r : Bytes) (e : Err), scanString b t i = .fail r e → r ≠ [] →
    (∃ y h, t = y ++ 0x5c :: 0x75 :: h ∧ JChars y ∧ h.length < 4) ∨
    ∀ b' s i' v' r' f, scanString b' (t ++ s) i' ≠ .ok v' r' f := by
  intro t
  induction h : t.length using Nat.strongRecOn generalizing t with
  | _ n ih =>
    subst h
    intro i r e hf hr
    cases t with
    | nil => simp [scanString] at hf; exact absurd hf.1 hr
    | cons c t =>
      rw [scanString.eq_def] at hf
      simp only [] at hf
      split at hf
      · rename_i hc
        subst hc
        cases t with
        | nil => simp at hf; exact absurd hf.1 hr
        | cons e' t =>
          simp only [] at hf
          split at hf
          · rename_i he
            rcases ih t.length (by simp; omega) t rfl _ _ _ hf hr with ⟨y, h, rfl, hy, hh⟩ | hno
            · left
              refine ⟨0x5c :: e' :: y, h, rfl, .esc e' y ?_ hy, hh⟩
              simpa [isSimpleEsc, SimpleEsc, or_assoc, or_comm, or_left_comm] using he
            · right
              intro b' s i' v' r' f
              rw [List.cons_append, List.cons_append, scanString.eq_def]
              simp only [if_true]
              rw [if_pos he]
              exact hno _ _ _ _ _ _
          · rename_i he
            split at hf
            · rename_i hu
              subst hu
              cases hp : parseUnicode t with
              | none =>
                by_cases hlen : t.length < 4
                · exact .inl ⟨[], t, rfl, .nil, hlen⟩
                · right
                  intro b' s i' v' r' f
                  rw [List.cons_append, List.cons_append, scanString.eq_def]
                  simp only [if_true]
                  rw [if_neg he]
                  have : parseUnicode (t ++ s) = none := by
                    unfold parseUnicode at *
                    rw [if_neg hlen] at hp
                    rw [if_neg (by simp; omega), List.take_append_of_le_length (by omega)]
                    exact hp
                  rw [this]
                  simp
              | some u =>
                obtain ⟨h1, h2, h3, h4, t', x1, x2, x3, x4, rfl, v1, v2, v3, v4, _⟩ := parseUnicode_some hp
                rw [hp] at hf
                simp only [] at hf
                rcases ih t'.length (by simp; omega) t' rfl _ _ _ hf hr with ⟨y, h, rfl, hy, hh⟩ | hno
                · left
                  refine ⟨0x5c :: 0x75 :: h1 :: h2 :: h3 :: h4 :: y, h, rfl, .uni h1 h2 h3 h4 y (.of_val v1) (.of_val v2) (.of_val v3) (.of_val v4) hy, hh⟩
                · right
                  intro b' s i' v' r' f
                  simp only [List.cons_append]
                  rw [scanString.eq_def]
                  simp only [if_true]
                  rw [if_neg he, parseUnicode_of_hex v1 v2 v3 v4]
                  exact hno _ _ _ _ _ _
            · rename_i hu
              right
              intro b' s i' v' r' f
              rw [List.cons_append, List.cons_append, scanString.eq_def]
              simp only [if_true]
              rw [if_neg he, if_neg hu]
              simp
      · rename_i hc
        split at hf
        · cases hf
        · rename_i hq
          split at hf
          · rename_i hlt
            right
            intro b' s i' v' r' f
            rw [List.cons_append, scanString.eq_def]
            simp only []
            rw [if_neg hc, if_neg hq, if_pos hlt]
            simp
          · rename_i hlt
            rcases ih t.length (by simp) t rfl _ _ _ hf hr with ⟨y, h, rfl, hy, hh⟩ | hno
            · left
              exact ⟨c :: y, h, rfl, .plain c y (by simpa using hlt) hq hc hy, hh⟩
            · right
              intro b' s i' v' r' f
              rw [List.cons_append, scanString.eq_def]
              simp only []
              rw [if_neg hc, if_neg hq, if_neg hlt]
              exact hno _ _ _ _ _ _

theorem scanString_pass {y : Bytes} (hy : JChars y) (b t : Bytes) (i : Nat) : scanString b (y ++ t) i = scanString b t (i + y.length) := by
  induction hy generalizing i with
  | nil => rfl
  | plain c y h1 h2 h3 h4 ih =>
    rw [List.cons_append, scanString.eq_def]
    simp only []
    rw [if_neg h3, if_neg h2, if_neg (UInt8.not_lt.2 h1), ih]
    congr 1; simp; omega
  | esc e y h1 h2 ih =>
    rw [List.cons_append, List.cons_append, scanString.eq_def]
    simp only [if_true]
    rw [if_pos ((isSimpleEsc_iff e).2 h1), ih]
    congr 1; simp; omega
  | uni h1 h2 h3 h4 y e1 e2 e3 e4 hy ih =>
    obtain ⟨x1, v1⟩ := e1.val
    obtain ⟨x2, v2⟩ := e2.val
    obtain ⟨x3, v3⟩ := e3.val
    obtain ⟨x4, v4⟩ := e4.val
    simp only [List.cons_append]
    rw [scanString.eq_def]
    simp only [if_true]
    rw [if_neg (by decide), parseUnicode_of_hex v1 v2 v3 v4]
    simp only []
    rw [ih]
    congr 1; simp; omega

theorem parseString_cut {b r : Bytes} {e : Err} (h : parseString b = .fail r e) (hr : r ≠ []) (hb : ¬ BadCut b) (s v' r' : Bytes) :
    parseString (b ++ s) ≠ .ok v' r' := by
  intro hok
  have hf : parseStringFast b = .fail r e := by
    unfold parseString at h
    cases hh : parseStringFast b with
    | ok => rw [hh] at h; simp at h
    | fail r1 e1 => rw [hh] at h; simpa using h
  obtain ⟨hx, y, hy⟩ := parseString_sound hok
  have hscan := scanString_complete y hy [0x22] r'
  rw [List.singleton_append] at hscan
  simp only [List.cons_append, List.append_assoc, List.nil_append] at hx
  cases b with
  | nil => simp [parseStringFast] at hf; exact hr hf.1
  | cons q t =>
    injection hx with hq ht
    subst hq
    cases t with
    | nil => simp [parseStringFast] at hf; exact hr hf.1
    | cons d t =>
      unfold parseStringFast at hf
      simp only [ne_eq, not_true_eq_false, if_false] at hf
      cases hi : indexByte (d :: t) 0x22 with
      | none => rw [hi] at hf; simp at hf; exact hr hf.1
      | some k =>
        rw [hi] at hf
        simp only [] at hf
        split at hf
        · simp at hf
        · rw [← ht] at hscan
          change scanString _ ((d :: t) ++ s) _ = _ at hscan
          rcases scanString_cut _ _ _ _ _ hf hr with ⟨z, w, hz, hzj, hw⟩ | hno
          · have hmem : 0x22 ∈ d :: t := by
              obtain ⟨p, q, e, _⟩ := indexByte_some hi
              rw [e]; simp
            rw [hz] at hmem hscan
            rcases List.mem_append.1 hmem with hm | hm
            · obtain ⟨a, c, e1, e2⟩ := jchars_has_quote hzj hm
              apply hb
              refine ⟨0x22 :: a, c, w, ?_, e2, hw⟩
              rw [hz, e1]; simp
            · have hm : 0x22 ∈ w := by simpa using hm
              rw [List.append_assoc z, scanString_pass hzj] at hscan
              simp only [List.cons_append] at hscan
              rw [scanString.eq_def] at hscan
              simp only [if_true] at hscan
              rw [if_neg (by decide), unicode_quote] at hscan
              · simp at hscan
              · rw [List.take_append, List.take_of_length_le (by omega)]
                simp [hm]
          · exact hno _ _ _ _ _ _ hscan

theorem parseString_ext {b v r : Bytes} (h : parseString b = .ok v r) (s : Bytes) : parseString (b ++ s) = .ok v (r ++ s) := by
  obtain ⟨rfl, hj⟩ := parseString_sound h
  rw [List.append_assoc]
  exact parseString_complete hj _

/-! ### literals -/

theorem lit_cut {L b : Bytes} (hl : L.length ≤ b.length) (h : b.take L.length ≠ L) (s : Bytes) : (b ++ s).take L.length ≠ L := by
  rwa [List.take_append_of_le_length hl]

theorem parseNull_cut {b r : Bytes} {e : Err} (h : parseNull b = .fail r e) (hr : r ≠ []) (s v' r' : Bytes) : parseNull (b ++ s) ≠ .ok v' r' := by
  intro hok
  obtain ⟨h1, rfl⟩ := parseNull_sound hok
  unfold parseNull at h
  split at h
  · cases h
  · rename_i hn
    split at h
    · injection h with h _; exact hr h.symm
    · rename_i hlen
      apply hn
      refine ⟨by omega, ?_⟩
      have : (b ++ s).take 4 = b.take 4 := List.take_append_of_le_length (by omega)
      rw [← this, h1]; rfl

theorem parseTrue_cut {b r : Bytes} {e : Err} (h : parseTrue b = .fail r e) (hr : r ≠ []) (s v' r' : Bytes) : parseTrue (b ++ s) ≠ .ok v' r' := by
  intro hok
  obtain ⟨h1, rfl⟩ := parseTrue_sound hok
  unfold parseTrue at h
  split at h
  · cases h
  · rename_i hn
    split at h
    · injection h with h _; exact hr h.symm
    · rename_i hlen
      apply hn
      refine ⟨by omega, ?_⟩
      have : (b ++ s).take 4 = b.take 4 := List.take_append_of_le_length (by omega)
      rw [← this, h1]; rfl

theorem parseFalse_cut {b r : Bytes} {e : Err} (h : parseFalse b = .fail r e) (hr : r ≠ []) (s v' r' : Bytes) : parseFalse (b ++ s) ≠ .ok v' r' := by
  intro hok
  obtain ⟨h1, rfl⟩ := parseFalse_sound hok
  unfold parseFalse at h
  split at h
  · cases h
  · rename_i hn
    split at h
    · injection h with h _; exact hr h.symm
    · rename_i hlen
      apply hn
      refine ⟨by omega, ?_⟩
      have : (b ++ s).take 5 = b.take 5 := List.take_append_of_le_length (by omega)
      rw [← this, h1]; rfl

/-! ### more fuel -/

structure MonoAt (n : Nat) : Prop where
  value : ∀ b v r m, n ≤ m → parseValueF n b = .ok v r → parseValueF m b = .ok v r
  object : ∀ b v r m, n ≤ m → parseObjectF n b = .ok v r → parseObjectF m b = .ok v r
  array : ∀ b v r m, n ≤ m → parseArrayF n b = .ok v r → parseArrayF m b = .ok v r
  objLoop : ∀ a f b v r m, n ≤ m → objLoop n a f b = .ok v r → objLoop m a f b = .ok v r
  objItem : ∀ a b v r m, n ≤ m → objItem n a b = .ok v r → objItem m a b = .ok v r
  arrLoop : ∀ a f b v r m, n ≤ m → arrLoop n a f b = .ok v r → arrLoop m a f b = .ok v r
  arrItem : ∀ a b v r m, n ≤ m → arrItem n a b = .ok v r → arrItem m a b = .ok v r

theorem monoAt (n : Nat) : MonoAt n := by
  induction n with
  | zero => constructor <;> intros <;> rename_i h <;> simp [parseValueF, parseObjectF, parseArrayF, objLoop, objItem, arrLoop, arrItem] at h
  | succ n ih =>
    have hm : ∀ m, n + 1 ≤ m → ∃ k, m = k + 1 ∧ n ≤ k := fun m h => ⟨m - 1, by omega, by omega⟩
    constructor
    · intro b v r m hle h
      obtain ⟨m, rfl, hle'⟩ := hm m hle
      replace hle := hle'
      unfold parseValueF at h ⊢
      split
      · exact h
      · repeat' split
        all_goals simp_all
        · exact ih.object _ _ _ _ hle h
        · exact ih.array _ _ _ _ hle h
    · intro b v r m hle h
      obtain ⟨m, rfl, hle'⟩ := hm m hle
      replace hle := hle'
      unfold parseObjectF at h ⊢
      split
      · rename_i hl; rw [if_pos hl] at h; cases h
      · rename_i hl
        rw [if_neg hl] at h
        split
        · cases h
        · simp only [] at h
          split
          · rename_i hc; rw [if_pos hc] at h; cases h
          · rename_i hc; rw [if_neg hc] at h
            exact ih.objLoop _ _ _ _ _ _ hle h
    · intro b v r m hle h
      obtain ⟨m, rfl, hle'⟩ := hm m hle
      replace hle := hle'
      unfold parseArrayF at h ⊢
      split
      · rename_i hl; rw [if_pos hl] at h; cases h
      · rename_i hl
        rw [if_neg hl] at h
        split
        · cases h
        · simp only [] at h
          split
          · rename_i hc; rw [if_pos hc] at h; cases h
          · rename_i hc; rw [if_neg hc] at h
            exact ih.arrLoop _ _ _ _ _ _ hle h
    · intro a f b v r m hle h
      obtain ⟨m, rfl, hle'⟩ := hm m hle
      replace hle := hle'
      unfold objLoop at h ⊢
      simp only [] at h ⊢
      generalize skipSpaces b = z at h ⊢
      cases z with
      | nil => cases h
      | cons c t =>
        simp only [] at h ⊢
        split
        · rename_i hc; rw [if_pos hc] at h; exact h
        · rename_i hc
          rw [if_neg hc] at h
          split
          · rename_i hf; rw [if_pos hf] at h; exact ih.objItem _ _ _ _ _ hle h
          · rename_i hf
            rw [if_neg hf] at h
            split
            · rename_i hcc; rw [if_pos hcc] at h; cases h
            · rename_i hcc
              rw [if_neg hcc] at h
              generalize skipSpaces t = z at h ⊢
              cases z with
              | nil => cases h
              | cons d u =>
                simp only [] at h ⊢
                split
                · rename_i hd; rw [if_pos hd] at h; cases h
                · rename_i hd; rw [if_neg hd] at h; exact ih.objItem _ _ _ _ _ hle h
    · intro a b v r m hle h
      obtain ⟨m, rfl, hle'⟩ := hm m hle
      replace hle := hle'
      unfold objItem at h ⊢
      cases hs : parseString b with
      | fail => rw [hs] at h; cases h
      | ok k t =>
        rw [hs] at h
        simp only [] at h ⊢
        generalize skipSpaces t = z at h ⊢
        cases z with
        | nil => cases h
        | cons c u =>
          simp only [] at h ⊢
          split
          · rename_i hc; rw [if_pos hc] at h; cases h
          · rename_i hc
            rw [if_neg hc] at h
            cases hv : parseValueF n (skipSpaces u) with
            | fail => rw [hv] at h; cases h
            | ok x y =>
              rw [hv] at h
              rw [ih.value _ _ _ _ hle hv]
              exact ih.objLoop _ _ _ _ _ _ hle h
    · intro a f b v r m hle h
      obtain ⟨m, rfl, hle'⟩ := hm m hle
      replace hle := hle'
      unfold arrLoop at h ⊢
      simp only [] at h ⊢
      generalize skipSpaces b = z at h ⊢
      cases z with
      | nil => cases h
      | cons c t =>
        simp only [] at h ⊢
        split
        · rename_i hc; rw [if_pos hc] at h; exact h
        · rename_i hc
          rw [if_neg hc] at h
          split
          · rename_i hf; rw [if_pos hf] at h; exact ih.arrItem _ _ _ _ _ hle h
          · rename_i hf
            rw [if_neg hf] at h
            split
            · rename_i hcc; rw [if_pos hcc] at h; cases h
            · rename_i hcc
              rw [if_neg hcc] at h
              generalize skipSpaces t = z at h ⊢
              cases z with
              | nil => cases h
              | cons d u =>
                simp only [] at h ⊢
                split
                · rename_i hd; rw [if_pos hd] at h; cases h
                · rename_i hd; rw [if_neg hd] at h; exact ih.arrItem _ _ _ _ _ hle h
    · intro a b v r m hle h
      obtain ⟨m, rfl, hle'⟩ := hm m hle
      replace hle := hle'
      unfold arrItem at h ⊢
      cases hv : parseValueF n b with
      | fail => rw [hv] at h; cases h
      | ok x y =>
        rw [hv] at h
        rw [ih.value _ _ _ _ hle hv]
        exact ih.arrLoop _ _ _ _ _ _ hle h

/-- a value that ended before the end of the text ends there in the longer text -/
theorem value_ext {n m : Nat} {b v r s v' r' : Bytes} (h : parseValueF n b = .ok v r) (hr : r ≠ [])
    (h' : parseValueF m (b ++ s) = .ok v' r') : v' = v ∧ r' = r ++ s := by
  obtain ⟨hb, j, hj⟩ := (soundAt n).value _ _ _ h
  have big : parseValueF (m + 4 * v.length) (b ++ s) = .ok v' r' := (monoAt m).value _ _ _ _ (by omega) h'
  subst hb
  by_cases hn : ∃ t, j = .num t
  · obtain ⟨t, rfl⟩ := hn
    cases hj with
    | num t hs =>
      cases n with
      | zero => simp [parseValueF] at h
      | succ n =>
        cases m with
        | zero => simp [parseValueF] at h'
        | succ m =>
          rw [num_dispatch hs] at h
          rw [List.append_assoc, num_dispatch hs, ← List.append_assoc, parseNumber_ext h hr] at h'
          injection h' with e1 e2
          exact ⟨e1.symm, e2.symm⟩
  · have hf : Follow j (r ++ s) := by
      cases j <;> simp [Follow] at *
    have := complete hj (r ++ s) (m + 4 * v.length) hf (by omega)
    rw [List.append_assoc, this] at big
    injection big with e1 e2
    exact ⟨e1.symm, e2.symm⟩

/-! ### values -/

structure CutAt (n : Nat) : Prop where
  value : ∀ b r, parseValueF n b = .fail r .syntax → r ≠ [] → ¬ BadCut b → ∀ m s v' r', parseValueF m (b ++ s) ≠ .ok v' r'
  object : ∀ b r, parseObjectF n b = .fail r .syntax → r ≠ [] → ¬ BadCut b → ∀ m s v' r', parseObjectF m (b ++ s) ≠ .ok v' r'
  array : ∀ b r, parseArrayF n b = .fail r .syntax → r ≠ [] → ¬ BadCut b → ∀ m s v' r', parseArrayF m (b ++ s) ≠ .ok v' r'
  objLoop : ∀ a f b r, objLoop n a f b = .fail r .syntax → r ≠ [] → ¬ BadCut b → ∀ m a' s v' r', objLoop m a' f (b ++ s) ≠ .ok v' r'
  objItem : ∀ a b r, objItem n a b = .fail r .syntax → r ≠ [] → ¬ BadCut b → ∀ m a' s v' r', objItem m a' (b ++ s) ≠ .ok v' r'
  arrLoop : ∀ a f b r, arrLoop n a f b = .fail r .syntax → r ≠ [] → ¬ BadCut b → ∀ m a' s v' r', arrLoop m a' f (b ++ s) ≠ .ok v' r'
  arrItem : ∀ a b r, arrItem n a b = .fail r .syntax → r ≠ [] → ¬ BadCut b → ∀ m a' s v' r', arrItem m a' (b ++ s) ≠ .ok v' r'

theorem cutAt (n : Nat) : CutAt n := by
  induction n with
  | zero => constructor <;> intro b <;> intros <;> simp_all [parseValueF, parseObjectF, parseArrayF, objLoop, objItem, arrLoop, arrItem]
  | succ n ih =>
    constructor
    · intro b r h hr hb m s v' r'
      cases m with
      | zero => simp [parseValueF]
      | succ m =>
        cases b with
        | nil => simp [parseValueF] at h; exact absurd h hr
        | cons c t =>
          rw [List.cons_append]
          unfold parseValueF at h ⊢
          simp only [] at h ⊢
          split
          · rename_i hc; rw [if_pos hc] at h; exact ih.object _ _ h hr hb _ s _ _
          · rename_i hc; rw [if_neg hc] at h
            split
            · rename_i hc; rw [if_pos hc] at h; exact ih.array _ _ h hr hb _ s _ _
            · rename_i hc; rw [if_neg hc] at h
              split
              · rename_i hc; rw [if_pos hc] at h; exact parseString_cut h hr hb s _ _
              · rename_i hc; rw [if_neg hc] at h
                split
                · rename_i hc; rw [if_pos hc] at h; exact parseNull_cut h hr s _ _
                · rename_i hc; rw [if_neg hc] at h
                  split
                  · rename_i hc; rw [if_pos hc] at h; exact parseTrue_cut h hr s _ _
                  · rename_i hc; rw [if_neg hc] at h
                    split
                    · rename_i hc; rw [if_pos hc] at h; exact parseFalse_cut h hr s _ _
                    · rename_i hc; rw [if_neg hc] at h
                      split
                      · rename_i hc; rw [if_pos hc] at h; exact parseNumber_cut h hr s _ _
                      · simp
    · intro b r h hr hb m s v' r'
      cases m with
      | zero => simp [parseObjectF]
      | succ m =>
        unfold parseObjectF at h ⊢
        split at h
        · injection h with h _; exact absurd h.symm hr
        · rename_i hl
          rw [if_neg (by simp; omega)]
          cases b with
          | nil => simp at hl
          | cons c t =>
            simp only [List.cons_append] at h ⊢
            split
            · simp
            · rename_i hc; rw [if_neg hc] at h
              exact ih.objLoop _ _ _ _ h hr (fun x => hb x.tail) _ _ s _ _
    · intro b r h hr hb m s v' r'
      cases m with
      | zero => simp [parseArrayF]
      | succ m =>
        unfold parseArrayF at h ⊢
        split at h
        · injection h with h _; exact absurd h.symm hr
        · rename_i hl
          rw [if_neg (by simp; omega)]
          cases b with
          | nil => simp at hl
          | cons c t =>
            simp only [List.cons_append] at h ⊢
            split
            · simp
            · rename_i hc; rw [if_neg hc] at h
              exact ih.arrLoop _ _ _ _ h hr (fun x => hb x.tail) _ _ s _ _
    · intro a f b r h hr hb m a' s v' r'
      cases m with
      | zero => simp [objLoop]
      | succ m =>
        unfold objLoop at h ⊢
        simp only [] at h ⊢
        have hb' : ¬ BadCut (skipSpaces b) := fun x => hb x.skip
        cases hs : skipSpaces b with
        | nil => rw [hs] at h; injection h with h _; exact absurd h.symm hr
        | cons c t =>
          rw [skipSpaces_ext (by simp [hs]), hs]
          rw [hs] at h hb'
          simp only [List.cons_append] at h ⊢
          split
          · rename_i hc; rw [if_pos hc] at h; simp [closeAt] at h
          · rename_i hc
            rw [if_neg hc] at h
            split
            · rename_i hf; rw [if_pos hf] at h; exact ih.objItem _ _ _ h hr hb' _ _ s _ _
            · rename_i hf
              rw [if_neg hf] at h
              split
              · simp
              · rename_i hcc
                rw [if_neg hcc] at h
                have hb2 : ¬ BadCut (skipSpaces t) := fun x => hb' x.skip.tail
                cases hs' : skipSpaces t with
                | nil => rw [hs'] at h; injection h with h _; exact absurd h.symm hr
                | cons d u =>
                  rw [skipSpaces_ext (by simp [hs']), hs']
                  rw [hs'] at h hb2
                  simp only [List.cons_append] at h ⊢
                  split
                  · simp
                  · rename_i hd; rw [if_neg hd] at h; exact ih.objItem _ _ _ h hr hb2 _ _ s _ _
    · intro a b r h hr hb m a' s v' r'
      cases m with
      | zero => simp [objItem]
      | succ m =>
        unfold objItem at h ⊢
        cases hs : parseString b with
        | fail r1 e1 =>
          rw [hs] at h
          injection h with h1 h2
          subst h1 h2
          cases hs' : parseString (b ++ s) with
          | fail => simp
          | ok v2 r2 => exact absurd hs' (parseString_cut hs hr hb s _ _)
        | ok k t =>
          rw [hs] at h
          rw [parseString_ext hs s]
          simp only [] at h ⊢
          have hb' : ¬ BadCut (skipSpaces t) := fun x => hb (by
            rw [(parseString_sound hs).1]; exact x.skip.suffix)
          cases ht : skipSpaces t with
          | nil => rw [ht] at h; injection h with h _; exact absurd h.symm hr
          | cons c u =>
            rw [skipSpaces_ext (by simp [ht]), ht]
            rw [ht] at h hb'
            simp only [List.cons_append] at h ⊢
            split
            · simp
            · rename_i hc
              rw [if_neg hc] at h
              have hb2 : ¬ BadCut (skipSpaces u) := fun x => hb' x.skip.tail
              have hne : skipSpaces u ≠ [] := by
                intro e
                rw [e] at h
                cases n <;> (simp [parseValueF] at h; try exact absurd h hr)
              rw [skipSpaces_ext hne]
              cases hv : parseValueF n (skipSpaces u) with
              | fail r1 e1 =>
                rw [hv] at h
                injection h with h1 h2
                subst h1 h2
                cases hv' : parseValueF m (skipSpaces u ++ s) with
                | fail => simp
                | ok => exact absurd hv' (ih.value _ _ hv hr hb2 _ s _ _)
              | ok x y =>
                rw [hv] at h
                simp only [] at h
                have hy : y ≠ [] := by
                  rintro rfl
                  cases n <;> (simp [JC.objLoop, skipSpaces_eq] at h; try exact absurd h hr)
                cases hv' : parseValueF m (skipSpaces u ++ s) with
                | fail => simp
                | ok x' y' =>
                  obtain ⟨_, rfl⟩ := value_ext hv hy hv'
                  simp only []
                  refine ih.objLoop _ _ _ _ h hr (fun q => hb2 ?_) _ _ s _ _
                  rw [((soundAt n).value _ _ _ hv).1]; exact q.suffix
    · intro a f b r h hr hb m a' s v' r'
      cases m with
      | zero => simp [arrLoop]
      | succ m =>
        unfold arrLoop at h ⊢
        simp only [] at h ⊢
        have hb' : ¬ BadCut (skipSpaces b) := fun x => hb x.skip
        cases hs : skipSpaces b with
        | nil => rw [hs] at h; injection h with h _; exact absurd h.symm hr
        | cons c t =>
          rw [skipSpaces_ext (by simp [hs]), hs]
          rw [hs] at h hb'
          simp only [List.cons_append] at h ⊢
          split
          · rename_i hc; rw [if_pos hc] at h; simp [closeAt] at h
          · rename_i hc
            rw [if_neg hc] at h
            split
            · rename_i hf; rw [if_pos hf] at h; exact ih.arrItem _ _ _ h hr hb' _ _ s _ _
            · rename_i hf
              rw [if_neg hf] at h
              split
              · simp
              · rename_i hcc
                rw [if_neg hcc] at h
                have hb2 : ¬ BadCut (skipSpaces t) := fun x => hb' x.skip.tail
                cases hs' : skipSpaces t with
                | nil => rw [hs'] at h; injection h with h _; exact absurd h.symm hr
                | cons d u =>
                  rw [skipSpaces_ext (by simp [hs']), hs']
                  rw [hs'] at h hb2
                  simp only [List.cons_append] at h ⊢
                  split
                  · simp
                  · rename_i hd; rw [if_neg hd] at h; exact ih.arrItem _ _ _ h hr hb2 _ _ s _ _
    · intro a b r h hr hb m a' s v' r'
      cases m with
      | zero => simp [arrItem]
      | succ m =>
        unfold arrItem at h ⊢
        cases hv : parseValueF n b with
        | fail r1 e1 =>
          rw [hv] at h
          injection h with h1 h2
          subst h1 h2
          cases hv' : parseValueF m (b ++ s) with
          | fail => simp
          | ok => exact absurd hv' (ih.value _ _ hv hr hb _ s _ _)
        | ok x y =>
          rw [hv] at h
          simp only [] at h
          have hy : y ≠ [] := by
            rintro rfl
            cases n <;> (simp [JC.arrLoop, skipSpaces_eq] at h; try exact absurd h hr)
          cases hv' : parseValueF m (b ++ s) with
          | fail => simp
          | ok x' y' =>
            obtain ⟨_, rfl⟩ := value_ext hv hy hv'
            simp only []
            refine ih.arrLoop _ _ _ _ h hr (fun q => hb ?_) _ _ s _ _
            rw [((soundAt n).value _ _ _ hv).1]; exact q.suffix

theorem jtext_of_value {j : Json} {v : Bytes} (h : Derives (.value j) v) : JText j v :=
  ⟨[], v, [], by simp, (by intro c h; simp at h), (by intro c h; simp at h), h⟩

/-- A value cut short: the scanner runs to the end of what there is, unless the
cut leaves a number, or falls into a `\u` escape after a `\"`. -/
theorem parseValue_cut {j : Json} {p s : Bytes} (h : Derives (.value j) (p ++ s)) (hs : s ≠ []) (hb : ¬ BadCut p) :
    parseValue p = .fail [] .syntax ∨ (∃ t, j = .num t) ∧ parseValue p = .ok p [] := by
  have hok : parseValue (p ++ s) = .ok (p ++ s) [] := by
    have := parseValue_complete (r := []) h (follow_of_numStop (numStop_ws (by intro c h; simp at h)))
    simpa using this
  cases hp : parseValue p with
  | fail r e =>
    have := parseValue_err hp
    subst this
    by_cases hr : r = []
    · subst hr; exact .inl rfl
    · exact absurd hok ((cutAt _).value _ _ hp hr hb _ s _ _)
  | ok v r =>
    right
    by_cases hr : r = []
    · subst hr
      obtain ⟨e1, j', hj'⟩ := parseValue_sound hp
      rw [List.append_nil] at e1
      subst e1
      refine ⟨?_, rfl⟩
      by_cases hn : ∃ t, j' = .num t
      · obtain ⟨t, rfl⟩ := hn
        cases hj' with
        | num t ht =>
          unfold parseValue fuelFor at hok
          rw [num_dispatch ht] at hok
          obtain ⟨_, hnum⟩ := parseNumber_sound hok
          exact ⟨_, jtext_unique (jtext_of_value h) (jtext_of_value (.num _ hnum))⟩
      · have hf : Follow j' s := by cases j' <;> simp [Follow] at *
        have := parseValue_complete hj' hf
        rw [hok] at this
        injection this with _ e2
        exact absurd e2.symm hs
    · obtain ⟨e1, e2⟩ := value_ext hp hr hok
      simp at e2
      exact absurd e2.1 hr

end JC

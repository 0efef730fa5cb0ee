import Verif.Model.Utf8
import Verif.Spec.Strings
/-! Helper lemmas: the model's UTF-8 functions against RFC 3629. -/
namespace JC
open Spec

theorem ofNat_toNat (n : Nat) (h : n < 256) : (UInt8.ofNat n).toNat = n := by
  rw [UInt8.toNat_ofNat']; omega

theorem le_ofNat {c : UInt8} {n : Nat} (h : n < 256) : c ≤ UInt8.ofNat n ↔ c.toNat ≤ n := by
  rw [UInt8.le_iff_toNat_le, ofNat_toNat n h]
theorem ofNat_le {c : UInt8} {n : Nat} (h : n < 256) : UInt8.ofNat n ≤ c ↔ n ≤ c.toNat := by
  rw [UInt8.le_iff_toNat_le, ofNat_toNat n h]

theorem isCont_iff (c : UInt8) : isCont c = true ↔ 0x80 ≤ c.toNat ∧ c.toNat ≤ 0xBF := by
  simp only [isCont, Bool.and_eq_true, decide_eq_true_eq, UInt8.le_iff_toNat_le]
  exact Iff.rfl

theorem encodeRune_eq {r : Nat} (h : Scalar r) : encodeRune r = utf8 r := by
  unfold Scalar at h
  unfold encodeRune utf8
  repeat' split
  all_goals first | rfl | (exfalso; omega)

theorem utf8_length_pos (r : Nat) : 0 < (utf8 r).length := by
  unfold utf8; repeat' split
  all_goals simp

theorem u8_eq_iff (c d : UInt8) : c = d ↔ c.toNat = d.toNat := UInt8.toNat_inj.symm

theorem lo3_toNat (c : UInt8) : (lo3 c).toNat = if c.toNat = 0xE0 then 0xA0 else 0x80 := by
  simp only [lo3, u8_eq_iff]
  have : (0xE0 : UInt8).toNat = 0xE0 := rfl
  rw [this]; split <;> rfl
theorem hi3_toNat (c : UInt8) : (hi3 c).toNat = if c.toNat = 0xED then 0x9F else 0xBF := by
  simp only [hi3, u8_eq_iff]
  have : (0xED : UInt8).toNat = 0xED := rfl
  rw [this]; split <;> rfl
theorem lo4_toNat (c : UInt8) : (lo4 c).toNat = if c.toNat = 0xF0 then 0x90 else 0x80 := by
  simp only [lo4, u8_eq_iff]
  have : (0xF0 : UInt8).toNat = 0xF0 := rfl
  rw [this]; split <;> rfl
theorem hi4_toNat (c : UInt8) : (hi4 c).toNat = if c.toNat = 0xF4 then 0x8F else 0xBF := by
  simp only [hi4, u8_eq_iff]
  have : (0xF4 : UInt8).toNat = 0xF4 := rfl
  rw [this]; split <;> rfl

/-- `decodeRune` with all byte comparisons turned into comparisons of numbers -/
theorem decodeRune_cons (b0 : UInt8) (t : Bytes) : decodeRune (b0 :: t) =
    if b0.toNat < 0x80 then (b0.toNat, 1)
    else if 0xC2 ≤ b0.toNat ∧ b0.toNat ≤ 0xDF then
      match t with
      | b1 :: _ =>
        if 0x80 ≤ b1.toNat ∧ b1.toNat ≤ 0xBF then ((b0.toNat - 0xC0) * 64 + (b1.toNat - 0x80), 2) else (runeError, 1)
      | [] => (runeError, 1)
    else if 0xE0 ≤ b0.toNat ∧ b0.toNat ≤ 0xEF then
      match t with
      | b1 :: b2 :: _ =>
        if (if b0.toNat = 0xE0 then 0xA0 else 0x80) ≤ b1.toNat ∧ b1.toNat ≤ (if b0.toNat = 0xED then 0x9F else 0xBF)
            ∧ (0x80 ≤ b2.toNat ∧ b2.toNat ≤ 0xBF) then
          ((b0.toNat - 0xE0) * 4096 + (b1.toNat - 0x80) * 64 + (b2.toNat - 0x80), 3)
        else (runeError, 1)
      | _ => (runeError, 1)
    else if 0xF0 ≤ b0.toNat ∧ b0.toNat ≤ 0xF4 then
      match t with
      | b1 :: b2 :: b3 :: _ =>
        if (if b0.toNat = 0xF0 then 0x90 else 0x80) ≤ b1.toNat ∧ b1.toNat ≤ (if b0.toNat = 0xF4 then 0x8F else 0xBF)
            ∧ (0x80 ≤ b2.toNat ∧ b2.toNat ≤ 0xBF) ∧ (0x80 ≤ b3.toNat ∧ b3.toNat ≤ 0xBF) then
          ((b0.toNat - 0xF0) * 262144 + (b1.toNat - 0x80) * 4096 + (b2.toNat - 0x80) * 64
            + (b3.toNat - 0x80), 4)
        else (runeError, 1)
      | _ => (runeError, 1)
    else (runeError, 1) := by
  unfold decodeRune
  simp only [UInt8.le_iff_toNat_le, UInt8.lt_iff_toNat_lt, isCont_iff, lo3_toNat, hi3_toNat, lo4_toNat, hi4_toNat]
  rfl

theorem decodeRune_utf8 {r : Nat} (h : Scalar r) (t : Bytes) :
    decodeRune (utf8 r ++ t) = (r, (utf8 r).length) := by
  unfold Scalar at h
  unfold utf8
  by_cases h1 : r ≤ 0x7f
  · simp only [if_pos h1, List.cons_append, List.nil_append, decodeRune_cons]
    rw [ofNat_toNat _ (by omega), if_pos (by omega)]; rfl
  · simp only [if_neg h1]
    by_cases h2 : r ≤ 0x7ff
    · simp only [if_pos h2, List.cons_append, List.nil_append, decodeRune_cons]
      rw [ofNat_toNat _ (by omega), ofNat_toNat _ (by omega)]
      rw [if_neg (by omega), if_pos (by omega), if_pos (by omega)]
      simp only [List.length_cons, List.length_nil, Prod.mk.injEq, and_true]
      omega
    · simp only [if_neg h2]
      by_cases h3 : r ≤ 0xffff
      · simp only [if_pos h3, List.cons_append, List.nil_append, decodeRune_cons]
        rw [ofNat_toNat _ (by omega), ofNat_toNat _ (by omega), ofNat_toNat _ (by omega)]
        rw [if_neg (by omega), if_neg (by omega), if_pos (by omega), if_pos]
        · simp only [List.length_cons, List.length_nil, Prod.mk.injEq, and_true]
          omega
        · refine ⟨?_, ?_, by omega⟩
          · split <;> omega
          · split <;> omega
      · simp only [if_neg h3, List.cons_append, List.nil_append, decodeRune_cons]
        rw [ofNat_toNat _ (by omega), ofNat_toNat _ (by omega), ofNat_toNat _ (by omega), ofNat_toNat _ (by omega)]
        rw [if_neg (by omega), if_neg (by omega), if_neg (by omega), if_pos (by omega), if_pos]
        · simp only [List.length_cons, List.length_nil, Prod.mk.injEq, and_true]
          omega
        · refine ⟨?_, ?_, by omega, by omega⟩
          · split <;> omega
          · split <;> omega

theorem ofNat_eq_of_toNat {n : Nat} {c : UInt8} (h : n = c.toNat) : UInt8.ofNat n = c := by
  subst h; simp

theorem decodeRune_valid {s : Bytes} (hs : s ≠ []) (hv : ¬ ((decodeRune s).1 = runeError ∧ (decodeRune s).2 = 1)) :
    Scalar (decodeRune s).1 ∧ (decodeRune s).2 = (utf8 (decodeRune s).1).length ∧
      ∃ t, s = utf8 (decodeRune s).1 ++ t := by
  cases s with
  | nil => exact absurd rfl hs
  | cons b0 t =>
    have hb0 := b0.toNat_lt
    rw [decodeRune_cons] at hv ⊢
    split at hv
    · rename_i h
      rw [if_pos h]
      refine ⟨.inl (by simp only; omega), ?_, t, ?_⟩
      · simp only [utf8]; rw [if_pos (by omega)]; rfl
      · simp only [utf8]; rw [if_pos (by omega)]; simp
    · rename_i h
      rw [if_neg h]
      split at hv
      · rename_i h2
        rw [if_pos h2]
        split at hv
        · rename_i b1 t
          split at hv
          · rename_i h3
            simp only [if_pos h3]
            refine ⟨.inl (by omega), ?_, t, ?_⟩
            · simp only [utf8]; rw [if_neg (by omega), if_pos (by omega)]; rfl
            · simp only [utf8]; rw [if_neg (by omega), if_pos (by omega)]
              rw [ofNat_eq_of_toNat (c := b0) (by omega), ofNat_eq_of_toNat (c := b1) (by omega)]; rfl
          · simp at hv
        · simp at hv
      · rename_i h2
        rw [if_neg h2]
        split at hv
        · rename_i h3
          rw [if_pos h3]
          split at hv
          · rename_i b1 b2 t
            generalize hlo : (if b0.toNat = 0xE0 then 0xA0 else 0x80) = lo at hv ⊢
            generalize hhi : (if b0.toNat = 0xED then 0x9F else 0xBF) = hi at hv ⊢
            split at hv
            · rename_i h4
              have hh : 0x80 ≤ b1.toNat ∧ b1.toNat ≤ 0xBF ∧ (b0.toNat = 0xE0 → 0xA0 ≤ b1.toNat) ∧
                  (b0.toNat = 0xED → b1.toNat ≤ 0x9F) := by
                obtain ⟨h5, h6, _⟩ := h4
                refine ⟨?_, ?_, ?_, ?_⟩
                · split at hlo <;> omega
                · split at hhi <;> omega
                · intro hx; rw [if_pos hx] at hlo; omega
                · intro hx; rw [if_pos hx] at hhi; omega
              simp only [if_pos h4]
              obtain ⟨_, _, h7⟩ := h4
              have hr : 0x800 ≤ (b0.toNat - 224) * 4096 + (b1.toNat - 128) * 64 + (b2.toNat - 128) := by
                by_cases hx : b0.toNat = 0xE0
                · have := hh.2.2.1 hx; omega
                · omega
              have hr2 : (b0.toNat - 224) * 4096 + (b1.toNat - 128) * 64 + (b2.toNat - 128) < 0xD800 ∨
                  0xE000 ≤ (b0.toNat - 224) * 4096 + (b1.toNat - 128) * 64 + (b2.toNat - 128) := by
                by_cases hx : b0.toNat = 0xED
                · have := hh.2.2.2 hx; omega
                · omega
              refine ⟨?_, ?_, t, ?_⟩
              · unfold Scalar; omega
              · simp only [utf8]; rw [if_neg (by omega), if_neg (by omega), if_pos (by omega)]; rfl
              · simp only [utf8]; rw [if_neg (by omega), if_neg (by omega), if_pos (by omega)]
                rw [ofNat_eq_of_toNat (c := b0) (by omega), ofNat_eq_of_toNat (c := b1) (by omega), ofNat_eq_of_toNat (c := b2) (by omega)]; rfl
            · simp at hv
          · simp at hv
        · rename_i h3
          rw [if_neg h3]
          split at hv
          · rename_i h3'
            rw [if_pos h3']
            split at hv
            · rename_i b1 b2 b3 t
              generalize hlo : (if b0.toNat = 0xF0 then 0x90 else 0x80) = lo at hv ⊢
              generalize hhi : (if b0.toNat = 0xF4 then 0x8F else 0xBF) = hi at hv ⊢
              split at hv
              · rename_i h4
                have hh : 0x80 ≤ b1.toNat ∧ b1.toNat ≤ 0xBF ∧ (b0.toNat = 0xF0 → 0x90 ≤ b1.toNat) ∧
                    (b0.toNat = 0xF4 → b1.toNat ≤ 0x8F) := by
                  obtain ⟨h5, h6, _⟩ := h4
                  refine ⟨?_, ?_, ?_, ?_⟩
                  · split at hlo <;> omega
                  · split at hhi <;> omega
                  · intro hx; rw [if_pos hx] at hlo; omega
                  · intro hx; rw [if_pos hx] at hhi; omega
                simp only [if_pos h4]
                obtain ⟨_, _, h7, h8⟩ := h4
                have hr : 0x10000 ≤ (b0.toNat - 240) * 262144 + (b1.toNat - 128) * 4096 + (b2.toNat - 128) * 64 + (b3.toNat - 128) := by
                  by_cases hx : b0.toNat = 0xF0
                  · have := hh.2.2.1 hx; omega
                  · omega
                have hr2 : (b0.toNat - 240) * 262144 + (b1.toNat - 128) * 4096 + (b2.toNat - 128) * 64 + (b3.toNat - 128) ≤ 0x10FFFF := by
                  by_cases hx : b0.toNat = 0xF4
                  · have := hh.2.2.2 hx; omega
                  · omega
                refine ⟨?_, ?_, t, ?_⟩
                · unfold Scalar; omega
                · simp only [utf8]; rw [if_neg (by omega), if_neg (by omega), if_neg (by omega)]; rfl
                · simp only [utf8]; rw [if_neg (by omega), if_neg (by omega), if_neg (by omega)]
                  rw [ofNat_eq_of_toNat (c := b0) (by omega), ofNat_eq_of_toNat (c := b1) (by omega), ofNat_eq_of_toNat (c := b2) (by omega), ofNat_eq_of_toNat (c := b3) (by omega)]; rfl
              · simp at hv
            · simp at hv
          · simp at hv

theorem scalar_fffd : Scalar 0xFFFD := .inr (by omega)

theorem decodeRune_bad {s : Bytes} (h : decodeRune s = (runeError, 1)) : NoRune s := by
  rintro r hr ⟨t, rfl⟩
  rw [decodeRune_utf8 hr] at h
  injection h with h1 h2
  subst h1
  revert h2; decide

theorem decodeRune_ascii {c : UInt8} {t : Bytes} (h : c < 0x80) : decodeRune (c :: t) = (c.toNat, 1) := by
  rw [decodeRune_cons, if_pos]; rwa [UInt8.lt_iff_toNat_lt] at h

/-- the two outcomes of `decodeRune` on a non-empty input -/
theorem decodeRune_cases (c : UInt8) (s : Bytes) :
    (∃ r t, Scalar r ∧ c :: s = utf8 r ++ t ∧ decodeRune (c :: s) = (r, (utf8 r).length)) ∨
    (NoRune (c :: s) ∧ 0x80 ≤ c ∧ decodeRune (c :: s) = (runeError, 1)) := by
  by_cases h : (decodeRune (c :: s)).1 = runeError ∧ (decodeRune (c :: s)).2 = 1
  · right
    have hd : decodeRune (c :: s) = (runeError, 1) := by
      rw [← h.1]
      conv => rhs; rw [← h.2]
    refine ⟨decodeRune_bad hd, ?_, hd⟩
    rcases UInt8.lt_or_le c 0x80 with hlt | hle
    · rw [decodeRune_ascii hlt] at hd
      injection hd with h1 _
      rw [UInt8.lt_iff_toNat_lt] at hlt
      have : (0x80 : UInt8).toNat = 128 := rfl
      rw [this] at hlt
      have h3 : runeError = 65533 := rfl
      rw [h3] at h1
      omega
    · exact hle
  · left
    obtain ⟨h1, h2, t, h3⟩ := decodeRune_valid (by simp) h
    refine ⟨_, t, h1, h3, ?_⟩
    rw [← h2]

theorem runes_nil : runes [] = [] := by unfold runes; rfl

theorem runes_utf8 {r : Nat} (h : Scalar r) (s : Bytes) : runes (utf8 r ++ s) = r :: runes s := by
  have hpos := utf8_length_pos r
  cases hc : utf8 r ++ s with
  | nil => have := congrArg List.length hc; rw [List.length_append, List.length_nil] at this; omega
  | cons c t =>
    rw [runes]
    rw [← hc, decodeRune_utf8 h]
    simp

theorem runes_bad {c : UInt8} {s : Bytes} (h : NoRune (c :: s)) : runes (c :: s) = 0xFFFD :: runes s := by
  rcases decodeRune_cases c s with ⟨r, t, hr, he, _⟩ | ⟨_, _, hd⟩
  · exact absurd ⟨t, he.symm⟩ (h r hr)
  · rw [runes]
    rw [hd]
    simp

theorem runes_decodes (s : Bytes) : Decodes s (runes s) := by
  induction hn : s.length using Nat.strongRecOn generalizing s with
  | ind n ih =>
    cases s with
    | nil => rw [runes_nil]; exact .nil
    | cons c t =>
      rcases decodeRune_cases c t with ⟨r, t', hr, he, _⟩ | ⟨h1, h2, _⟩
      · rw [he, runes_utf8 hr]
        have hpos := utf8_length_pos r
        have hl := congrArg List.length he
        simp only [List.length_append] at hl
        exact .rune r t' _ hr (ih t'.length (by omega) t' rfl)
      · rw [runes_bad h1]
        exact .bad c t _ h1 (ih t.length (by simp at hn; omega) t rfl)

theorem _root_.JC.Spec.Decodes.runes_eq {s : Bytes} {rs : List Nat} (h : Decodes s rs) : rs = runes s := by
  induction h with
  | nil => rw [runes_nil]
  | rune r s rs hr _ ih => rw [runes_utf8 hr, ih]
  | bad c s rs hb _ ih => rw [runes_bad hb, ih]

theorem runes_scalar (s : Bytes) : ∀ r ∈ runes s, Scalar r := by
  have h := runes_decodes s
  generalize runes s = rs at h
  induction h with
  | nil => simp
  | rune r s rs hr _ ih =>
    intro x hx
    rcases List.mem_cons.1 hx with rfl | hx
    · exact hr
    · exact ih x hx
  | bad c s rs hb _ ih =>
    intro x hx
    rcases List.mem_cons.1 hx with rfl | hx
    · exact scalar_fffd
    · exact ih x hx

theorem runes_utf8s {rs : List Nat} (h : ∀ r ∈ rs, Scalar r) : runes (utf8s rs) = rs := by
  induction rs with
  | nil => exact runes_nil
  | cons r rs ih =>
    have : utf8s (r :: rs) = utf8 r ++ utf8s rs := by simp [utf8s]
    rw [this, runes_utf8 (h r (by simp)), ih (fun x hx => h x (by simp [hx]))]

/-- Go's coercion of arbitrary bytes to valid UTF-8. -/
def coerceUtf8 (s : Bytes) : Bytes := utf8s (runes s)

theorem coerce_valid {s : Bytes} (h : ValidUtf8 s) : coerceUtf8 s = s := by
  obtain ⟨rs, hr, rfl⟩ := h
  rw [coerceUtf8, runes_utf8s hr]

theorem foldl_appendRune (rs : List Nat) (h : ∀ r ∈ rs, Scalar r) (b : Bytes) :
    rs.foldl (fun b r => b ++ encodeRune r) b = b ++ utf8s rs := by
  induction rs generalizing b with
  | nil => simp [utf8s]
  | cons r rs ih =>
    simp only [List.foldl_cons]
    rw [ih (fun x hx => h x (by simp [hx])), encodeRune_eq (h r (by simp))]
    simp [utf8s]

/-- every byte of a multi-byte character is at least 0x80 -/
theorem utf8_bytes {r : Nat} (h : Scalar r) : (r < 0x80 ∧ utf8 r = [UInt8.ofNat r]) ∨
    (0x80 ≤ r ∧ ∀ c ∈ utf8 r, 0x80 ≤ c) := by
  unfold Scalar at h
  unfold utf8
  have key : ∀ n, 0x80 ≤ n → n < 256 → (0x80 : UInt8) ≤ UInt8.ofNat n := by
    intro n h1 h2
    rw [UInt8.le_iff_toNat_le, ofNat_toNat n h2]; exact h1
  by_cases h1 : r ≤ 0x7f
  · left; rw [if_pos h1]; exact ⟨by omega, rfl⟩
  · right
    refine ⟨by omega, ?_⟩
    simp only [if_neg h1]
    intro c hc
    split at hc
    · simp only [List.mem_cons, List.not_mem_nil, or_false] at hc
      rcases hc with rfl | rfl <;> exact key _ (by omega) (by omega)
    · split at hc
      · simp only [List.mem_cons, List.not_mem_nil, or_false] at hc
        rcases hc with rfl | rfl | rfl <;> exact key _ (by omega) (by omega)
      · simp only [List.mem_cons, List.not_mem_nil, or_false] at hc
        rcases hc with rfl | rfl | rfl | rfl <;> exact key _ (by omega) (by omega)

end JC

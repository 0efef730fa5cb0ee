import Verif.Lemmas.SizeEnc
import Verif.Lemmas.WorkBound
import Verif.Props.TokenWork
import Verif.Model.EncodeWork
import Verif.Spec.EncWork
/-!
How many steps the encoding functions take, from the smallest to `enc` (property C95).
-/
namespace JC
open Spec

theorem encRounds_le (html : Bool) (n : Nat) : ∀ s : Bytes, s.length ≤ n → encRounds html s ≤ 2 * s.length + 1 := by
  induction n with
  | zero =>
    intro s h
    cases s with
    | nil => unfold encRounds; simp
    | cons c t => simp at h
  | succ n ih =>
    intro s h
    cases s with
    | nil => unfold encRounds; simp
    | cons c t =>
      have h1 := ih t (by simp at h; omega)
      have h2 := decodeRune_size_pos c t
      have h4 := ih ((c :: t).drop (decodeRune (c :: t)).2) (by simp only [List.length_drop, List.length_cons] at h ⊢; omega)
      simp only [List.length_drop, List.length_cons] at h4
      unfold encRounds
      simp only [List.length_cons, List.length_take]
      repeat' split
      all_goals omega

section
variable {c : Cfg} {D : Nat}

/-- Steps of an encoding function of a value of size `n`, apart from `w`. -/
def CostIn (c : Cfg) (D n w : Nat) (s : EncCost) : Prop :=
  ∀ (b : Bytes) (d : Int), d + n ≤ D → n ≤ D → s b d ≤ 10 * (perUnit c D * n) + w

/-- At least as many steps as bytes are appended. -/
def Counts (f : Enc) (s : EncCost) : Prop := ∀ b d b' d' e, f b d = .done b' d' e → b'.length ≤ b.length + s b d

/-- Steps that do not depend on the level. -/
def Takes (k : Nat) (s : EncCost) : Prop := ∀ b d, s b d ≤ k

theorem takes_in {k n : Nat} {s : EncCost} (h : Takes k s) (hk : k ≤ 10 * (perUnit c D * n)) : CostIn c D n 0 s := by
  intro b d _ _
  have := h b d
  omega

theorem coloredS_takes {clr : Colors → Bytes} (hc : ∀ cl, clr cl ∈ palette cl) {k : Nat} {s : EncCost} (h : Takes k s) :
    Takes (k + 1 + perColor c.clrs) (coloredS c clr s) := by
  intro b d
  unfold coloredS
  cases hcl : c.clrs with
  | none => have := h b d; simp only []; omega
  | some cl =>
    have := h (b ++ clr cl) d
    have := color_size (hc cl)
    simp only [reset_size]; omega

theorem coloredS_counts {clr : Colors → Bytes} {f : Enc} {s : EncCost} (h : Counts f s) : Counts (colored c clr f) (coloredS c clr s) := by
  intro b d b' d' e he
  unfold colored at he
  unfold coloredS
  cases hcl : c.clrs with
  | none => rw [hcl] at he; have := h _ _ _ _ _ he; simp only []; omega
  | some cl =>
    rw [hcl] at he
    simp only [] at he ⊢
    cases hf : f (b ++ clr cl) d with
    | panic => rw [hf] at he; cases he
    | done b1 d1 e1 =>
      rw [hf] at he
      have h1 := h _ _ _ _ _ hf
      simp only [Out.done.injEq] at he
      obtain ⟨rfl, _, _⟩ := he
      rw [List.length_append] at h1 ⊢
      omega

theorem appendS_counts (f : Bytes → Bytes) : Counts (fun b d => .done (f b) d none) (appendS f) := by
  intro b d b' d' e h
  simp only [Out.done.injEq] at h; obtain ⟨rfl, _, _⟩ := h
  simp only [appendS, grown]; omega

theorem appendS_takes {f : Bytes → Bytes} {k : Nat} (h : ∀ b, (f b).length ≤ b.length + k) : Takes (k + 1) (appendS f) := by
  intro b d
  have := h b
  simp only [appendS, grown]; omega

theorem encStrS_takes (s : Bytes) : Takes (8 * s.length + 4) (encStrS c s) := by
  intro b d
  have h1 := encRounds_le c.escapeHTML _ s (Nat.le_refl _)
  have h2 := string_size c.escapeHTML b s
  simp only [encStrS, grown]; omega

theorem encStrS_counts (s : Bytes) : Counts (encStr c s) (encStrS c s) := by
  intro b d b' d' e h
  simp only [encStr, Out.done.injEq] at h; obtain ⟨rfl, _, _⟩ := h
  simp only [encStrS, grown]; omega

theorem keyS_takes (s : Bytes) : Takes (8 * s.length + 5 + perColor c.clrs) (encodeKeyS c s) :=
  coloredS_takes (fun cl => by simp [palette]) (encStrS_takes s)

theorem keyS_counts (s : Bytes) : Counts (encodeKey c s) (encodeKeyS c s) := coloredS_counts (encStrS_counts s)

theorem strS_takes (s : Bytes) : Takes (8 * s.length + 5 + perColor c.clrs) (encodeStringS c s) :=
  coloredS_takes (fun cl => by simp [palette]) (encStrS_takes s)

theorem strS_counts (s : Bytes) : Counts (encodeString c s) (encodeStringS c s) := coloredS_counts (encStrS_counts s)

theorem floatS_takes (f : Flt) : Takes (floatSize f + 5) (encodeFloatS f) := by
  intro b d
  cases f <;> simp [encodeFloatS, floatSize]

theorem floatS_counts (f : Flt) : Counts (encodeFloat f) (encodeFloatS f) := by
  intro b d b' d' e h
  have := (float_adds f b d b' d' e h).1
  cases f <;> simp only [encodeFloatS, floatSize] at * <;> omega

theorem numberS_takes (s : Bytes) : Takes (11 * s.length + 22 + perColor c.clrs) (encodeNumberS c s) := by
  intro b d
  have hn : (if s = [] then bs! "0" else s).length ≤ s.length + 1 := by
    split
    · have : (bs! "0").length = 1 := rfl
      omega
    · omega
  have h1 := parseNumberW_le (if s = [] then bs! "0" else s)
  unfold encodeNumberS
  simp only []
  cases hr : encodeNumber c s b d with
  | panic => simp only []; omega
  | done b' d' e =>
    have := (number_adds s _ _ _ _ _ hr).1
    simp only [grown]; omega

theorem numberS_counts (s : Bytes) : Counts (encodeNumber c s) (encodeNumberS c s) := by
  intro b d b' d' e h
  unfold encodeNumberS
  rw [h]
  simp only [grown]; omega

theorem bytesS_takes (v : Option Bytes) : Takes (5 * (v.getD []).length + 6 + 2 * perColor c.clrs) (encodeBytesS c v) := by
  have h : Takes (5 * (v.getD []).length + 5 + perColor c.clrs) (doEncodeBytesS c v) := by
    intro b d
    unfold doEncodeBytesS
    cases v with
    | none =>
      have := null_size (c := c) b
      simp only [grown]; omega
    | some s =>
      have := b64_size s
      simp only [Option.getD_some]; omega
  have := coloredS_takes (c := c) (clr := (·.bytes)) (fun cl => by simp [palette]) h
  intro b d
  have := this b d
  unfold encodeBytesS
  omega

theorem bytesS_counts (v : Option Bytes) : Counts (encodeBytes c v) (encodeBytesS c v) := by
  refine coloredS_counts ?_
  intro b d b' d' e h
  unfold doEncodeBytes at h
  unfold doEncodeBytesS
  cases v with
  | none =>
    simp only [Out.done.injEq] at h; obtain ⟨rfl, _, _⟩ := h
    simp only [grown]; omega
  | some s =>
    simp only [Out.done.injEq] at h; obtain ⟨rfl, _, _⟩ := h
    simp only [List.length_append, List.length_cons, List.length_nil]; omega

theorem timeS_takes (s : Bytes) : Takes (s.length + 3 + perColor c.clrs) (encodeTimeS c s) := by
  intro b d
  unfold encodeTimeS
  cases hcl : c.clrs with
  | none => simp only []; omega
  | some cl =>
    have := color_size (cl := cl) (s := cl.time) (by simp [palette])
    simp only [reset_size]; omega

theorem timeS_counts (s : Bytes) : Counts (encodeTime c s) (encodeTimeS c s) := by
  intro b d b' d' e h
  unfold encodeTime at h
  unfold encodeTimeS
  cases hcl : c.clrs with
  | none =>
    rw [hcl] at h
    simp only [Out.done.injEq] at h; obtain ⟨rfl, _, _⟩ := h
    simp only [List.length_append, List.length_cons, List.length_nil]; omega
  | some cl =>
    rw [hcl] at h
    simp only [Out.done.injEq] at h; obtain ⟨rfl, _, _⟩ := h
    simp only [List.length_append, List.length_cons, List.length_nil]; omega

theorem textS_takes (r : TextRes) : Takes (8 * textSize r + 6 + perColor c.clrs) (encodeTextMarshalerS c r) := by
  intro b d
  unfold encodeTextMarshalerS
  cases r with
  | isNil => have := null_size (c := c) b; simp only [grown]; omega
  | err x => simp only []; omega
  | absent => simp only []; omega
  | ok s =>
    have := coloredS_takes (c := c) (clr := (·.textMarshaler)) (fun cl => by simp [palette]) (encStrS_takes (c := c) s) b d
    simp only [textSize]; omega

theorem textS_counts (r : TextRes) : Counts (encodeTextMarshaler c r) (encodeTextMarshalerS c r) := by
  intro b d b' d' e h
  unfold encodeTextMarshaler at h
  unfold encodeTextMarshalerS
  cases r with
  | isNil =>
    simp only [Out.done.injEq] at h; obtain ⟨rfl, _, _⟩ := h
    simp only [grown]; omega
  | err x => simp only [Out.done.injEq] at h; obtain ⟨rfl, _, _⟩ := h; simp only []; omega
  | absent => cases h
  | ok s =>
    have := coloredS_counts (c := c) (clr := (·.textMarshaler)) (encStrS_counts s) _ _ _ _ _ h
    simp only []; omega

/-- What `encodeToString` takes. -/
theorem toStringS_le (f : EncS) (b : Bytes) (d : Int) :
    encodeToStringS c f b d ≤ f.2 b d + 1 ∨
      ∃ b1 d1, f.1 b d = .done b1 d1 none ∧ encodeToStringS c f b d ≤ f.2 b d + 14 * (b1.length - b.length) + 7 := by
  unfold encodeToStringS
  cases hf : f.1 b d with
  | panic => exact .inl (by simp only []; omega)
  | done b1 d1 e1 =>
    cases e1 with
    | some x => exact .inl (by simp only []; omega)
    | none =>
      refine .inr ⟨b1, d1, rfl, ?_⟩
      have h1 := encStrS_takes (c := c) (b1.drop b.length) b1 d1
      have h2 := string_size c.escapeHTML b1 (b1.drop b.length)
      simp only [List.length_drop] at h1 h2
      simp only [grown]; omega

theorem toStringS_counts {f : EncS} (h : Counts f.1 f.2) : Counts (encodeToString c f.1) (encodeToStringS c f) := by
  intro b d b' d' e he
  unfold encodeToString at he
  unfold encodeToStringS
  simp only [] at he
  cases hf : f.1 b d with
  | panic => rw [hf] at he; cases he
  | done b1 d1 e1 =>
    rw [hf] at he
    have := h _ _ _ _ _ hf
    cases e1 with
    | some x => simp only [Out.done.injEq] at he; obtain ⟨rfl, _, _⟩ := he; simp only []; omega
    | none =>
      simp only [Out.done.injEq] at he; obtain ⟨rfl, _, _⟩ := he
      simp only [List.length_append, List.length_take, List.length_drop, encStrS, grown]
      omega

theorem mkeyS_le (k : MKey) (b : Bytes) (d : Int) :
    encodeMKeyS c k b d + 20 + 20 * perColor c.clrs + 20 * perLine c.ind D ≤ 10 * (perUnit c D * (keySize k + 1)) := by
  have hu := unit_mul c D (keySize k)
  unfold encodeMKeyS
  cases k with
  | str s =>
    have := keyS_takes (c := c) s b d
    simp only [keySize] at *
    omega
  | int z =>
    have h4 := unit_mul2 c D (digits z.natAbs + 1) (by omega)
    have h3 := int_size (c := c) z b
    simp only [keySize] at *
    rcases toStringS_le (c := c) (fun b d => .done (appendInt64 c.clrs b z) d none, appendS fun b => appendInt64 c.clrs b z) b d with h | ⟨b1, d1, h1, h2⟩
    · simp only [appendS, grown] at *; omega
    · simp only [Out.done.injEq] at h1; obtain ⟨rfl, _, _⟩ := h1
      simp only [appendS, grown] at *; omega
  | uint n =>
    have h4 := unit_mul2 c D (digits n) (digits_pos n)
    have h3 := uint_size (c := c) n b
    have h5 := digits_pos n
    simp only [keySize] at *
    rcases toStringS_le (c := c) (fun b d => .done (appendUint64 c.clrs b n) d none, appendS fun b => appendUint64 c.clrs b n) b d with h | ⟨b1, d1, h1, h2⟩
    · simp only [appendS, grown] at *; omega
    · simp only [Out.done.injEq] at h1; obtain ⟨rfl, _, _⟩ := h1
      simp only [appendS, grown] at *; omega
  | text r =>
    have := textS_takes (c := c) r b d
    simp only [keySize] at *
    omega

theorem mkeyS_counts (k : MKey) : Counts (encodeMKey c k) (encodeMKeyS c k) := by
  unfold encodeMKey encodeMKeyS
  cases k with
  | str s => exact keyS_counts s
  | int z => exact toStringS_counts (f := (_, _)) (appendS_counts _)
  | uint n => exact toStringS_counts (f := (_, _)) (appendS_counts _)
  | text r => exact textS_counts r

end

end JC

import Verif.Lemmas.EncWorkAll
/-!
Steps of the encoding functions of raw messages, and of `enc` (property C95).
-/
namespace JC
open Spec

section
variable {c : Cfg} {D : Nat}

theorem compactS_le (s : Bytes) : compactS s ≤ 9 * s.length + 1 := by
  have := compact_size s
  unfold compactS; omega

theorem rawFoldS_le : ∀ (ts : List Obs) (s : RawSt), (∀ o ∈ ts, 1 ≤ o.value.length) → s.d + obsSize ts ≤ D → s.d ≤ D →
    rawFoldS c s ts ≤ perUnit c D * obsSize ts + 16 * obsSize ts + 1
  | [], s, _, _, _ => by simp only [rawFoldS]; omega
  | t :: ts, s, ho, hd, h0 => by
    have ht := ho t (List.mem_cons_self ..)
    simp only [obsSize] at hd ⊢
    obtain ⟨h1, h2⟩ := rawStep_size (c := c) (D := D) s t ht (by omega) h0
    have h3 := rawFoldS_le ts (rawStep c s t) (fun o h => ho o (List.mem_cons_of_mem _ h)) (by omega) (by omega)
    have h4 := compactS_le t.value
    rw [unit_split]
    simp only [rawFoldS, rawStepS, grown]
    split <;> omega

theorem rawTokensS_le (s : Bytes) (b : Bytes) (d : Int) (hd : d + s.length ≤ D) (hs : s.length ≤ D) :
    rawTokensS c s b d ≤ perUnit c D * s.length + 29 * s.length + 19 := by
  obtain ⟨h1, h2⟩ := tokenize_size s
  have h3 := (Props.C91_linear s).2
  have h4 := rawFoldS_le (c := c) (D := D) (tokenize s).1 ⟨b, d, []⟩ h2 (by simp only []; omega) (by simp only []; omega)
  have h5 := Nat.mul_le_mul_left (perUnit c D) h1
  unfold rawTokensS
  omega

theorem rawVerbatimS_le (hlib : IndentLib c.jsonIndent) (ht : c.trustRaw = true) (s : Bytes) (b : Bytes) (d : Int)
    (hd : d ≤ D) (hs : s.length ≤ D) :
    rawVerbatimS c s b d + 30 * s.length ≤ 8 * (perUnit c D * s.length) + 2 + perLine c.ind D := by
  have hU : 6 + 42 * perLine c.ind D ≤ perUnit c D := by unfold perUnit; rw [if_pos ht]; omega
  have hc := compact_size s
  have h6 : 6 * s.length ≤ perUnit c D * s.length := Nat.mul_le_mul_right _ (by omega)
  have plain : (if c.escapeHTML = true then appendCompactEscapeHTML b s else b ++ s).length ≤ b.length + 6 * s.length := by
    split
    · simp only [appendCompactEscapeHTML, List.length_append]; omega
    · rw [List.length_append]; omega
  have h9 : (if c.escapeHTML = true then compactS s else 0) ≤ 9 * s.length + 1 := by
    have := compactS_le s
    split <;> omega
  unfold rawVerbatimS
  generalize (if c.escapeHTML = true then compactS s else 0) = q at *
  cases hi : c.ind with
  | none => simp only [grown]; omega
  | some i =>
    simp only []
    split
    · simp only [grown]; omega
    · rename_i hdis
      have hs' : (if c.escapeHTML = true then appendCompactEscapeHTML [] s else s).length ≤ 6 * s.length := by
        split
        · simp only [appendCompactEscapeHTML, List.nil_append]; omega
        · omega
      have hp : 1 ≤ perLine c.ind D := by
        rw [hi]; simp only [perLine, if_neg hdis]; omega
      have h48 : 48 * s.length ≤ perUnit c D * s.length := Nat.mul_le_mul_right _ (by omega)
      have hin := indent_size (c := c) hd []
      rw [List.length_nil, hi] at hin
      cases ho : c.jsonIndent (if c.escapeHTML = true then appendCompactEscapeHTML [] s else s) (c.appendIndent d []) i.indent with
      | none => simp only []; omega
      | some out =>
        have hv : rawVerbatim c s b d = .done (b ++ out) d none := by
          unfold rawVerbatim
          rw [hi]
          simp only [if_neg hdis, ho]
        have := (rawVerbatim_size (D := D) hlib ht s hd hs hv).1
        rw [List.length_append] at this
        simp only []; omega

theorem rawS_le (hlib : c.trustRaw = true → IndentLib c.jsonIndent) (v : Option Bytes) :
    CostIn c D ((v.getD []).length + 1) 0 (encodeRawMessageS c v) ∧
      ∀ b d, d + ((v.getD []).length + 1) ≤ (D : Int) → (v.getD []).length + 1 ≤ D →
        encodeRawMessageS c v b d + 1 ≤ 10 * (perUnit c D * ((v.getD []).length + 1)) := by
  have key : ∀ b d, d + ((v.getD []).length + 1) ≤ (D : Int) → (v.getD []).length + 1 ≤ D →
        encodeRawMessageS c v b d + 1 ≤ 10 * (perUnit c D * ((v.getD []).length + 1)) := by
    intro b d hd hn
    have hu := perUnit_ge c D
    rw [unit_split, Nat.mul_one]
    unfold encodeRawMessageS
    cases v with
    | none =>
      have := null_size (c := c) b
      simp only [grown]; omega
    | some v =>
      simp only [Option.getD_some] at *
      have h6 : 6 * v.length ≤ perUnit c D * v.length := Nat.mul_le_mul_right _ (by omega)
      split
      · rename_i htr
        have h1 := rawTokensS_le (c := c) (D := D) v b d (by omega) (by omega)
        cases hr : rawTokens c v b d with
        | panic => simp only []; omega
        | done b1 d1 e1 =>
          obtain ⟨_, h2⟩ := (rawTokens_size (c := c) (D := D) v).1 _ _ _ _ _ (by omega) (by omega) hr
          cases e1 with
          | none => simp only []; omega
          | some x =>
            have h3 := rawVerbatimS_le (c := c) (D := D) (hlib htr) htr v b1 d1 (by omega) (by omega)
            simp only []; omega
      · have hp := parseValueW_lin v
        unfold Lin at hp
        rw [parseValueW_fst] at hp
        cases hq : parseValue v with
        | fail r x => rw [hq] at hp; simp only [] at hp ⊢; omega
        | ok s r =>
          rw [hq] at hp
          have hl : s.length ≤ v.length := by
            have := congrArg List.length (parseValue_sound hq).1
            rw [List.length_append] at this; omega
          have h1 := rawTokensS_le (c := c) (D := D) s b d (by omega) (by omega)
          have := Nat.mul_le_mul_left (perUnit c D) hl
          simp only [] at hp ⊢; omega
  refine ⟨?_, key⟩
  intro b d hd hn
  have := key b d (by omega) hn
  omega

theorem rawsS_weighs (hlib : c.trustRaw = true → IndentLib c.jsonIndent) : ∀ es : List (Bytes × Option Bytes),
    StrWeighsS c D (rawsSize es) 0 (es.map fun e => (e.1, encodeRawMessage c e.2, encodeRawMessageS c e.2))
  | [] => .nil
  | (k, v) :: es => by
    have h := rawsS_weighs hlib es
    have hv : rawsSize ((k, v) :: es) = (k.length + 1 + ((v.getD []).length + 1)) + rawsSize es := by
      cases v <;> simp [rawsSize] <;> omega
    rw [hv]
    exact WeighsS.cons (w := 0) (u := 0) ⟨_, rfl, raw_size hlib v, (rawS_le hlib v).1⟩ h

/-- What sorting takes, if keys are sorted. -/
def sorting (c : Cfg) (srt : List MKey → Nat) : List MKey → Nat := fun l => if c.sortMapKeys then srt l else 0

theorem stepsE_keys (srt : List MKey → Nat) : ∀ es, (stepsE c srt es).map (·.1) = es.map (·.1)
  | [] => by simp [stepsE]
  | (k, v) :: es => by simp [stepsE, stepsE_keys srt es]

theorem stepsM_keys (srt : List MKey → Nat) : ∀ es, (stepsM c srt es).map (fun e => MKey.str e.1) = es.map (fun e => MKey.str e.1)
  | [] => by simp [stepsM]
  | (k, v) :: es => by simp [stepsM, stepsM_keys srt es]

mutual

theorem encSteps_le (hlib : c.trustRaw = true → IndentLib c.jsonIndent) (srt : List MKey → Nat) :
    ∀ v : GV, CostIn c D (size v) (apart (sorting c srt) v) (encSteps c srt v)
  | .nil | .sliceNil | .mapNil | .ptrNil => by
    unfold encSteps size apart
    exact takes_in (appendS_takes (k := 4 + perColor c.clrs) fun b => by have := null_size (c := c) b; omega) (by have := unit_mul c D 0; omega)
  | .bool v => by
    unfold encSteps size apart
    exact takes_in (appendS_takes (k := 5 + perColor c.clrs) fun b => by have := bool_size (c := c) v b; omega) (by have := unit_mul c D 0; omega)
  | .int z => by
    unfold encSteps size apart
    refine takes_in (appendS_takes (k := digits z.natAbs + 1 + perColor c.clrs) fun b => by have := int_size (c := c) z b; omega) ?_
    have := unit_mul c D (digits z.natAbs + 1)
    rw [show digits z.natAbs + 1 + 1 = digits z.natAbs + 2 from rfl] at this
    omega
  | .uint n => by
    unfold encSteps size apart
    exact takes_in (appendS_takes (k := digits n + perColor c.clrs) fun b => by have := uint_size (c := c) n b; omega)
      (by have := unit_mul c D (digits n); omega)
  | .float f => by
    unfold encSteps size apart
    exact takes_in (coloredS_takes (fun cl => by simp [palette]) (floatS_takes f)) (by have := unit_mul c D (floatSize f); omega)
  | .number s => by
    unfold encSteps size apart
    exact takes_in (numberS_takes s) (by have := unit_mul c D s.length; omega)
  | .string s => by
    unfold encSteps size apart
    exact takes_in (strS_takes s) (by have := unit_mul c D s.length; omega)
  | .bytesNil => by
    unfold encSteps size apart
    exact takes_in (bytesS_takes none) (by have := unit_mul c D 0; simp only [Option.getD_none, List.length_nil]; omega)
  | .bytes s => by
    unfold encSteps size apart
    exact takes_in (bytesS_takes (some s)) (by have := unit_mul c D s.length; simp only [Option.getD_some]; omega)
  | .time s _ => by
    unfold encSteps size apart
    exact takes_in (timeS_takes s) (by have := unit_mul c D s.length; omega)
  | .slice xs => by unfold encSteps size apart; exact arrayS_le (stepsL_weighs hlib srt xs)
  | .array xs => by unfold encSteps size apart; exact arrayS_le (stepsL_weighs hlib srt xs)
  | .map es => by
    unfold encSteps size apart
    have h := mapS_le (srt := srt) (stepsE_weighs hlib srt es)
    rw [stepsE_keys, Nat.add_comm (apartE _ _)] at h
    exact h
  | .mapSI es => by
    unfold encSteps size apart
    have h := strMapS_le (srt := srt) (stepsM_weighs hlib srt es)
    rw [stepsM_keys, Nat.add_comm (apartS _ _)] at h
    exact h
  | .mapRaw es => by
    unfold encSteps size apart
    have h := strMapS_le (srt := srt) (rawsS_weighs (c := c) (D := D) hlib es)
    rw [List.map_map, Nat.zero_add] at h
    exact h
  | .struct fs => by unfold encSteps size apart; exact structS_le (stepsF_weighs hlib srt fs)
  | .ptr v => by
    unfold encSteps size apart
    intro b d hd hn
    have := encSteps_le hlib srt v b d hd hn
    simp only []; omega
  | .iface v _ => by
    unfold encSteps size apart
    intro b d hd hn
    have := encSteps_le hlib srt v b d hd hn
    simp only []; omega
  | .rawNil => by unfold encSteps size apart; exact (rawS_le hlib none).1
  | .raw s => by unfold encSteps size apart; exact (rawS_le hlib (some s)).1
  | .jsonM r _ => by
    unfold encSteps size apart
    intro b d hd hn
    have hu := perUnit_ge c D
    unfold encodeJSONMarshalerS
    cases r with
    | isNil =>
      have := null_size (c := c) b
      rw [unit_split, Nat.mul_one]
      simp only [grown]; omega
    | err x =>
      rw [unit_split, Nat.mul_one]
      simp only []; omega
    | ok s =>
      have hj : jsonSize (.ok s) = (s.getD []).length := by cases s <;> rfl
      rw [hj] at hd hn ⊢
      exact (rawS_le hlib s).2 b d (by omega) (by omega)
  | .textM r _ => by
    unfold encSteps size apart
    exact takes_in (textS_takes r) (by have := unit_mul c D (textSize r); omega)
  | .quoted v => by
    unfold encSteps size apart
    intro b d hd hn
    have hu := perUnit_ge c D
    have h3 := encSteps_le hlib srt v b d (by omega) (by omega)
    rw [unit_split, Nat.mul_one, Nat.mul_left_comm]
    rcases toStringS_le (c := c) (enc c v, encSteps c srt v) b d with h | ⟨b1, d1, h1, h2⟩
    · simp only [] at h; omega
    · obtain ⟨h4, _⟩ := enc_size (D := D) hlib v _ _ _ _ _ (by omega) (by omega) h1
      simp only [] at h2 ⊢; omega
  | .embNil _ | .unsupported => by
    unfold encSteps size apart
    intro b d hd hn
    have hu := perUnit_ge c D
    simp only []; omega
  | .emb v _ => by
    unfold encSteps size apart
    intro b d hd hn
    have := encSteps_le hlib srt v b d hd hn
    simp only []; omega

theorem stepsL_weighs (hlib : c.trustRaw = true → IndentLib c.jsonIndent) (srt : List MKey → Nat) :
    ∀ vs : List GV, ElWeighs c D (sizeL vs) (apartL (sorting c srt) vs) (stepsL c srt vs)
  | [] => by unfold stepsL sizeL apartL; exact .nil
  | v :: vs => by
    unfold stepsL sizeL apartL
    exact .cons ⟨_, rfl, enc_size hlib v, encSteps_le hlib srt v⟩ (stepsL_weighs hlib srt vs)

theorem stepsE_weighs (hlib : c.trustRaw = true → IndentLib c.jsonIndent) (srt : List MKey → Nat) :
    ∀ es : List (MKey × GV), MemWeighs c D (sizeE es) (apartE (sorting c srt) es) (stepsE c srt es)
  | [] => by unfold stepsE sizeE apartE; exact .nil
  | (k, v) :: es => by
    unfold stepsE sizeE apartE
    exact .cons ⟨_, rfl, enc_size hlib v, encSteps_le hlib srt v⟩ (stepsE_weighs hlib srt es)

theorem stepsM_weighs (hlib : c.trustRaw = true → IndentLib c.jsonIndent) (srt : List MKey → Nat) :
    ∀ es : List (Bytes × GV), StrWeighsS c D (sizeS es) (apartS (sorting c srt) es) (stepsM c srt es)
  | [] => by unfold stepsM sizeS apartS; exact .nil
  | (k, v) :: es => by
    unfold stepsM sizeS apartS
    exact .cons ⟨_, rfl, enc_size hlib v, encSteps_le hlib srt v⟩ (stepsM_weighs hlib srt es)

theorem stepsF_weighs (hlib : c.trustRaw = true → IndentLib c.jsonIndent) (srt : List MKey → Nat) :
    ∀ fs : List (FMeta × GV), FldWeighsS c D (sizeF fs) (apartF (sorting c srt) fs) (stepsF c srt fs)
  | [] => by unfold stepsF sizeF apartF; exact .nil
  | (m, v) :: fs => by
    unfold stepsF sizeF apartF
    exact .cons ⟨_, rfl, enc_size hlib v, encSteps_le hlib srt v⟩ (stepsF_weighs hlib srt fs)

end

end

end JC

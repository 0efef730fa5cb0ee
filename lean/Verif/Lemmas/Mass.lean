import Verif.Spec.Mass
import Verif.Lemmas.DecTotal
import Verif.Lemmas.WorkBound
/-!
How the contents of a destination grow (property C96).
-/
namespace JC
open Spec Props

theorem mass_pos (v : DV) : 1 ≤ mass v := by
  cases v
  case user s => cases s <;> simp [mass]
  all_goals simp [mass]

theorem massL_append (xs ys : List DV) : massL (xs ++ ys) = massL xs + massL ys := by
  induction xs with
  | nil => simp [massL]
  | cons x xs ih => simp only [List.cons_append, massL, ih]; omega

theorem massL_snoc (xs : List DV) (x : DV) : massL (xs ++ [x]) = massL xs + mass x := by
  rw [massL_append]; simp [massL]

theorem massL_head (z : DV) (xs : List DV) : mass (xs.headD z) + massL xs.tail ≤ massL xs + mass z := by
  cases xs <;> simp [massL]

theorem massL_set (u x : DV) : ∀ (xs : List DV) (i : Nat), massL (xs.set i x) + mass (xs.getD i u) ≤ massL xs + max (mass x) (mass (xs.getD i u))
  | [], i => by simp [massL]; omega
  | y :: ys, 0 => by simp [massL]; omega
  | y :: ys, i + 1 => by
    have := massL_set u x ys i
    simp only [List.set_cons_succ, massL, List.getD_cons_succ]; omega

theorem massE_set (k : MK) (v : DV) (es : List (MK × DV)) : massE (mapSet k v es) ≤ massE es + keyMass k + mass v := by
  induction es with
  | nil => simp [mapSet, massE]
  | cons e es ih =>
    obtain ⟨k', v'⟩ := e
    simp only [mapSet]
    split
    · rename_i h; subst h; simp only [massE]; omega
    · split <;> simp only [massE] <;> omega

theorem massL_replicate (n : Nat) (v : DV) : massL (List.replicate n v) = n * mass v := by
  induction n with
  | zero => simp [massL]
  | succ n ih => rw [List.replicate_succ, massL, ih, Nat.add_mul, Nat.one_mul]; omega

mutual
theorem mass_zero : ∀ t, mass (zero t) = room t
  | .array n t => by simp only [zero, mass, room, massL_replicate, mass_zero t]
  | .struct fs => by simp only [zero, mass, room, mass_zeroF fs]
  | .quoted t => by simp only [zero, room, mass_zero t]
  | .quotedInt t => by simp only [zero, room, mass_zero t]
  | .bool | .int _ | .float32 | .float64 | .number | .string | .bytes | .duration | .time | .raw | .iface | .ifaceM _
  | .slice _ | .map _ _ | .mapSI | .mapRaw | .ptr _ | .jsonU _ | .textU _ | .unsupported => by
    all_goals simp [zero, mass, room]
theorem mass_zeroF : ∀ fs, massL (zeroF fs) = roomF fs
  | [] => by simp [zeroF, massL, roomF]
  | (_, t) :: fs => by simp only [zeroF, massL, roomF, mass_zero t, mass_zeroF fs]
end

/-! Strings grow at most threefold. -/

theorem rune_three : ∀ s : Bytes, s ≠ [] → (encodeRune (decodeRune s).1).length ≤ 3 * (decodeRune s).2 ∧ (decodeRune s).2 ≤ s.length
  | [], h => absurd rfl h
  | b0 :: t, _ => by
    have h4 := fun r => encodeRune_len r
    have he : (encodeRune runeError).length = 3 := by decide
    unfold decodeRune
    simp only []
    split
    · rename_i hb
      have : b0.toNat < 0x80 := hb
      refine ⟨?_, by simp⟩
      simp [encodeRune, this]
    · split
      · split
        · split
          · refine ⟨Nat.le_trans (h4 _) (by simp), by simp⟩
          · exact ⟨Nat.le_of_eq he, by simp⟩
        · exact ⟨Nat.le_of_eq he, by simp⟩
      · split
        · split
          · split
            · refine ⟨Nat.le_trans (h4 _) (by simp), by simp⟩
            · exact ⟨Nat.le_of_eq he, by simp⟩
          · exact ⟨Nat.le_of_eq he, by simp⟩
        · split
          · split
            · split
              · refine ⟨Nat.le_trans (h4 _) (by simp), by simp⟩
              · exact ⟨Nat.le_of_eq he, by simp⟩
            · exact ⟨Nat.le_of_eq he, by simp⟩
          · exact ⟨Nat.le_of_eq he, by simp⟩

theorem coerce_len3 (b s : Bytes) : (appendCoerceInvalidUTF8 b s).length ≤ b.length + 3 * s.length := by
  suffices H : ∀ n (s b : Bytes), s.length ≤ n → ((runes s).foldl appendRune b).length ≤ b.length + 3 * s.length from H _ s b (Nat.le_refl _)
  intro n
  induction n with
  | zero =>
    intro s b h
    cases s with
    | nil => simp [runes]
    | cons c t => simp at h
  | succ n ih =>
    intro s b h
    cases s with
    | nil => simp [runes]
    | cons c t =>
      have hp := decodeRune_size_pos c t
      obtain ⟨h1, h2⟩ := rune_three (c :: t) (by simp)
      rw [runes]
      simp only [List.foldl_cons]
      have := ih ((c :: t).drop (decodeRune (c :: t)).2) (appendRune b (decodeRune (c :: t)).1) (by simp only [List.length_drop, List.length_cons] at *; omega)
      simp only [appendRune, List.length_append, List.length_drop] at this
      simp only [appendRune]
      omega

theorem unquoteLoop_len3 : ∀ n (s r out : Bytes), s.length ≤ n → unquoteLoop s r = .ok out → out.length ≤ r.length + 3 * s.length := by
  intro n
  induction n with
  | zero =>
    intro s r out h e
    cases s with
    | nil => rw [unquoteLoop, if_pos rfl] at e; injection e with e; subst e; simp
    | cons c t => simp at h
  | succ n ih =>
    intro s r out h e
    rw [unquoteLoop] at e
    split at e
    · injection e with e; subst e; omega
    · split at e
      · injection e with e; subst e
        exact coerce_len3 _ _
      · rename_i i hi
        have hlt := indexByte_lt hi
        have hc := coerce_len3 r (s.take i)
        simp only [] at e
        split at e
        · contradiction
        · rename_i ch t hs
          have hl := congrArg List.length hs
          simp only [List.length_drop, List.length_cons, List.length_take] at hl hc
          have go : ∀ s' r', s'.length ≤ t.length → r'.length ≤ (appendCoerceInvalidUTF8 r (s.take i)).length + 4 → unquoteLoop s' r' = .ok out →
              out.length ≤ r.length + 3 * s.length := by
            intro s' r' h1 h2 e
            have := ih s' r' out (by omega) e
            omega
          have hr : ∀ x, (appendRune (appendCoerceInvalidUTF8 r (s.take i)) x).length ≤ (appendCoerceInvalidUTF8 r (s.take i)).length + 4 :=
            fun x => appendRune_len _ x
          have h1' : ∀ x : UInt8, (appendCoerceInvalidUTF8 r (s.take i) ++ [x]).length ≤ (appendCoerceInvalidUTF8 r (s.take i)).length + 4 := by
            intro x; simp only [List.length_append, List.length_cons, List.length_nil]; omega
          clear ih hs hi
          by_cases h1 : ch = ch! '"' ∨ ch = ch! '\\' ∨ ch = ch! '/'
          · rw [if_pos h1] at e; exact go _ _ (Nat.le_refl _) (h1' _) e
          rw [if_neg h1] at e; clear h1
          by_cases h1 : ch = ch! 'n'
          · rw [if_pos h1] at e; exact go _ _ (Nat.le_refl _) (h1' _) e
          rw [if_neg h1] at e; clear h1
          by_cases h1 : ch = ch! 'r'
          · rw [if_pos h1] at e; exact go _ _ (Nat.le_refl _) (h1' _) e
          rw [if_neg h1] at e; clear h1
          by_cases h1 : ch = ch! 't'
          · rw [if_pos h1] at e; exact go _ _ (Nat.le_refl _) (h1' _) e
          rw [if_neg h1] at e; clear h1
          by_cases h1 : ch = ch! 'b'
          · rw [if_pos h1] at e; exact go _ _ (Nat.le_refl _) (h1' _) e
          rw [if_neg h1] at e; clear h1
          by_cases h1 : ch = ch! 'f'
          · rw [if_pos h1] at e; exact go _ _ (Nat.le_refl _) (h1' _) e
          rw [if_neg h1] at e; clear h1
          by_cases h1 : ch = ch! 'u'
          · rw [if_pos h1] at e
            have dl : ∀ k, (t.drop k).length ≤ t.length := by intro k; simp only [List.length_drop]; omega
            split at e
            · contradiction
            · split at e
              · split at e
                · exact go _ _ (dl 4) (hr _) e
                · split at e
                  · contradiction
                  · split at e
                    · exact go _ _ (by rw [List.drop_drop]; exact dl _) (hr _) e
                    · exact go _ _ (dl 4) (hr _) e
              · exact go _ _ (dl 4) (hr _) e
          · rw [if_neg h1] at e; contradiction

theorem unquote_len3 {b s r : Bytes} {n : Bool} (h : parseStringUnquote b [] = .ok s r n) : s.length + 3 * r.length + 6 ≤ 3 * b.length := by
  unfold parseStringUnquote at h
  cases hf : parseStringFast b with
  | ok v r' esc =>
    rw [hf] at h
    simp only [] at h
    have hl := fast_len hf
    split at h
    · contradiction
    · split at h
      · injection h with h1 h2; subst h1 h2
        simp only [List.length_take, List.length_drop]; omega
      · split at h
        · rename_i hu
          injection h with h1 h2; subst h1 h2
          have := unquoteLoop_len3 _ _ _ _ (Nat.le_refl _) hu
          simp only [List.length_take, List.length_drop, List.length_nil] at this
          omega
        · contradiction
        · contradiction
  | fail r e => rw [hf] at h; contradiction

end JC

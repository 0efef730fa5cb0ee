import Verif.Lemmas.MessageErase
/-! How long the messages are. -/
namespace JC

/-- The message has at most 81 bytes and something is said; `Offset` is not set. -/
def Small (m : SynErr) : Prop := m.what ≠ [] ∧ m.what.length ≤ 81 ∧ m.offset = 0

def PM.Small : PM → Prop
  | .fail _ m => JC.Small m
  | _ => True

theorem fmtC_len (c : UInt8) : (fmtC c).length ≤ 2 := by unfold fmtC; split <;> simp

theorem small_const {w n : Bytes} (h0 : w ≠ []) (h : w.length ≤ 81) : Small ⟨w, n, 0⟩ := ⟨h0, h, rfl⟩

theorem small_c {a z n : Bytes} {c : UInt8} (h : a.length + z.length ≤ 77) : Small ⟨withC a c z, n, 0⟩ := by
  have := fmtC_len c
  refine ⟨?_, ?_, rfl⟩
  · simp [withC]
  · simp [withC]; omega

theorem small_eof (b : Bytes) : Small (unexpectedEOF b) := small_const (by decide) (by decide)

syntax "small" : tactic
macro_rules | `(tactic| small) => `(tactic| first | trivial | exact small_eof _ | exact small_const (by decide) (by decide) | exact small_c (by decide))

theorem null_small (b : Bytes) : (parseNullM b).Small := by unfold parseNullM; repeat' split
                                                            all_goals small
theorem true_small (b : Bytes) : (parseTrueM b).Small := by unfold parseTrueM; repeat' split
                                                            all_goals small
theorem false_small (b : Bytes) : (parseFalseM b).Small := by unfold parseFalseM; repeat' split
                                                              all_goals small
theorem numExp_small (b s : Bytes) : (numExpM b s).Small := by
  unfold numExpM okAtM
  split
  · split
    · simp only []
      split
      · small
      · split <;> small
    · small
  · small

theorem numFrac_small (b s : Bytes) : (numFracM b s).Small := by
  unfold numFracM
  split
  · split
    · split
      · small
      · split
        · exact numExp_small _ _
        · small
    · exact numExp_small _ _
  · exact numExp_small _ _

theorem number_small (b : Bytes) : (parseNumberM b).Small := by
  unfold parseNumberM okAtM
  split
  · small
  · simp only []
    split
    · small
    · split
      · split
        · split
          · small
          · split
            · small
            · split
              · small
              · exact numFrac_small _ _
        · exact numFrac_small _ _
      · small

theorem unicode_small {t : Bytes} {m : SynErr} (h : unicodeErr t = some m) : Small m := by
  unfold unicodeErr at h
  split at h
  · injection h with h; subst h; small
  · split at h
    · injection h with h; subst h
      have h1 := fmtC_len (t.headD 0)
      have h2 : (t.take 4).length ≤ 4 := by simp; omega
      refine ⟨by simp, ?_, rfl⟩
      have h3 : (prefix32 (t.take 4)).length ≤ 4 := by unfold prefix32; rw [if_pos (by omega)]; exact h2
      simp only [SynErr.text, withC, List.length_append, List.length_cons, List.length_nil]
      omega
    · split at h
      · injection h with h; subst h; small
      · cases h

theorem scan_small (b t : Bytes) (i : Nat) : (scanStringM b t i).Small := by
  induction h : t.length using Nat.strongRecOn generalizing t i with
  | _ n ih =>
    subst h
    cases t with
    | nil => unfold scanStringM; small
    | cons c t =>
      unfold scanStringM
      split
      · cases t with
        | nil => small
        | cons e t' =>
          simp only []
          split
          · exact ih _ (by simp; omega) _ _ rfl
          · split
            · cases hu : unicodeErr t' with
              | some m => exact unicode_small hu
              | none =>
                simp only []
                split
                · exact ih _ (by simp; omega) _ _ rfl
                · small
            · small
      · split
        · small
        · split
          · small
          · exact ih _ (by simp) _ _ rfl

theorem string_small (b : Bytes) : (parseStringM b).Small := by
  unfold parseStringM
  split
  · small
  · small
  · split
    · small
    · split
      · small
      · split
        · small
        · exact scan_small _ _ _

structure SmallAt (n : Nat) : Prop where
  value : ∀ b, (parseValueMF n b).Small
  object : ∀ b, (parseObjectMF n b).Small
  array : ∀ b, (parseArrayMF n b).Small
  objLoop : ∀ a f b, (objLoopM n a f b).Small
  objItem : ∀ a b, (objItemM n a b).Small
  arrLoop : ∀ a f b, (arrLoopM n a f b).Small
  arrItem : ∀ a b, (arrItemM n a b).Small

theorem smallAt (n : Nat) : SmallAt n := by
  induction n with
  | zero => constructor <;> intros <;> trivial
  | succ n ih =>
    constructor
    · intro b
      unfold parseValueMF
      split
      · small
      · split; exact ih.object _
        split; exact ih.array _
        split; exact string_small _
        split; exact null_small _
        split; exact true_small _
        split; exact false_small _
        split; exact number_small _
        small
    · intro b
      unfold parseObjectMF
      split
      · small
      · split
        · small
        · split
          · small
          · exact ih.objLoop _ _ _
    · intro b
      unfold parseArrayMF
      split
      · small
      · split
        · small
        · split
          · small
          · exact ih.arrLoop _ _ _
    · intro a f b
      unfold objLoopM closeAtM
      simp only []
      split
      · small
      · split
        · small
        · split
          · exact ih.objItem _ _
          · split
            · small
            · split
              · small
              · split
                · small
                · exact ih.objItem _ _
    · intro a b
      unfold objItemM
      have hs := string_small b
      cases h : parseStringM b with
      | fuel r => trivial
      | fail r e => rw [h] at hs; exact hs
      | ok v r =>
        simp only []
        split
        · small
        · rename_i t _
          split
          · small
          · have hv := ih.value (skipSpaces t)
            cases h2 : parseValueMF n (skipSpaces t) with
            | fuel r => trivial
            | fail r e => rw [h2] at hv; exact hv
            | ok v r => exact ih.objLoop _ _ _
    · intro a f b
      unfold arrLoopM closeAtM
      simp only []
      split
      · small
      · split
        · small
        · split
          · exact ih.arrItem _ _
          · split
            · small
            · split
              · small
              · split
                · small
                · exact ih.arrItem _ _
    · intro a b
      unfold arrItemM
      have hv := ih.value b
      cases h2 : parseValueMF n b with
      | fuel r => trivial
      | fail r e => rw [h2] at hv; exact hv
      | ok v r => exact ih.arrLoop _ _ _

theorem unmarshalErr_small {b : Bytes} {m : SynErr} (h : unmarshalErr b = some m) : Small m := by
  unfold unmarshalErr at h
  have hv : (parseValueM (skipSpaces b)).Small := (smallAt _).value _
  split at h
  · cases h
  · rename_i heq; rw [heq] at hv; injection h with h; subst h; exact hv
  · split at h
    · cases h
    · injection h with h; subst h; small

theorem prefix32_len (b : Bytes) : (prefix32 b).length ≤ 35 := by
  unfold prefix32
  split
  · omega
  · simp; omega

theorem text_len {m : SynErr} (h : Small m) : m.text.length ≤ 124 := by
  have h1 := h.2.1
  have h2 := prefix32_len m.near
  simp only [SynErr.text, List.length_append, List.length_cons, List.length_nil]
  omega

end JC

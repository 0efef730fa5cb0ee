import Verif.Model.Message
import Verif.Lemmas.ParseFuel
/-! The parser with messages does what the parser without them does. -/
namespace JC

theorem parseNullM_erase (b : Bytes) : (parseNullM b).erase = parseNull b := by
  unfold parseNullM parseNull
  repeat' split
  all_goals rfl

theorem parseTrueM_erase (b : Bytes) : (parseTrueM b).erase = parseTrue b := by
  unfold parseTrueM parseTrue
  repeat' split
  all_goals rfl

theorem parseFalseM_erase (b : Bytes) : (parseFalseM b).erase = parseFalse b := by
  unfold parseFalseM parseFalse
  repeat' split
  all_goals rfl

theorem okAtM_erase (b r : Bytes) : (okAtM b r).erase = okAt b r := rfl
theorem closeAtM_erase (a b : Bytes) : (closeAtM a b).erase = closeAt a b := rfl

theorem numExpM_erase (b s : Bytes) : (numExpM b s).erase = numExp b s := by
  cases s with
  | nil => rfl
  | cons c t =>
    unfold numExpM numExp
    simp only []
    split
    · cases t with
      | nil => rfl
      | cons d u =>
        simp only []
        generalize (if d = 43 ∨ d = 45 then u else d :: u) = x
        cases x with
        | nil => rfl
        | cons e y => simp only []; split <;> rfl
    · rfl

theorem numFracM_erase (b s : Bytes) : (numFracM b s).erase = numFrac b s := by
  cases s with
  | nil => exact numExpM_erase b []
  | cons c t =>
    unfold numFracM numFrac
    simp only []
    split
    · cases t with
      | nil => rfl
      | cons d u => simp only []; split; exact numExpM_erase _ _; rfl
    · exact numExpM_erase _ _

theorem parseNumberM_erase (b : Bytes) : (parseNumberM b).erase = parseNumber b := by
  cases b with
  | nil => rfl
  | cons c0 t0 =>
    unfold parseNumberM parseNumber
    simp only []
    generalize (if c0 = 45 then t0 else c0 :: t0) = s
    cases s with
    | nil => rfl
    | cons d u =>
      simp only []
      split
      · split
        · cases u with
          | nil => rfl
          | cons e w =>
            simp only []
            split
            · rfl
            · split
              · rfl
              · exact numFracM_erase _ _
        · exact numFracM_erase _ _
      · rfl

theorem unicodeErr_none (b : Bytes) : unicodeErr b = none ↔ (parseUnicode b).isSome := by
  unfold unicodeErr parseUnicode
  split
  · simp
  · cases parseUintHex (b.take 4) with
    | none => simp
    | some x => obtain ⟨u, r⟩ := x; simp only []; split <;> simp

/-- The result of `parseStringFast` without the flag. -/
def SR.flat : SR → PR
  | .ok v r _ => .ok v r
  | .fail r e => .fail r e

theorem scanStringM_erase (b t : Bytes) (i : Nat) : (scanStringM b t i).erase = (scanString b t i).flat := by
  induction h : t.length using Nat.strongRecOn generalizing t i with
  | _ n ih =>
    subst h
    cases t with
    | nil => rfl
    | cons c t =>
      unfold scanStringM scanString
      split
      · cases t with
        | nil => rfl
        | cons e t' =>
          simp only []
          split
          · exact ih _ (by simp; omega) _ _ rfl
          · split
            · have hu := unicodeErr_none t'
              cases h1 : unicodeErr t' with
              | some m =>
                have : parseUnicode t' = none := by
                  cases h2 : parseUnicode t' with
                  | none => rfl
                  | some u => rw [h1, h2] at hu; simp at hu
                rw [this]; rfl
              | none =>
                have : ∃ u, parseUnicode t' = some u := by
                  cases h2 : parseUnicode t' with
                  | none => rw [h1, h2] at hu; simp at hu
                  | some u => exact ⟨u, rfl⟩
                obtain ⟨u, hu⟩ := this
                rw [hu]
                obtain ⟨a1, a2, a3, a4, y, x1, x2, x3, x4, rfl, v1, v2, v3, v4, _⟩ := parseUnicode_some hu
                simp only []
                exact ih _ (by simp; omega) _ _ rfl
            · rfl
      · split
        · rfl
        · split
          · rfl
          · exact ih _ (by simp) _ _ rfl

theorem parseStringM_erase (b : Bytes) : (parseStringM b).erase = parseString b := by
  have hp : parseString b = (parseStringFast b).flat := by unfold parseString SR.flat; cases parseStringFast b <;> rfl
  rw [hp]
  unfold parseStringM parseStringFast
  split
  · rfl
  · rfl
  · rename_i q t hne
    have ht : t ≠ [] := fun h => hne h
    cases t with
    | nil => exact absurd rfl ht
    | cons x y =>
      simp only []
      split
      · rfl
      · cases indexByte (x :: y) 34 with
        | none => rfl
        | some k =>
          simp only []
          split
          · rfl
          · exact scanStringM_erase _ _ _

/-- Erasure of the functions with fuel. -/
structure EraseAt (n : Nat) : Prop where
  value : ∀ b, (parseValueMF n b).erase = parseValueF n b
  object : ∀ b, (parseObjectMF n b).erase = parseObjectF n b
  array : ∀ b, (parseArrayMF n b).erase = parseArrayF n b
  objLoop : ∀ a f b, (objLoopM n a f b).erase = objLoop n a f b
  objItem : ∀ a b, (objItemM n a b).erase = objItem n a b
  arrLoop : ∀ a f b, (arrLoopM n a f b).erase = arrLoop n a f b
  arrItem : ∀ a b, (arrItemM n a b).erase = arrItem n a b

theorem eraseAt (n : Nat) : EraseAt n := by
  induction n with
  | zero => constructor <;> intros <;> rfl
  | succ n ih =>
    constructor
    · intro b
      cases b with
      | nil => rfl
      | cons c t =>
        unfold parseValueMF parseValueF
        simp only []
        split; exact ih.object _
        split; exact ih.array _
        split; exact parseStringM_erase _
        split; exact parseNullM_erase _
        split; exact parseTrueM_erase _
        split; exact parseFalseM_erase _
        split; exact parseNumberM_erase _
        rfl
    · intro b
      unfold parseObjectMF parseObjectF
      split
      · rfl
      · cases b with
        | nil => rfl
        | cons c t =>
          simp only []
          split
          · rfl
          · exact ih.objLoop _ _ _
    · intro b
      unfold parseArrayMF parseArrayF
      split
      · rfl
      · cases b with
        | nil => rfl
        | cons c t =>
          simp only []
          split
          · rfl
          · exact ih.arrLoop _ _ _
    · intro a f b
      unfold objLoopM JC.objLoop
      simp only []
      cases skipSpaces b with
      | nil => rfl
      | cons c t =>
        simp only []
        split
        · rfl
        · split
          · exact ih.objItem _ _
          · split
            · rfl
            · cases skipSpaces t with
              | nil => rfl
              | cons d u =>
                simp only []
                split
                · rfl
                · exact ih.objItem _ _
    · intro a b
      unfold objItemM JC.objItem
      have hs := parseStringM_erase b
      cases h : parseStringM b with
      | fuel r => rw [h] at hs; simp only [PM.erase] at hs; rw [← hs]; rfl
      | fail r e => rw [h] at hs; simp only [PM.erase] at hs; rw [← hs]; rfl
      | ok v r =>
        rw [h] at hs; simp only [PM.erase] at hs; rw [← hs]
        simp only []
        cases skipSpaces r with
        | nil => rfl
        | cons c t =>
          simp only []
          split
          · rfl
          · have hv := ih.value (skipSpaces t)
            cases h2 : parseValueMF n (skipSpaces t) with
            | fuel r => rw [h2] at hv; simp only [PM.erase] at hv; rw [← hv]; rfl
            | fail r e => rw [h2] at hv; simp only [PM.erase] at hv; rw [← hv]; rfl
            | ok v r => rw [h2] at hv; simp only [PM.erase] at hv; rw [← hv]; exact ih.objLoop _ _ _
    · intro a f b
      unfold arrLoopM JC.arrLoop
      simp only []
      cases skipSpaces b with
      | nil => rfl
      | cons c t =>
        simp only []
        split
        · rfl
        · split
          · exact ih.arrItem _ _
          · split
            · rfl
            · cases skipSpaces t with
              | nil => rfl
              | cons d u =>
                simp only []
                split
                · rfl
                · exact ih.arrItem _ _
    · intro a b
      unfold arrItemM JC.arrItem
      have hv := ih.value b
      cases h2 : parseValueMF n b with
      | fuel r => rw [h2] at hv; simp only [PM.erase] at hv; rw [← hv]; rfl
      | fail r e => rw [h2] at hv; simp only [PM.erase] at hv; rw [← hv]; rfl
      | ok v r => rw [h2] at hv; simp only [PM.erase] at hv; rw [← hv]; exact ih.arrLoop _ _ _

theorem parseValueM_erase (b : Bytes) : (parseValueM b).erase = parseValue b := (eraseAt _).value b

end JC

import Verif.Spec.Clean
import Verif.Lemmas.Meaning
import Verif.Lemmas.Unique
import Verif.Lemmas.Doc
import Verif.Props.Strings
/-! Clean values denote a document or an error, and the document is JSON. -/
namespace JC
open Spec

/-- A document, or an error other than `rollback`. -/
def Fine : Meaning → Prop
  | .doc _ => True
  | .err e => e ≠ .rollback
  | .wild => False

def FineL {α : Type} : MeaningL α → Prop
  | .ok _ => True
  | .err e => e ≠ .rollback
  | .wild => False

def FineK : KeyMeaning → Prop
  | .ok _ _ => True
  | .err e => e ≠ .rollback
  | .wild => False

theorem seqElems_fine {l : List Meaning} (h : ∀ m ∈ l, Fine m) : FineL (seqElems l) := by
  induction l with
  | nil => trivial
  | cons m l ih =>
    have hm := h m (by simp)
    have ih := ih fun m hm => h m (by simp [hm])
    cases m with
    | err e => exact hm
    | wild => exact hm
    | doc x =>
      simp only [seqElems]
      generalize seqElems l = r at ih
      cases r <;> exact ih

theorem seqMembers_fine {l : List (KeyMeaning × Meaning)} (h : ∀ m ∈ l, FineK m.1 ∧ Fine m.2) : FineL (seqMembers l) := by
  induction l with
  | nil => trivial
  | cons m l ih =>
    obtain ⟨k, m⟩ := m
    have hm := h (k, m) (by simp)
    have ih := ih fun m hm => h m (by simp [hm])
    cases k with
    | err e => exact hm.1
    | wild => exact hm.1
    | ok r t =>
      cases m with
      | err e => exact hm.2
      | wild => exact hm.2
      | doc x =>
        simp only [seqMembers]
        generalize seqMembers l = r at ih
        cases r <;> exact ih

theorem innerErr_fine {e : Err} (h : e ≠ .rollback) : Fine (innerErr e) := by
  simp only [innerErr, if_neg h]; exact h

theorem toArr_fine {m : MeaningL Doc} (h : FineL m) : Fine m.toArr := by
  cases m with
  | ok => trivial
  | err e => exact innerErr_fine h
  | wild => exact h

theorem toObj_fine {m : MeaningL (Role × Bytes × Doc)} (h : FineL m) : Fine m.toObj := by
  cases m with
  | ok => trivial
  | err e => exact innerErr_fine h
  | wild => exact h

theorem toStruct_fine {nl : Bool} {m : MeaningL (Role × Bytes × Doc)} (h : FineL m) : Fine (m.toStruct nl) := by
  cases m with
  | ok xs => cases xs <;> trivial
  | err e => exact innerErr_fine h
  | wild => exact h

theorem rawMeaning_fine (c : Cfg) (s : Option Bytes) (h : CleanRaw c s) : Fine (rawMeaning c s) := by
  cases s with
  | none => trivial
  | some s =>
    simp only [rawMeaning]
    split
    · rename_i ht
      have h : ∃ j, JText j s := h ht
      rw [dif_pos h]; trivial
    · split
      · exact fun e => by cases e
      · rename_i v r hp
        obtain ⟨_, j, hj⟩ := parseValue_sound hp
        rw [dif_pos ⟨j, [], v, [], by simp, by simp [Ws], by simp [Ws], hj⟩]; trivial

theorem keyMeaning_fine (c : Cfg) (k : MKey) (h : CleanKey k) : FineK (keyMeaning c k) := by
  rcases k with s | z | n | r
  · trivial
  · trivial
  · trivial
  · cases r <;> first | exact h | trivial

theorem numberMeaning_fine (s : Bytes) (h : CleanNumber s) : Fine (numberMeaning s) := by
  unfold numberMeaning
  by_cases hj : JNumber (if s = [] then [0x30] else s)
  · simp only [if_pos hj]; trivial
  · simp only [if_neg hj]
    split
    · rename_i r e hp
      have : e = .syntax := parseNumber_err hp
      rw [this]; exact fun e => by cases e
    · rename_i v r hp
      obtain ⟨e, hv⟩ := parseNumber_sound hp
      by_cases hs : s = []
      · exact hj (by rw [if_pos hs]; exact .mk [] [0x30] [] [] (.inl rfl) .zero .none .none)
      · rw [if_neg hs] at e hj
        rcases h with h | h | h
        · exact hs h
        · exact hj h
        · exact h ⟨v, r, e, hv⟩

theorem isRollback_meaning (c : Cfg) : ∀ v, isRollback v = true → meaning c v = .err .rollback
  | .embNil _, _ => rfl
  | .emb v _, h => by simp only [meaning]; exact isRollback_meaning c v h

/-- Meaning of a stringable value: a leaf or an error. -/
theorem stringable_meaning (c : Cfg) : ∀ v, Stringable v → Clean c v →
    (∃ r t, meaning c v = .doc (.leaf r t)) ∨ ∃ e, meaning c v = .err e ∧ e ≠ .rollback
  | .bool _, _, _ => .inl ⟨_, _, by simp only [meaning]; rfl⟩
  | .int _, _, _ => .inl ⟨_, _, by simp only [meaning]; rfl⟩
  | .uint _, _, _ => .inl ⟨_, _, by simp only [meaning]; rfl⟩
  | .string _, _, _ => .inl ⟨_, _, by simp only [meaning]; rfl⟩
  | .ptrNil, _, _ => .inl ⟨_, _, by simp only [meaning, nullDoc]; rfl⟩
  | .float .nan, _, _ => .inr ⟨.unsupportedValue, by simp only [meaning], by intro e; cases e⟩
  | .float .inf, _, _ => .inr ⟨.unsupportedValue, by simp only [meaning], by intro e; cases e⟩
  | .float (.fin _ _ _), _, _ => .inl ⟨_, _, by simp only [meaning]; rfl⟩
  | .number s, _, h => by
    have hf := numberMeaning_fine s h
    simp only [meaning]
    unfold numberMeaning at *
    by_cases hj : JNumber (if s = [] then [0x30] else s)
    · simp only [if_pos hj]; exact .inl ⟨_, _, rfl⟩
    · simp only [if_neg hj] at hf ⊢
      split
      · rename_i hp
        rw [hp] at hf
        exact .inr ⟨_, rfl, hf⟩
      · rename_i hp
        rw [hp] at hf
        exact absurd hf id
  | .textM .isNil _, _, _ => .inl ⟨_, _, by simp only [meaning, textMeaning, nullDoc]; rfl⟩
  | .textM (.err e) _, _, h => .inr ⟨e, by simp only [meaning, textMeaning], h⟩
  | .textM (.ok s) _, _, _ => .inl ⟨_, _, by simp only [meaning, textMeaning]; rfl⟩
  | .ptr v, hs, h => by simp only [meaning]; exact stringable_meaning c v hs h

theorem strictRaw_doc (c : Cfg) (s : Option Bytes) (h : StrictRaw s) : ∃ x, rawMeaning c s = .doc x := by
  cases s with
  | none => exact ⟨_, rfl⟩
  | some s =>
    obtain ⟨⟨j, hj⟩, hw⟩ := h
    simp only [rawMeaning]
    split
    · rw [dif_pos ⟨j, hj⟩]; exact ⟨_, rfl⟩
    · obtain ⟨w1, v, w2, e, h1, h2, hd⟩ := hj
      have : w1 = [] := by
        cases w1 with
        | nil => rfl
        | cons x t => exact absurd (h1 x (by simp)) (hw x _ (by rw [e]; rfl))
      subst this
      have hp : parseValue s = .ok v w2 := by
        rw [e]
        apply parseValue_complete hd
        apply follow_of_numStop
        exact numStop_ws h2
      rw [hp]
      simp only []
      rw [dif_pos ⟨j, [], v, [], by simp, by simp [Ws], by simp [Ws], hd⟩]; exact ⟨_, rfl⟩

theorem seqMembers_docs {l : List (KeyMeaning × Meaning)} (h : ∀ m ∈ l, (∃ r t, m.1 = .ok r t) ∧ ∃ x, m.2 = .doc x) :
    ∃ xs, seqMembers l = .ok xs := by
  induction l with
  | nil => exact ⟨[], rfl⟩
  | cons m l ih =>
    obtain ⟨⟨r, t, e1⟩, x, e2⟩ := h m (by simp)
    obtain ⟨xs, e3⟩ := ih fun m hm => h m (by simp [hm])
    obtain ⟨k, m⟩ := m
    simp only at e1 e2
    subst e1 e2
    exact ⟨(r, t, x) :: xs, by simp only [seqMembers, e3]⟩

mutual
theorem clean_fine (c : Cfg) : ∀ v : GV, Clean c v → Fine (meaning c v)
  | .nil, _ | .sliceNil, _ | .mapNil, _ | .ptrNil, _ | .bool _, _ | .int _, _ | .uint _, _ | .string _, _
  | .bytesNil, _ | .bytes _, _ | .time _ _, _ | .rawNil, _ => by simp only [meaning]; trivial
  | .float .nan, _ => by simp only [meaning]; intro e; cases e
  | .float .inf, _ => by simp only [meaning]; intro e; cases e
  | .float (.fin _ _ _), _ => by simp only [meaning]; trivial
  | .number s, h => by simp only [meaning]; exact numberMeaning_fine s h
  | .slice xs, h => by simp only [meaning]; exact toArr_fine (seqElems_fine (cleanL_fine c xs h))
  | .array xs, h => by simp only [meaning]; exact toArr_fine (seqElems_fine (cleanL_fine c xs h))
  | .map es, h => by
    have hE := cleanE_fine c es h
    simp only [meaning]
    rw [if_neg]
    · apply toObj_fine
      apply seqMembers_fine
      intro m hm
      simp only [List.mem_map] at hm
      obtain ⟨e, he, rfl⟩ := hm
      have he' : e ∈ meanE c es := by
        split at he
        · exact (mem_sortBy _ _ _).1 he
        · exact he
      rw [meanE_map, List.mem_map] at he'
      obtain ⟨e', he', rfl⟩ := he'
      exact ⟨keyMeaning_fine c _ (hE e' he').1, (hE e' he').2⟩
    · simp only [List.any_eq_true, not_exists, not_and]
      intro _ _ e he hk
      have := (hE e he).1
      revert this hk
      cases e.1 with
      | text r => cases r <;> simp [MKey.uncallable, CleanKey]
      | _ => simp [MKey.uncallable]
  | .mapSI es, h => by
    have hS := cleanS_fine c es h
    simp only [meaning]
    apply toObj_fine
    apply seqMembers_fine
    intro m hm
    simp only [List.mem_map] at hm
    obtain ⟨e, he, rfl⟩ := hm
    have he' : e ∈ meanS c es := by
      split at he
      · exact (mem_sortBy _ _ _).1 he
      · exact he
    rw [meanS_map, List.mem_map] at he'
    obtain ⟨e', he', rfl⟩ := he'
    exact ⟨trivial, hS e' he'⟩
  | .mapRaw es, h => by
    simp only [Clean] at h
    simp only [meaning]
    split
    · rename_i hs
      rw [if_pos hs] at h
      apply toObj_fine
      apply seqMembers_fine
      intro m hm
      simp only [List.mem_map] at hm
      obtain ⟨e, he, rfl⟩ := hm
      exact ⟨trivial, rawMeaning_fine c _ (h e ((mem_sortBy _ _ _).1 he))⟩
    · rename_i hs
      rw [if_neg hs] at h
      obtain ⟨xs, e⟩ := seqMembers_docs (l := es.map fun e => (.ok .key (quote c.escapeHTML e.1), rawMeaning c e.2)) (by
        intro m hm
        simp only [List.mem_map] at hm
        obtain ⟨e, he, rfl⟩ := hm
        exact ⟨⟨_, _, rfl⟩, strictRaw_doc c _ (h e he)⟩)
      rw [e]; trivial
  | .struct fs, h => by simp only [meaning]; exact toStruct_fine (cleanF_fine c false fs h)
  | .ptr v, h => by simp only [meaning]; exact clean_fine c v h
  | .iface v _, h => by simp only [meaning]; exact clean_fine c v h
  | .raw s, h => by simp only [meaning]; exact rawMeaning_fine c _ h
  | .jsonM .isNil _, _ => by simp only [meaning]; trivial
  | .jsonM (.err e) _, h => by simp only [meaning]; exact h
  | .jsonM (.ok s) _, h => by simp only [meaning]; exact rawMeaning_fine c _ h
  | .textM .isNil _, _ => by simp only [meaning, textMeaning]; trivial
  | .textM (.err e) _, h => by simp only [meaning, textMeaning]; exact h
  | .textM (.ok s) _, _ => by simp only [meaning, textMeaning]; trivial
  | .textM .absent _, h => absurd h (by simp [Clean])
  | .quoted v, h => by
    simp only [meaning]
    rcases stringable_meaning c v h.1 h.2 with ⟨r, t, e⟩ | ⟨e, he, hr⟩
    · rw [e]; trivial
    · rw [he]; exact hr
  | .embNil _, h => absurd h (by simp [Clean])
  | .emb v _, h => by simp only [meaning]; exact clean_fine c v h
  | .unsupported, _ => by simp only [meaning]; intro e; cases e
theorem cleanL_fine (c : Cfg) : ∀ xs : List GV, CleanL c xs → ∀ m ∈ meanL c xs, Fine m
  | [], _ => by simp [meanL]
  | v :: vs, h => by
    intro m hm
    simp only [meanL, List.mem_cons] at hm
    rcases hm with rfl | hm
    · exact clean_fine c v h.1
    · exact cleanL_fine c vs h.2 m hm
theorem cleanE_fine (c : Cfg) : ∀ es : List (MKey × GV), CleanE c es → ∀ e ∈ es, CleanKey e.1 ∧ Fine (meaning c e.2)
  | [], _ => by simp
  | (k, v) :: es, h => by
    intro e he
    simp only [List.mem_cons] at he
    rcases he with rfl | he
    · exact ⟨h.1, clean_fine c v h.2.1⟩
    · exact cleanE_fine c es h.2.2 e he
theorem cleanS_fine (c : Cfg) : ∀ es : List (Bytes × GV), CleanS c es → ∀ e ∈ es, Fine (meaning c e.2)
  | [], _ => by simp
  | (k, v) :: es, h => by
    intro e he
    simp only [List.mem_cons] at he
    rcases he with rfl | he
    · exact clean_fine c v h.1
    · exact cleanS_fine c es h.2 e he
theorem cleanF_fine (c : Cfg) (any : Bool) : ∀ fs : List (FMeta × GV), CleanF c any fs →
    FineL (seqFields c.escapeHTML any (meanF c fs))
  | [], _ => trivial
  | (m, v) :: fs, h => by
    simp only [CleanF] at h
    simp only [meanF, seqFields]
    by_cases h1 : m.omitempty = true ∧ isEmpty v = true
    · rw [if_pos h1] at h ⊢
      exact cleanF_fine c any fs h
    · rw [if_neg h1] at h ⊢
      by_cases h2 : isRollback v = true
      · rw [if_pos h2] at h
        rw [isRollback_meaning c v h2, h.1]
        simp only [if_true]
        have := cleanF_fine c any fs h.2
        rw [h.1] at this
        exact this
      · rw [if_neg h2] at h
        have hv := clean_fine c v h.1
        have hf := cleanF_fine c true fs h.2
        generalize meaning c v = mv at *
        cases mv with
        | wild => exact hv
        | err e => simp only []; rw [if_neg hv]; exact hv
        | doc x =>
          simp only []
          generalize seqFields c.escapeHTML true (meanF c fs) = r at *
          cases r <;> exact hf
end

end JC

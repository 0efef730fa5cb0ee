import Verif.Lemmas.Layout
/-!
C73: fields are found where they lie.
-/
namespace JC.Props
open JC Spec

/-- Encoding and decoding a field of a struct, direct or promoted, takes every piece of memory for what it is: the
embedded pointers on the way for pointers, and the field for a value of its type. -/
theorem C73_right (fs : List LF) (f : LField) (hf : f ∈ placesL 0 fs) :
    ∀ a ∈ f.codec.accesses fs f.off, Spec.Access.Right a := (placesL_good fs [] fs rfl f hf).1

/-- What is taken for what it is lies within the struct and is aligned. -/
theorem C73_within (a : Access) (h : Spec.Access.Right a) : Spec.Access.Within a ∧ 2 ^ a.kind.al ∣ a.off := by
  obtain ⟨p, hp⟩ := h
  exact ⟨(lies_inside hp).1, (lies_inside hp).2.1⟩

/-- Different fields share no memory. -/
theorem C73_apart (fs : List LF) (p q : List Nat) (o1 o2 : Nat) (k1 k2 : LK) (h1 : Lies fs p o1 k1) (h2 : Lies fs q o2 k2)
    (hpq : p ≠ q) : o1 + k1.size ≤ o2 ∨ o2 + k2.size ≤ o1 := lies_apart h1 h2 hpq

/-- The statement for `omitempty`: what is read to find out whether a field is empty is the field. -/
def C73_statement : Prop := ∀ (fs : List LF) (f : LField), f ∈ placesL 0 fs →
  ∀ a ∈ f.emptyAccess fs, Spec.Access.Right a ∧ a.off + a.kind.emptyReads.2 ≤ structSize a.block

/-- It holds for fields that are not behind an embedded pointer; the full statement is `C73_statement`. -/
theorem C73_empty_partial (fs : List LF) (f : LField) (hf : f ∈ placesL 0 fs) (k : LK) (hk : f.codec = .plain k) :
    ∀ a ∈ f.emptyAccess fs, Spec.Access.Right a ∧ a.off + a.kind.emptyReads.2 ≤ structSize a.block := by
  intro a ha
  obtain ⟨h1, h2⟩ := placesL_good fs [] fs rfl f hf
  unfold LField.emptyAccess at ha
  split at ha
  · simp only [List.mem_singleton] at ha
    subst ha
    rw [hk] at h1
    have hr : Spec.Access.Right ⟨fs, f.off, f.kind⟩ := by
      rw [h2 k hk]
      exact h1 _ (by simp [LCodec.accesses])
    refine ⟨hr, ?_⟩
    have hw := (C73_within _ hr).1
    unfold Spec.Access.Within at hw
    have : f.kind.emptyReads.2 ≤ f.kind.size := by
      cases f.kind <;> simp [LK.emptyReads, LK.size]
    simp only [] at hw ⊢
    omega
  · contradiction

/-- The statement for what is read of a value: that one word is zero exactly when the value is empty. -/
def C73_word_statement : Prop := ∀ h : Header, h.kind.emptyReads.2 = h.kind.emptyReads.1 + 8 ∧
  (h.words[h.kind.emptyReads.1 / 8]? = some 0 ↔ h.Empty)

/-- It holds for strings and slices; the full statement is `C73_word_statement`. -/
theorem C73_word_partial (h : Header) (hk : h.kind ≠ .iface) : h.kind.emptyReads.2 = h.kind.emptyReads.1 + 8 ∧
    (h.words[h.kind.emptyReads.1 / 8]? = some 0 ↔ h.Empty) := by
  cases h with
  | string d l => simp [Header.kind, LK.emptyReads, Header.words, Header.Empty]
  | slice d l c => simp [Header.kind, LK.emptyReads, Header.words, Header.Empty]
  | iface t d => exact absurd rfl hk

/-- **C73** The size that is taken for a string, slice or interface is that of its words. -/
theorem C73_header_size (h : Header) : h.kind.size = 8 * h.words.length ∧ 2 ^ h.kind.al = 8 := by
  cases h <;> exact ⟨rfl, rfl⟩

example : (Header.slice 64 0 8).Empty ∧ (Header.slice 64 0 8).words[LK.slice.emptyReads.1 / 8]? = some 0 ∧ ¬ (Header.string 64 5).Empty := by
  simp [Header.Empty, Header.words, LK.emptyReads]

/-- For an interface it is the word with the data that is read, which is nil for a nil pointer in an interface too. -/
theorem C73_fails_iface : ¬ C73_word_statement := by
  intro h
  have := (h (.iface 64 0)).2.1 (by decide)
  exact absurd this (by simp [Header.Empty])

/-- `struct { A bool; *Inner }` where `Inner` is `struct { S string "omitempty"; N uint64 "omitempty" }`. -/
def behind : List LF := [.leaf false .bool, .ptr [.leaf true .string, .leaf true (.num 3)]]

theorem behind_no_num {fs : List LF} {p : List Nat} {off : Nat} {k : LK} (h : Lies fs p off k) (hf : fs = behind) (hk : k = .num 3) : False := by
  cases h with
  | leaf _ i o _ h =>
    subst hf hk
    match i with
    | 0 => simp [behind] at h
    | 1 => simp [behind] at h
    | i + 2 => simp [behind] at h
  | ptr _ i sub h => exact LK.noConfusion hk
  | val _ i sub p off _ h hl =>
    subst hf
    match i with
    | 0 => simp [behind] at h
    | 1 => simp [behind] at h
    | i + 2 => simp [behind] at h

/-- Behind an embedded pointer it is the pointer that is read: as if it were a number, -/
theorem C73_fails_kind : ¬ C73_statement := by
  intro h
  obtain ⟨⟨p, hp⟩, -⟩ := h behind ⟨8, .embPtr [.leaf true .string, .leaf true (.num 3)] 16 (.plain (.num 3)), true, .num 3⟩
    (by simp [behind, placesL, LF.places, LF.up, LF.al, LF.size, LK.al, LK.size]) ⟨behind, 8, .num 3⟩ (by simp [LField.emptyAccess])
  exact behind_no_num hp rfl rfl

/-- and for a string, whose length is in its second word, even what lies behind the struct. -/
theorem C73_fails_bounds : ∃ fs f a, f ∈ placesL 0 fs ∧ a ∈ f.emptyAccess fs ∧
    structSize a.block ≤ a.off + a.kind.emptyReads.1 ∧ a.kind.emptyReads.1 < a.kind.emptyReads.2 :=
  ⟨behind, ⟨8, .embPtr [.leaf true .string, .leaf true (.num 3)] 0 (.plain .string), true, .string⟩, ⟨behind, 8, .string⟩,
    by simp [behind, placesL, LF.places, LF.up, LF.al, LF.size, LK.al, LK.size], by simp [LField.emptyAccess], by decide +kernel, by decide⟩

/-- Beside them: `struct { A bool; E struct { B uint16; C uint64 }; D bool }` with `E` embedded has its fields at 0, 8,
16 and 24, and 32 bytes. -/
def aligned : List LF := [.leaf false .bool, .val [.leaf false (.num 1), .leaf false (.num 3)], .leaf true .bool]

example : (placesL 0 aligned).map (·.off) = [0, 8, 16, 24] ∧ structSize aligned = 32 := by decide +kernel
example : Lies aligned [1, 1] 16 (.num 3) := .val aligned 1 _ [1] 8 _ rfl (.leaf _ 1 false _ rfl)

end JC.Props

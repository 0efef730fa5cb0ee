import Verif.Spec.Layout
/-!
Fields lie within their struct and apart from each other.
-/
namespace JC
open Spec

theorem up_le (e off : Nat) : off ≤ LF.up e off := by
  unfold LF.up
  have h : 0 < 2 ^ e := Nat.two_pow_pos e
  generalize 2 ^ e = a at *
  have h1 := Nat.div_add_mod (off + a - 1) a
  have h2 := Nat.mod_lt (off + a - 1) h
  rw [Nat.mul_comm a] at h1
  omega

theorem up_dvd (e off : Nat) : 2 ^ e ∣ LF.up e off := by unfold LF.up; exact Nat.dvd_mul_left _ _

theorem structEnd_append : ∀ (off : Nat) (fs gs : List LF), structEnd off (fs ++ gs) = structEnd (structEnd off fs) gs
  | _, [], _ => rfl
  | off, f :: fs, gs => by simp only [List.cons_append, structEnd]; exact structEnd_append _ fs gs

theorem structEnd_le : ∀ (off : Nat) (fs : List LF), off ≤ structEnd off fs
  | _, [] => Nat.le_refl _
  | off, f :: fs => by
    simp only [structEnd]
    have := structEnd_le (LF.up f.al off + f.size) fs
    have := up_le f.al off
    omega

theorem al_le {fs : List LF} {i : Nat} {f : LF} (h : fs[i]? = some f) : f.al ≤ alL fs := by
  induction fs generalizing i with
  | nil => simp at h
  | cons g gs ih =>
    simp only [alL]
    cases i with
    | zero => simp at h; subst h; omega
    | succ i => have := ih (i := i) (by simpa using h); omega

/-- A field ends before the fields behind it begin. -/
theorem offset_end {fs : List LF} {i : Nat} {f : LF} (h : fs[i]? = some f) :
    offsetOf fs i + f.size = structEnd 0 (fs.take (i + 1)) := by
  obtain ⟨hi, hf⟩ := List.getElem?_eq_some_iff.1 h
  unfold offsetOf
  rw [h]
  simp only []
  rw [List.take_add_one, h, Option.toList_some, structEnd_append]
  rfl

theorem take_end (fs : List LF) (i j : Nat) (hij : i ≤ j) : structEnd 0 (fs.take i) ≤ structEnd 0 (fs.take j) := by
  have : fs.take j = fs.take i ++ (fs.take j).drop i := by
    conv => lhs; rw [← List.take_append_drop i (fs.take j)]
    rw [List.take_take, Nat.min_eq_left hij]
  rw [this, structEnd_append]
  exact structEnd_le _ _

theorem offset_inside {fs : List LF} {i : Nat} {f : LF} (h : fs[i]? = some f) : offsetOf fs i + f.size ≤ structSize fs := by
  rw [offset_end h]
  obtain ⟨hi, -⟩ := List.getElem?_eq_some_iff.1 h
  have := take_end fs (i + 1) fs.length (by omega)
  rw [List.take_length] at this
  unfold structSize
  have := up_le (alL fs) (structEnd 0 fs)
  omega

theorem offset_dvd {fs : List LF} {i : Nat} {f : LF} (h : fs[i]? = some f) : 2 ^ f.al ∣ offsetOf fs i := by
  unfold offsetOf
  rw [h]
  exact up_dvd _ _

theorem offset_apart {fs : List LF} {i j : Nat} {f g : LF} (h : fs[i]? = some f) (hg : fs[j]? = some g) (hij : i < j) :
    offsetOf fs i + f.size ≤ offsetOf fs j := by
  rw [offset_end h]
  have h1 := take_end fs (i + 1) j hij
  have h2 : structEnd 0 (fs.take j) ≤ offsetOf fs j := by
    unfold offsetOf
    rw [hg]
    exact up_le _ _
  omega

theorem lies_inside {fs : List LF} {p : List Nat} {off : Nat} {k : LK} (h : Lies fs p off k) :
    off + k.size ≤ structSize fs ∧ 2 ^ k.al ∣ off ∧ k.al ≤ alL fs := by
  induction h with
  | leaf fs i o k h => exact ⟨offset_inside h, offset_dvd h, al_le h⟩
  | ptr fs i sub h => exact ⟨offset_inside h, offset_dvd h, al_le h⟩
  | val fs i sub p off k h hl ih =>
    have h1 := offset_inside h
    have h2 := offset_dvd h
    have h3 := al_le h
    simp only [LF.size, LF.al] at h1 h2 h3
    obtain ⟨i1, i2, i3⟩ := ih
    unfold structSize at i1
    refine ⟨by omega, Nat.dvd_add (Nat.dvd_trans (Nat.pow_dvd_pow 2 i3) h2) i2, by omega⟩

theorem lies_head {fs : List LF} {i : Nat} {p : List Nat} {off : Nat} {k : LK} (h : Lies fs (i :: p) off k) :
    ∃ f, fs[i]? = some f ∧ offsetOf fs i ≤ off ∧ off + k.size ≤ offsetOf fs i + f.size := by
  cases h with
  | leaf _ _ o k h => exact ⟨_, h, Nat.le_refl _, Nat.le_refl _⟩
  | ptr _ _ sub h => exact ⟨_, h, Nat.le_refl _, Nat.le_refl _⟩
  | val _ _ sub p off k h hl =>
    have := (lies_inside hl).1
    unfold structSize at this
    refine ⟨_, h, by omega, ?_⟩
    simp only [LF.size]
    omega

theorem lies_apart {fs : List LF} {p q : List Nat} {o1 o2 : Nat} {k1 k2 : LK} (h1 : Lies fs p o1 k1) (h2 : Lies fs q o2 k2)
    (hpq : p ≠ q) : o1 + k1.size ≤ o2 ∨ o2 + k2.size ≤ o1 := by
  induction h1 generalizing q o2 k2 with
  | leaf fs i o k h =>
    cases q with
    | nil => cases h2
    | cons j q =>
      obtain ⟨g, hg, g1, g2⟩ := lies_head h2
      rcases Nat.lt_trichotomy i j with hij | rfl | hij
      · have := offset_apart h hg hij
        simp only [LF.size] at this
        exact .inl (by omega)
      · rw [h] at hg
        injection hg with hg
        subst hg
        cases h2 with
        | leaf => exact absurd rfl hpq
        | ptr _ _ _ h' => rw [h] at h'; simp at h'
        | val _ _ _ _ _ _ h' => rw [h] at h'; simp at h'
      · have := offset_apart hg h hij
        exact .inr (by omega)
  | ptr fs i sub h =>
    cases q with
    | nil => cases h2
    | cons j q =>
      obtain ⟨g, hg, g1, g2⟩ := lies_head h2
      rcases Nat.lt_trichotomy i j with hij | rfl | hij
      · have := offset_apart h hg hij
        simp only [LF.size] at this
        simp only [LK.size]
        exact .inl (by omega)
      · rw [h] at hg
        injection hg with hg
        subst hg
        cases h2 with
        | leaf _ _ _ _ h' => rw [h] at h'; simp at h'
        | ptr => exact absurd rfl hpq
        | val _ _ _ _ _ _ h' => rw [h] at h'; simp at h'
      · have := offset_apart hg h hij
        exact .inr (by omega)
  | val fs i sub p off k h hl ih =>
    have hin := (lies_inside hl).1
    unfold structSize at hin
    cases q with
    | nil => cases h2
    | cons j q =>
      obtain ⟨g, hg, g1, g2⟩ := lies_head h2
      rcases Nat.lt_trichotomy i j with hij | rfl | hij
      · have := offset_apart h hg hij
        simp only [LF.size] at this
        exact .inl (by omega)
      · rw [h] at hg
        injection hg with hg
        subst hg
        cases h2 with
        | leaf _ _ _ _ h' => rw [h] at h'; simp at h'
        | ptr _ _ _ h' => rw [h] at h'; simp at h'
        | val _ _ sub' q o2 _ h' hl' =>
          rw [h] at h'
          injection h' with h'
          injection h' with h'
          subst h'
          have := ih hl' (by rintro rfl; exact hpq rfl)
          omega
      · have := offset_apart hg h hij
        exact .inr (by omega)

/-! ### The fields that are collected -/

/-- What is known of a collected field of a struct with the fields `fs`. -/
def GoodField (fs : List LF) (f : LField) : Prop :=
  (∀ a ∈ f.codec.accesses fs f.off, Spec.Access.Right a) ∧ (∀ k, f.codec = .plain k → f.kind = k)

theorem right_val {fs : List LF} {i : Nat} {sub : List LF} (h : fs[i]? = some (.val sub)) {s : LField} (hs : GoodField sub s) :
    GoodField fs { s with off := s.off + offsetOf fs i } := by
  obtain ⟨h1, h2⟩ := hs
  refine ⟨?_, h2⟩
  intro a ha
  cases hc : s.codec with
  | plain k =>
    rw [hc] at ha h1
    simp only [LCodec.accesses, List.mem_singleton] at ha h1
    subst ha
    obtain ⟨p, hp⟩ := h1 _ rfl
    exact ⟨i :: p, by simpa [Nat.add_comm] using Lies.val fs i sub p _ _ h hp⟩
  | embPtr sub' o c =>
    rw [hc] at ha h1
    simp only [LCodec.accesses, List.mem_cons] at ha h1
    rcases ha with rfl | ha
    · obtain ⟨p, hp⟩ := h1 _ (.inl rfl)
      exact ⟨i :: p, by simpa [Nat.add_comm] using Lies.val fs i sub p _ _ h hp⟩
    · exact h1 a (.inr ha)

theorem right_ptr {fs : List LF} {i : Nat} {sub : List LF} (h : fs[i]? = some (.ptr sub)) {s : LField} (hs : GoodField sub s) :
    GoodField fs { s with codec := .embPtr sub s.off s.codec, off := offsetOf fs i } := by
  refine ⟨?_, by simp⟩
  intro a ha
  simp only [LCodec.accesses, List.mem_cons] at ha
  rcases ha with rfl | ha
  · exact ⟨[i], .ptr fs i sub h⟩
  · exact hs.1 a ha

mutual
theorem places_good : ∀ (f : LF) (fs : List LF) (i : Nat), fs[i]? = some f → ∀ s ∈ f.places (offsetOf fs i), GoodField fs s
  | .leaf o k, fs, i, h, s, hs => by
    simp only [LF.places, List.mem_singleton] at hs
    subst hs
    refine ⟨?_, by simp⟩
    intro a ha
    simp only [LCodec.accesses, List.mem_singleton] at ha
    subst ha
    exact ⟨[i], .leaf fs i o k h⟩
  | .val sub, fs, i, h, s, hs => by
    simp only [LF.places, List.mem_map] at hs
    obtain ⟨s', hs', rfl⟩ := hs
    exact right_val h (placesL_good sub [] sub rfl s' hs')
  | .ptr sub, fs, i, h, s, hs => by
    simp only [LF.places, List.mem_map] at hs
    obtain ⟨s', hs', rfl⟩ := hs
    exact right_ptr h (placesL_good sub [] sub rfl s' hs')
theorem placesL_good : ∀ (gs pre fs : List LF), fs = pre ++ gs → ∀ s ∈ placesL (structEnd 0 pre) gs, GoodField fs s
  | [], _, _, _, s, hs => by simp [placesL] at hs
  | g :: gs, pre, fs, e, s, hs => by
    simp only [placesL, List.mem_append] at hs
    have hg : fs[pre.length]? = some g := by rw [e]; simp
    have ho : offsetOf fs pre.length = LF.up g.al (structEnd 0 pre) := by
      unfold offsetOf
      rw [hg, e]
      simp
    rcases hs with hs | hs
    · rw [← ho] at hs
      exact places_good g fs pre.length hg s hs
    · apply placesL_good gs (pre ++ [g]) fs (by simp [e]) s
      rw [structEnd_append]
      exact hs
end

end JC

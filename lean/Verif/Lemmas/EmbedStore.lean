import Verif.Lemmas.Embed
/-!
Lemmas on reading and setting promoted fields, and on the codecs that do it.
-/
namespace JC
open Spec

section
variable {fs : List EF} {vs ws : List EV} {p q : List Nat} {x y v w : DV} {t : Ty}

/-! ### reading and setting -/

theorem get_set_self {vs : List EV} {i : Nat} {v w : EV} (h : vs[i]? = some v) : (vs.set i w)[i]? = some w := by
  have := (List.getElem?_eq_some_iff.1 h).1
  simp [this]

theorem typeAt_unique {t' : Ty} (h : TypeAt fs p t) : TypeAt fs p t' → t = t' := by
  induction h with
  | leaf fs i nm g t h =>
    intro h'
    cases h' with
    | leaf _ _ _ _ _ h' => rw [h] at h'; injection h' with h'; injection h'
    | val _ _ _ _ _ h' hs => cases hs
    | ptr _ _ _ _ _ _ h' hs => cases hs
  | val fs i sub p t h _ ih =>
    intro h'
    cases h' with
    | leaf _ _ _ _ _ h' => rw [h] at h'; injection h' with h'; cases h'
    | val _ _ _ _ _ h' hs => rw [h] at h'; injection h' with h'; injection h' with h'; subst h'; exact ih hs
    | ptr _ _ _ _ _ _ h' hs => rw [h] at h'; injection h' with h'; cases h'
  | ptr fs i u sub p t h _ ih =>
    intro h'
    cases h' with
    | leaf _ _ _ _ _ h' => rw [h] at h'; injection h' with h'; cases h'
    | val _ _ _ _ _ h' hs => rw [h] at h'; injection h' with h'; cases h'
    | ptr _ _ _ _ _ _ h' hs => rw [h] at h'; injection h' with h'; injection h' with _ h'; subst h'; exact ih hs

/-- a zero value reads as zero values -/
theorem zero_reads (h : TypeAt fs p t) : Reads fs (zeroVs fs) p (zero t) := by
  have key : ∀ (fs : List EF) (i : Nat) (f : EF), fs[i]? = some f → (zeroVs fs)[i]? = some (zeroEV f) := by
    intro fs
    induction fs with
    | nil => intro i f h; simp at h
    | cons g fs ih =>
      intro i f h
      cases i with
      | zero => simp only [List.getElem?_cons_zero, Option.some.injEq] at h; subst h; simp [zeroVs]
      | succ i => simpa [zeroVs] using ih i f (by simpa using h)
  induction h with
  | leaf fs i nm g t h => exact .leaf fs _ i nm g t _ h (by rw [key fs i _ h]; simp only [zeroEV])
  | val fs i sub p t h _ ih => exact .val fs _ i sub (zeroVs sub) p _ h (by rw [key fs i _ h]; simp only [zeroEV]) ih
  | ptr fs i u sub p t h ht ih => exact .nil fs _ i u sub p t h (by rw [key fs i _ h]; simp only [zeroEV]) ht

theorem reads_unique (h : Reads fs vs p v) : Reads fs vs p w → v = w := by
  induction h with
  | leaf fs vs i nm g t v h hv =>
    intro h'
    cases h' with
    | leaf _ _ _ _ _ _ _ _ hv' => rw [hv] at hv'; injection hv' with hv'; injection hv'
    | val _ _ _ _ _ _ _ _ _ hs => cases hs
    | ptr _ _ _ _ _ _ _ _ _ _ hs => cases hs
    | nil _ _ _ _ _ _ _ _ _ hs => cases hs
  | val fs vs i sub ws p v h hv _ ih =>
    intro h'
    cases h' with
    | leaf _ _ _ _ _ _ _ h' => rw [h] at h'; injection h' with h'; cases h'
    | val _ _ _ _ _ _ _ h' hv' hs =>
      rw [h] at h'; injection h' with h'; injection h' with h'; subst h'
      rw [hv] at hv'; injection hv' with hv'; injection hv' with hv'; subst hv'
      exact ih hs
    | ptr _ _ _ _ _ _ _ _ h' => rw [h] at h'; injection h' with h'; cases h'
    | nil _ _ _ _ _ _ _ h' => rw [h] at h'; injection h' with h'; cases h'
  | ptr fs vs i u sub ws p v h hv _ ih =>
    intro h'
    cases h' with
    | leaf _ _ _ _ _ _ _ h' => rw [h] at h'; injection h' with h'; cases h'
    | val _ _ _ _ _ _ _ h' => rw [h] at h'; injection h' with h'; cases h'
    | ptr _ _ _ _ _ _ _ _ h' hv' hs =>
      rw [h] at h'; injection h' with h'; injection h' with _ h'; subst h'
      rw [hv] at hv'; injection hv' with hv'; injection hv' with hv'; subst hv'
      exact ih hs
    | nil _ _ _ _ _ _ _ h' hv' => rw [hv] at hv'; injection hv' with hv'; cases hv'
  | nil fs vs i u sub p t h hv ht =>
    intro h'
    cases h' with
    | leaf _ _ _ _ _ _ _ h' => rw [h] at h'; injection h' with h'; cases h'
    | val _ _ _ _ _ _ _ h' => rw [h] at h'; injection h' with h'; cases h'
    | ptr _ _ _ _ _ _ _ _ h' hv' => rw [hv] at hv'; injection hv' with hv'; cases hv'
    | nil _ _ _ _ _ _ _ h' hv' hs =>
      rw [h] at h'; injection h' with h'; injection h' with _ h'; subst h'
      rw [typeAt_unique ht hs]

/-- what has been set is read -/
theorem reads_self (h : Stores fs p x vs ws) (hs : ShapeL fs vs) : Reads fs ws p x := by
  induction h with
  | leaf fs vs i nm g t x h =>
    obtain ⟨v, hv, _⟩ := shapeL_get hs h
    exact .leaf fs _ i nm g t x h (get_set_self hv)
  | val fs vs i sub us us' p x h hv _ ih =>
    obtain ⟨v, hv', hsv⟩ := shapeL_get hs h
    rw [hv] at hv'; injection hv' with hv'; subst hv'
    exact .val fs _ i sub us' p x h (get_set_self hv) (ih (by simpa only [Shape] using hsv))
  | ptr fs vs i u sub us us' p x h hv _ ih =>
    obtain ⟨v, hv', hsv⟩ := shapeL_get hs h
    rw [hv] at hv'; injection hv' with hv'; subst hv'
    exact .ptr fs _ i u sub us' p x h (get_set_self hv) (ih (by simpa only [Shape] using hsv))
  | nil fs vs i sub us' p x h hv _ ih =>
    exact .ptr fs _ i false sub us' p x h (get_set_self hv) (ih (zero_shapeL sub))

/-- the other fields read as before -/
theorem reads_other (h : Stores fs p x vs ws) : ∀ {q : List Nat} {y : DV}, q ≠ p → Reads fs vs q y → Reads fs ws q y := by
  induction h with
  | leaf fs vs i nm g t x h =>
    intro q y hq hr
    cases hr with
    | leaf _ _ k nm' g' t' _ h' hv' => exact .leaf fs _ k nm' g' t' y h' (by rw [List.getElem?_set_ne (by rintro rfl; exact hq rfl)]; exact hv')
    | val _ _ k sub' us q _ h' hv' hs =>
      refine .val fs _ k sub' us q y h' ?_ hs
      rw [List.getElem?_set_ne (by rintro rfl; rw [h] at h'; injection h' with h'; cases h')]; exact hv'
    | ptr _ _ k u' sub' us q _ h' hv' hs =>
      refine .ptr fs _ k u' sub' us q y h' ?_ hs
      rw [List.getElem?_set_ne (by rintro rfl; rw [h] at h'; injection h' with h'; cases h')]; exact hv'
    | nil _ _ k u' sub' q t' h' hv' hs =>
      refine .nil fs _ k u' sub' q t' h' ?_ hs
      rw [List.getElem?_set_ne (by rintro rfl; rw [h] at h'; injection h' with h'; cases h')]; exact hv'
  | val fs vs i sub us us' p x h hv _ ih =>
    intro q y hq hr
    cases hr with
    | leaf _ _ k nm' g' t' _ h' hv' =>
      refine .leaf fs _ k nm' g' t' y h' ?_
      rw [List.getElem?_set_ne (by rintro rfl; rw [h] at h'; injection h' with h'; cases h')]; exact hv'
    | val _ _ k sub' us0 q _ h' hv' hs =>
      by_cases hk : i = k
      · subst hk
        rw [h] at h'; injection h' with h'; injection h' with h'; subst h'
        rw [hv] at hv'; injection hv' with hv'; injection hv' with hv'; subst hv'
        exact .val fs _ i sub us' q y h (get_set_self hv) (ih (by rintro rfl; exact hq rfl) hs)
      · exact .val fs _ k sub' us0 q y h' (by rw [List.getElem?_set_ne hk]; exact hv') hs
    | ptr _ _ k u' sub' us0 q _ h' hv' hs =>
      refine .ptr fs _ k u' sub' us0 q y h' ?_ hs
      rw [List.getElem?_set_ne (by rintro rfl; rw [h] at h'; injection h' with h'; cases h')]; exact hv'
    | nil _ _ k u' sub' q t' h' hv' hs =>
      refine .nil fs _ k u' sub' q t' h' ?_ hs
      rw [List.getElem?_set_ne (by rintro rfl; rw [h] at h'; injection h' with h'; cases h')]; exact hv'
  | ptr fs vs i u sub us us' p x h hv _ ih =>
    intro q y hq hr
    cases hr with
    | leaf _ _ k nm' g' t' _ h' hv' =>
      refine .leaf fs _ k nm' g' t' y h' ?_
      rw [List.getElem?_set_ne (by rintro rfl; rw [h] at h'; injection h' with h'; cases h')]; exact hv'
    | val _ _ k sub' us0 q _ h' hv' hs =>
      refine .val fs _ k sub' us0 q y h' ?_ hs
      rw [List.getElem?_set_ne (by rintro rfl; rw [h] at h'; injection h' with h'; cases h')]; exact hv'
    | ptr _ _ k u' sub' us0 q _ h' hv' hs =>
      by_cases hk : i = k
      · subst hk
        rw [h] at h'; injection h' with h'; injection h' with _ h'; subst h'
        rw [hv] at hv'; injection hv' with hv'; injection hv' with hv'; subst hv'
        exact .ptr fs _ i u sub us' q y h (get_set_self hv) (ih (by rintro rfl; exact hq rfl) hs)
      · exact .ptr fs _ k u' sub' us0 q y h' (by rw [List.getElem?_set_ne hk]; exact hv') hs
    | nil _ _ k u' sub' q t' h' hv' hs =>
      refine .nil fs _ k u' sub' q t' h' ?_ hs
      rw [List.getElem?_set_ne (by rintro rfl; rw [hv] at hv'; injection hv' with hv'; cases hv')]; exact hv'
  | nil fs vs i sub us' p x h hv _ ih =>
    intro q y hq hr
    cases hr with
    | leaf _ _ k nm' g' t' _ h' hv' =>
      refine .leaf fs _ k nm' g' t' y h' ?_
      rw [List.getElem?_set_ne (by rintro rfl; rw [h] at h'; injection h' with h'; cases h')]; exact hv'
    | val _ _ k sub' us0 q _ h' hv' hs =>
      refine .val fs _ k sub' us0 q y h' ?_ hs
      rw [List.getElem?_set_ne (by rintro rfl; rw [h] at h'; injection h' with h'; cases h')]; exact hv'
    | ptr _ _ k u' sub' us0 q _ h' hv' hs =>
      refine .ptr fs _ k u' sub' us0 q y h' ?_ hs
      rw [List.getElem?_set_ne (by rintro rfl; rw [hv] at hv'; injection hv' with hv'; cases hv')]; exact hv'
    | nil _ _ k u' sub' q t' h' hv' hs =>
      by_cases hk : i = k
      · subst hk
        rw [h] at h'; injection h' with h'; injection h' with _ h'; subst h'
        exact .ptr fs _ i false sub us' q _ h (get_set_self hv) (ih (by rintro rfl; exact hq rfl) (zero_reads hs))
      · exact .nil fs _ k u' sub' q t' h' (by rw [List.getElem?_set_ne hk]; exact hv') hs

/-- a field that can be set does not become barred when another one is set -/
theorem barred_other (h : Stores fs p x vs ws) : ∀ {q : List Nat}, Barred fs ws q → Barred fs vs q := by
  induction h with
  | leaf fs vs i nm g t x h =>
    intro q hb
    cases hb with
    | here _ _ k sub q h' hv' =>
      rw [List.getElem?_set_ne (by rintro rfl; rw [h] at h'; injection h' with h'; cases h')] at hv'
      exact .here fs vs k sub q h' hv'
    | val _ _ k sub us q h' hv' hs =>
      rw [List.getElem?_set_ne (by rintro rfl; rw [h] at h'; injection h' with h'; cases h')] at hv'
      exact .val fs vs k sub us q h' hv' hs
    | ptr _ _ k u sub us q h' hv' hs =>
      rw [List.getElem?_set_ne (by rintro rfl; rw [h] at h'; injection h' with h'; cases h')] at hv'
      exact .ptr fs vs k u sub us q h' hv' hs
    | nil _ _ k sub q h' hv' hs =>
      rw [List.getElem?_set_ne (by rintro rfl; rw [h] at h'; injection h' with h'; cases h')] at hv'
      exact .nil fs vs k sub q h' hv' hs
  | val fs vs i sub us us' p x h hv _ ih =>
    intro q hb
    cases hb with
    | here _ _ k sub q h' hv' =>
      rw [List.getElem?_set_ne (by rintro rfl; rw [h] at h'; injection h' with h'; cases h')] at hv'
      exact .here fs vs k sub q h' hv'
    | val _ _ k sub' us0 q h' hv' hs =>
      by_cases hk : i = k
      · subst hk
        rw [h] at h'; injection h' with h'; injection h' with h'; subst h'
        rw [get_set_self hv] at hv'; injection hv' with hv'; injection hv' with hv'; subst hv'
        exact .val fs vs i sub us q h hv (ih hs)
      · rw [List.getElem?_set_ne hk] at hv'
        exact .val fs vs k sub' us0 q h' hv' hs
    | ptr _ _ k u sub us q h' hv' hs =>
      rw [List.getElem?_set_ne (by rintro rfl; rw [h] at h'; injection h' with h'; cases h')] at hv'
      exact .ptr fs vs k u sub us q h' hv' hs
    | nil _ _ k sub q h' hv' hs =>
      rw [List.getElem?_set_ne (by rintro rfl; rw [h] at h'; injection h' with h'; cases h')] at hv'
      exact .nil fs vs k sub q h' hv' hs
  | ptr fs vs i u sub us us' p x h hv _ ih =>
    intro q hb
    cases hb with
    | here _ _ k sub q h' hv' =>
      rw [List.getElem?_set_ne (by rintro rfl; rw [get_set_self hv] at hv'; injection hv' with hv'; cases hv')] at hv'
      exact .here fs vs k sub q h' hv'
    | val _ _ k sub us q h' hv' hs =>
      rw [List.getElem?_set_ne (by rintro rfl; rw [h] at h'; injection h' with h'; cases h')] at hv'
      exact .val fs vs k sub us q h' hv' hs
    | ptr _ _ k u' sub' us0 q h' hv' hs =>
      by_cases hk : i = k
      · subst hk
        rw [h] at h'; injection h' with h'; injection h' with _ h'; subst h'
        rw [get_set_self hv] at hv'; injection hv' with hv'; injection hv' with hv'; subst hv'
        exact .ptr fs vs i u sub us q h hv (ih hs)
      · rw [List.getElem?_set_ne hk] at hv'
        exact .ptr fs vs k u' sub' us0 q h' hv' hs
    | nil _ _ k sub q h' hv' hs =>
      rw [List.getElem?_set_ne (by rintro rfl; rw [get_set_self hv] at hv'; injection hv' with hv'; cases hv')] at hv'
      exact .nil fs vs k sub q h' hv' hs
  | nil fs vs i sub us' p x h hv _ ih =>
    intro q hb
    cases hb with
    | here _ _ k sub q h' hv' =>
      rw [List.getElem?_set_ne (by rintro rfl; rw [get_set_self hv] at hv'; injection hv' with hv'; cases hv')] at hv'
      exact .here fs vs k sub q h' hv'
    | val _ _ k sub us q h' hv' hs =>
      rw [List.getElem?_set_ne (by rintro rfl; rw [h] at h'; injection h' with h'; cases h')] at hv'
      exact .val fs vs k sub us q h' hv' hs
    | ptr _ _ k u' sub' us0 q h' hv' hs =>
      by_cases hk : i = k
      · subst hk
        rw [h] at h'; injection h' with h'; injection h' with _ h'; subst h'
        rw [get_set_self hv] at hv'; injection hv' with hv'; injection hv' with hv'; subst hv'
        exact .nil fs vs i sub q h hv (ih hs)
      · rw [List.getElem?_set_ne hk] at hv'
        exact .ptr fs vs k u' sub' us0 q h' hv' hs
    | nil _ _ k sub q h' hv' hs =>
      rw [List.getElem?_set_ne (by rintro rfl; rw [get_set_self hv] at hv'; injection hv' with hv'; cases hv')] at hv'
      exact .nil fs vs k sub q h' hv' hs

/-- a barred field cannot be set -/
theorem stores_open (h : Stores fs p x vs ws) : ¬ Barred fs vs p := by
  induction h with
  | leaf fs vs i nm g t x h =>
    intro hb
    cases hb with
    | here _ _ _ _ _ h' => rw [h] at h'; injection h' with h'; cases h'
    | val _ _ _ _ _ _ h' => rw [h] at h'; injection h' with h'; cases h'
    | ptr _ _ _ _ _ _ _ h' => rw [h] at h'; injection h' with h'; cases h'
    | nil _ _ _ _ _ h' => rw [h] at h'; injection h' with h'; cases h'
  | val fs vs i sub us us' p x h hv _ ih =>
    intro hb
    cases hb with
    | here _ _ _ _ _ h' => rw [h] at h'; injection h' with h'; cases h'
    | val _ _ _ _ _ _ h' hv' hs =>
      rw [h] at h'; injection h' with h'; injection h' with h'; subst h'
      rw [hv] at hv'; injection hv' with hv'; injection hv' with hv'; subst hv'
      exact ih hs
    | ptr _ _ _ _ _ _ _ h' => rw [h] at h'; injection h' with h'; cases h'
    | nil _ _ _ _ _ h' => rw [h] at h'; injection h' with h'; cases h'
  | ptr fs vs i u sub us us' p x h hv _ ih =>
    intro hb
    cases hb with
    | here _ _ _ _ _ h' hv' => rw [hv] at hv'; injection hv' with hv'; cases hv'
    | val _ _ _ _ _ _ h' => rw [h] at h'; injection h' with h'; cases h'
    | ptr _ _ _ _ _ _ _ h' hv' hs =>
      rw [h] at h'; injection h' with h'; injection h' with _ h'; subst h'
      rw [hv] at hv'; injection hv' with hv'; injection hv' with hv'; subst hv'
      exact ih hs
    | nil _ _ _ _ _ h' hv' => rw [hv] at hv'; injection hv' with hv'; cases hv'
  | nil fs vs i sub us' p x h hv _ ih =>
    intro hb
    cases hb with
    | here _ _ _ _ _ h' => rw [h] at h'; injection h' with h'; cases h'
    | val _ _ _ _ _ _ h' => rw [h] at h'; injection h' with h'; cases h'
    | ptr _ _ _ _ _ _ _ h' hv' => rw [hv] at hv'; injection hv' with hv'; cases hv'
    | nil _ _ _ _ _ h' hv' hs =>
      rw [h] at h'; injection h' with h'; injection h' with _ h'; subst h'
      exact ih hs

end

/-! ### growing -/

mutual
theorem grows_refl : ∀ {f : EF} {v : EV}, Shape f v → Grows f v v
  | .skip _, .leaf _, _ => rfl
  | .leaf _ _ _, .leaf _, _ => trivial
  | .val fs, .val vs, h => by simpa only [Grows] using growsL_refl (fs := fs) (vs := vs) (by simpa only [Shape] using h)
  | .ptr _ _, .nil, _ => trivial
  | .ptr _ fs, .ptr vs, h => by simpa only [Grows] using growsL_refl (fs := fs) (vs := vs) (by simpa only [Shape] using h)
  | .skip _, .val _, h | .skip _, .nil, h | .skip _, .ptr _, h => by simp [Shape] at h
  | .leaf _ _ _, .val _, h | .leaf _ _ _, .nil, h | .leaf _ _ _, .ptr _, h => by simp [Shape] at h
  | .val _, .leaf _, h | .val _, .nil, h | .val _, .ptr _, h => by simp [Shape] at h
  | .ptr _ _, .leaf _, h | .ptr _ _, .val _, h => by simp [Shape] at h
theorem growsL_refl : ∀ {fs : List EF} {vs : List EV}, ShapeL fs vs → GrowsL fs vs vs
  | [], [], _ => trivial
  | f :: fs, v :: vs, h => by
    simp only [ShapeL] at h
    exact ⟨grows_refl h.1, growsL_refl h.2⟩
  | [], _ :: _, h => by simp [ShapeL] at h
  | _ :: _, [], h => by simp [ShapeL] at h
end

mutual
theorem grows_trans : ∀ {f : EF} {u v w : EV}, Grows f u v → Grows f v w → Grows f u w
  | .skip _, u, v, w, h1, h2 => by
    cases u <;> cases v <;> cases w <;> simp_all [Grows]
  | .leaf _ _ _, u, v, w, h1, h2 => by
    cases u <;> cases v <;> cases w <;> simp_all [Grows]
  | .val fs, u, v, w, h1, h2 => by
    cases u <;> cases v <;> cases w <;> simp only [Grows] at *
    exact growsL_trans h1 h2
  | .ptr _ fs, u, v, w, h1, h2 => by
    cases u <;> cases v <;> cases w <;> simp only [Grows] at *
    · exact h2
    · exact ⟨h1.1, growsL_trans h1.2 h2⟩
    · exact growsL_trans h1 h2
theorem growsL_trans : ∀ {fs : List EF} {us vs ws : List EV}, GrowsL fs us vs → GrowsL fs vs ws → GrowsL fs us ws
  | [], us, vs, ws, h1, h2 => by cases us <;> cases vs <;> cases ws <;> simp only [GrowsL] at *
  | f :: fs, us, vs, ws, h1, h2 => by
    cases us <;> cases vs <;> cases ws <;> simp only [GrowsL] at *
    exact ⟨grows_trans h1.1 h2.1, growsL_trans h1.2 h2.2⟩
end

theorem growsL_set : ∀ {fs : List EF} {vs : List EV}, ShapeL fs vs → ∀ {i : Nat} {f : EF} {v w : EV}, fs[i]? = some f → vs[i]? = some v → Grows f v w →
    GrowsL fs vs (vs.set i w)
  | f :: fs, v :: vs, h, 0, g, u, w, e, e2, hw => by
    simp only [ShapeL] at h
    simp only [List.getElem?_cons_zero, Option.some.injEq] at e e2
    subst e e2
    exact ⟨hw, growsL_refl h.2⟩
  | f :: fs, v :: vs, h, i + 1, g, u, w, e, e2, hw => by
    simp only [ShapeL] at h
    simp only [List.getElem?_cons_succ] at e e2
    exact ⟨grows_refl h.1, growsL_set h.2 e e2 hw⟩
  | [], _, _, _, _, _, _, e, _, _ => by simp at e
  | _ :: _, [], h, _, _, _, _, _, _, _ => by simp [ShapeL] at h

theorem stores_shape {fs : List EF} {p : List Nat} {x : DV} {vs ws : List EV} (h : Stores fs p x vs ws) (hs : ShapeL fs vs) :
    ShapeL fs ws ∧ GrowsL fs vs ws := by
  induction h with
  | leaf fs vs i nm g t x h =>
    obtain ⟨v, hv, hsv⟩ := shapeL_get hs h
    refine ⟨shapeL_set hs h trivial, growsL_set hs h hv ?_⟩
    cases v <;> simp [Shape, Grows] at *
  | val fs vs i sub us us' p x h hv _ ih =>
    obtain ⟨v, hv', hsv⟩ := shapeL_get hs h
    rw [hv] at hv'; injection hv' with hv'; subst hv'
    obtain ⟨h1, h2⟩ := ih (by simpa only [Shape] using hsv)
    exact ⟨shapeL_set hs h (by simpa only [Shape] using h1), growsL_set hs h hv (by simpa only [Grows] using h2)⟩
  | ptr fs vs i u sub us us' p x h hv _ ih =>
    obtain ⟨v, hv', hsv⟩ := shapeL_get hs h
    rw [hv] at hv'; injection hv' with hv'; subst hv'
    obtain ⟨h1, h2⟩ := ih (by simpa only [Shape] using hsv)
    exact ⟨shapeL_set hs h (by simpa only [Shape] using h1), growsL_set hs h hv (by simpa only [Grows] using h2)⟩
  | nil fs vs i sub us' p x h hv _ ih =>
    obtain ⟨h1, h2⟩ := ih (zero_shapeL sub)
    exact ⟨shapeL_set hs h (by simpa only [Shape] using h1), growsL_set hs h hv (by simpa only [Grows, true_and] using h2)⟩

/-! ### codecs -/

theorem into_map (d : DRes) (f : DV → List Cell) (g : List Cell → List Cell) : (d.into f).map g = d.into fun x => g (f x) := by
  cases d <;> rfl

/-- decoding into a part of a block -/
theorem decode_frame (c : DCfg) (n : Nat) (cd : ECodec) (b : Bytes) (a m z : List Cell) {o : Nat} (ho : o < m.length) :
    cd.decode c n b (a ++ (m ++ z)) (o + a.length) = (cd.decode c n b m o).map fun m' => a ++ (m' ++ z) := by
  have hg : (a ++ (m ++ z))[o + a.length]? = m[o]? := by
    rw [List.getElem?_append_right (by omega), show o + a.length - a.length = o by omega, List.getElem?_append_left ho]
  have hs : ∀ x : Cell, (a ++ (m ++ z)).set (o + a.length) x = a ++ (m.set o x ++ z) := by
    intro x
    rw [List.set_append_right _ _ (by omega), show o + a.length - a.length = o by omega, List.set_append_left _ _ ho]
  cases cd with
  | plain t =>
    simp only [ECodec.decode, hg]
    cases m[o]? with
    | none => rfl
    | some x =>
      cases x with
      | leaf v => simp only [into_map, hs]
      | nil => rfl
      | ptr v => rfl
  | embPtr block u off field =>
    simp only [ECodec.decode, hg]
    cases m[o]? with
    | none => rfl
    | some x =>
      cases x with
      | leaf v => rfl
      | nil =>
        simp only []
        split
        · rfl
        · cases field.decode c n b block off <;> simp [CRes.map, hs]
      | ptr v =>
        simp only []
        cases field.decode c n b v off <;> simp [CRes.map, hs]

/-- what the codec of a promoted field does -/
theorem decode_loc (c : DCfg) (n : Nat) {fs : List EF} {o : Nat} {cd : ECodec} {p : List Nat} {t : Ty} (h : Place fs o cd p t) :
    ∀ {vs : List EV}, ShapeL fs vs → ∃ v, Reads fs vs p v ∧
      ((∃ st : DV → List EV, (∀ x, Stores fs p x vs (st x)) ∧
          ∀ b, cd.decode c n b (memL vs) o = (decN c n t b v).into fun x => memL (st x)) ∨
        (Barred fs vs p ∧ ∃ ws, ShapeL fs ws ∧ GrowsL fs vs ws ∧ (∀ q y, Reads fs vs q y → Reads fs ws q y) ∧
          ∀ b, cd.decode c n b (memL vs) o = .err (memL ws) [] (.other 3))) := by
  have cell : ∀ {fs : List EF} {vs : List EV}, ShapeL fs vs → ∀ {i : Nat} {v : EV} {x : Cell}, vs[i]? = some v → v.mem = [x] →
      (memL vs)[offOf fs i]? = some x ∧ ∀ w y, EV.mem w = [y] → (memL vs).set (offOf fs i) y = memL (vs.set i w) := by
    intro fs vs hs i v x hv hm
    obtain ⟨a, z, h1, h2, h3⟩ := mem_split hs hv
    rw [h2, hm, ← h1]
    refine ⟨by simp, fun w y hy => ?_⟩
    rw [h3, hy, List.set_append_right _ _ (by omega)]
    simp
  induction h with
  | leaf fs i nm g t h =>
    intro vs hs
    obtain ⟨v, hv, hsv⟩ := shapeL_get hs h
    cases v with
    | leaf v =>
      obtain ⟨h1, h2⟩ := cell hs hv (x := .leaf v) rfl
      refine ⟨v, .leaf fs vs i nm g t v h hv, .inl ⟨fun x => vs.set i (.leaf x), fun x => .leaf fs vs i nm g t x h, fun b => ?_⟩⟩
      simp only [ECodec.decode, h1]
      congr 1
      funext x
      exact h2 (.leaf x) _ rfl
    | val => simp [Shape] at hsv
    | nil => simp [Shape] at hsv
    | ptr => simp [Shape] at hsv
  | val fs i sub o cd p t h hl ih =>
    intro vs hs
    obtain ⟨v, hv, hsv⟩ := shapeL_get hs h
    cases v with
    | val us =>
      have hsv : ShapeL sub us := by simpa only [Shape] using hsv
      obtain ⟨a, z, h1, h2, h3⟩ := mem_split hs hv
      have hlt : o < (memL us).length := by rw [shapeL_len hsv]; exact hl.lt
      have hd : ∀ b, cd.decode c n b (memL vs) (o + offOf fs i) = (cd.decode c n b (memL us) o).map fun m' => a ++ (m' ++ z) := by
        intro b
        rw [h2, ← h1]
        simp only [EV.mem]
        exact decode_frame c n cd b a _ z hlt
      obtain ⟨v, hr, hcase⟩ := ih hsv
      refine ⟨v, .val fs vs i sub us p v h hv hr, ?_⟩
      rcases hcase with ⟨st, hst, hdec⟩ | ⟨hb, ws, hws, hg, hrd, hdec⟩
      · refine .inl ⟨fun x => vs.set i (.val (st x)), fun x => .val fs vs i sub us _ p x h hv (hst x), fun b => ?_⟩
        rw [hd, hdec, into_map]
        congr 1
        funext x
        rw [h3]; simp only [EV.mem]
      · refine .inr ⟨.val fs vs i sub us p h hv hb, vs.set i (.val ws), shapeL_set hs h (by simpa only [Shape] using hws),
          growsL_set hs h hv (by simpa only [Grows] using hg), ?_, fun b => ?_⟩
        · intro q y hq
          cases hq with
          | leaf _ _ k nm' g' t' _ h' hv' =>
            refine .leaf fs _ k nm' g' t' y h' ?_
            rw [List.getElem?_set_ne (by rintro rfl; rw [h] at h'; injection h' with h'; cases h')]; exact hv'
          | val _ _ k sub' us0 q _ h' hv' hs =>
            by_cases hk : i = k
            · subst hk
              rw [h] at h'; injection h' with h'; injection h' with h'; subst h'
              rw [hv] at hv'; injection hv' with hv'; injection hv' with hv'; subst hv'
              exact .val fs _ i sub ws q y h (get_set_self hv) (hrd _ _ hs)
            · exact .val fs _ k sub' us0 q y h' (by rw [List.getElem?_set_ne hk]; exact hv') hs
          | ptr _ _ k u' sub' us0 q _ h' hv' hs =>
            refine .ptr fs _ k u' sub' us0 q y h' ?_ hs
            rw [List.getElem?_set_ne (by rintro rfl; rw [h] at h'; injection h' with h'; cases h')]; exact hv'
          | nil _ _ k u' sub' q t' h' hv' hs =>
            refine .nil fs _ k u' sub' q t' h' ?_ hs
            rw [List.getElem?_set_ne (by rintro rfl; rw [h] at h'; injection h' with h'; cases h')]; exact hv'
        · rw [hd, hdec, h3]; simp only [EV.mem, CRes.map]
    | leaf => simp [Shape] at hsv
    | nil => simp [Shape] at hsv
    | ptr => simp [Shape] at hsv
  | ptr fs i u sub o cd p t h hl ih =>
    intro vs hs
    obtain ⟨v, hv, hsv⟩ := shapeL_get hs h
    -- the values of the other fields when the pointer is set
    have others : ∀ ws, (∀ q y, vs[i]? = some .nil → TypeAt sub q y → Reads sub ws q (zero y)) →
        (∀ us q y, vs[i]? = some (.ptr us) → Reads sub us q y → Reads sub ws q y) →
        ∀ q y, Reads fs vs q y → Reads fs (vs.set i (.ptr ws)) q y := by
      intro ws hn hp q y hq
      cases hq with
      | leaf _ _ k nm' g' t' _ h' hv' =>
        refine .leaf fs _ k nm' g' t' y h' ?_
        rw [List.getElem?_set_ne (by rintro rfl; rw [h] at h'; injection h' with h'; cases h')]; exact hv'
      | val _ _ k sub' us0 q _ h' hv' hs =>
        refine .val fs _ k sub' us0 q y h' ?_ hs
        rw [List.getElem?_set_ne (by rintro rfl; rw [h] at h'; injection h' with h'; cases h')]; exact hv'
      | ptr _ _ k u' sub' us0 q _ h' hv' hs =>
        by_cases hk : i = k
        · subst hk
          rw [h] at h'; injection h' with h'; injection h' with _ h'; subst h'
          exact .ptr fs _ i u sub ws q y h (get_set_self hv) (hp _ _ _ hv' hs)
        · exact .ptr fs _ k u' sub' us0 q y h' (by rw [List.getElem?_set_ne hk]; exact hv') hs
      | nil _ _ k u' sub' q t' h' hv' hs =>
        by_cases hk : i = k
        · subst hk
          rw [h] at h'; injection h' with h'; injection h' with _ h'; subst h'
          exact .ptr fs _ i u sub ws q _ h (get_set_self hv) (hn _ _ hv' hs)
        · exact .nil fs _ k u' sub' q t' h' (by rw [List.getElem?_set_ne hk]; exact hv') hs
    cases v with
    | nil =>
      obtain ⟨h1, h2⟩ := cell hs hv (x := .nil) rfl
      obtain ⟨v, hr, hcase⟩ := ih (zero_shapeL sub)
      refine ⟨zero t, .nil fs vs i u sub p t h hv hl.typeAt, ?_⟩
      have hvz : v = zero t := reads_unique hr (zero_reads hl.typeAt)
      cases u with
      | true =>
        refine .inr ⟨.here fs vs i sub p h hv, vs, hs, growsL_refl hs, fun _ _ h => h, fun b => ?_⟩
        simp only [ECodec.decode, h1, if_true]
      | false =>
        rcases hcase with ⟨st, hst, hdec⟩ | ⟨hb, ws, hws, hg, hrd, hdec⟩
        · refine .inl ⟨fun x => vs.set i (.ptr (st x)), fun x => .nil fs vs i sub _ p x h hv (hst x), fun b => ?_⟩
          simp only [ECodec.decode, h1, Bool.false_eq_true, if_false]
          rw [← zero_memL sub, hdec, into_map, hvz]
          congr 1
          funext x
          exact h2 (.ptr (st x)) _ (by simp only [EV.mem])
        · refine .inr ⟨.nil fs vs i sub p h hv hb, vs.set i (.ptr ws), shapeL_set hs h (by simpa only [Shape] using hws),
            growsL_set hs h hv (by simpa only [Grows, true_and] using hg), ?_, fun b => ?_⟩
          · refine others ws (fun q y _ ht => hrd _ _ (zero_reads ht)) ?_
            intro us q y e _
            rw [hv] at e; injection e with e; cases e
          · simp only [ECodec.decode, h1, Bool.false_eq_true, if_false]
            rw [← zero_memL sub, hdec]
            simp only [CRes.map]
            rw [h2 (.ptr ws) _ (by simp only [EV.mem])]
    | ptr us =>
      have hsv : ShapeL sub us := by simpa only [Shape] using hsv
      obtain ⟨h1, h2⟩ := cell hs hv (x := .ptr (memL us)) (by simp only [EV.mem])
      obtain ⟨v, hr, hcase⟩ := ih hsv
      refine ⟨v, .ptr fs vs i u sub us p v h hv hr, ?_⟩
      rcases hcase with ⟨st, hst, hdec⟩ | ⟨hb, ws, hws, hg, hrd, hdec⟩
      · refine .inl ⟨fun x => vs.set i (.ptr (st x)), fun x => .ptr fs vs i u sub us _ p x h hv (hst x), fun b => ?_⟩
        simp only [ECodec.decode, h1]
        rw [hdec, into_map]
        congr 1
        funext x
        exact h2 (.ptr (st x)) _ (by simp only [EV.mem])
      · refine .inr ⟨.ptr fs vs i u sub us p h hv hb, vs.set i (.ptr ws), shapeL_set hs h (by simpa only [Shape] using hws),
          growsL_set hs h hv (by simpa only [Grows] using hg), ?_, fun b => ?_⟩
        · refine others ws ?_ ?_
          · intro q y e _
            rw [hv] at e; injection e with e; cases e
          · intro us' q y e hq
            rw [hv] at e; injection e with e; injection e with e; subst e
            exact hrd _ _ hq
        · simp only [ECodec.decode, h1]
          rw [hdec]
          simp only [CRes.map]
          rw [h2 (.ptr ws) _ (by simp only [EV.mem])]
    | leaf => simp [Shape] at hsv
    | val => simp [Shape] at hsv

end JC

import Verif.Lemmas.GraphMono
/-!
C68: `Marshal` returns, with a result or with an error.

It does for values that end; it does not for values that contain themselves: there the
encoders call each other until the stack of the goroutine is used up.
-/
namespace JC.Props
open Spec

/-- The full statement does not hold: a value that contains itself has no result, and no
error is returned. `type T struct { Next *T }` with `t.Next = &t`; `s[0] = s` for an
`[]interface{}`; `m["m"] = m` for a `map[string]interface{}`. -/
theorem C68_fails_cycle : ∃ (h : NMem) (t s m : NV),
    t = .ptr 0 ∧ h.vars 0 = .struct [(⟨bs! "Next", false⟩, .ptr 0)] ∧
    s = .slice 0 ∧ h.elems 0 = [.iface (.slice 0)] ∧
    m = .mapSI 0 ∧ h.mapsSI 0 = [(bs! "m", .iface (.mapSI 0))] ∧
    ∀ (v : NV), v = t ∨ v = s ∨ v = m → ∀ (c : Cfg) (n : Nat) b d, encG c h n v b d = .panic := by
  refine ⟨⟨fun _ => .struct [(⟨bs! "Next", false⟩, .ptr 0)], fun _ => [.iface (.slice 0)], fun _ => [], fun _ => [(bs! "m", .iface (.mapSI 0))]⟩,
    .ptr 0, .slice 0, .mapSI 0, rfl, rfl, rfl, rfl, rfl, rfl, fun v hv c n b d => ?_⟩
  generalize hh : (⟨fun _ => .struct [(⟨bs! "Next", false⟩, .ptr 0)], fun _ => [.iface (.slice 0)], fun _ => [], fun _ => [(bs! "m", .iface (.mapSI 0))]⟩ : NMem) = h
  have all : ∀ u v, Inside h u v → u = .ptr 0 ∨ u = .struct [(⟨bs! "Next", false⟩, .ptr 0)] ∨ u = .slice 0 ∨ u = .iface (.slice 0) ∨ u = .mapSI 0 ∨ u = .iface (.mapSI 0) →
      v = .ptr 0 ∨ v = .struct [(⟨bs! "Next", false⟩, .ptr 0)] ∨ v = .slice 0 ∨ v = .iface (.slice 0) ∨ v = .mapSI 0 ∨ v = .iface (.mapSI 0) := by
    intro u v hi
    induction hi with
    | refl => exact id
    | step u v w hp _ ih =>
      intro hu
      apply ih
      subst hh
      rcases hu with rfl | rfl | rfl | rfl | rfl | rfl
      · cases hp; simp
      · cases hp with | struct _ m w hm _ => simp at hm; simp [hm.2]
      · cases hp with | slice _ w hm => simp at hm; simp [hm]
      · cases hp; simp
      · cases hp with | mapSI _ k w hm => simp at hm; simp [hm.2]
      · cases hp; simp
  have hs : Sound c h v := by
    have hv' : v = .ptr 0 ∨ v = .struct [(⟨bs! "Next", false⟩, .ptr 0)] ∨ v = .slice 0 ∨ v = .iface (.slice 0) ∨ v = .mapSI 0 ∨ v = .iface (.mapSI 0) := by
      rcases hv with rfl | rfl | rfl <;> simp
    refine ⟨fun g hg => ?_, fun a ha => ?_⟩
    · have := all _ _ hg hv'; simp at this
    · have := all _ _ ha hv'; simp at this
  refine (encG_fate c h n v hs).2 ?_ b d
  subst hh
  rcases hv with rfl | rfl | rfl
  · refine ⟨fun i => if i % 2 = 0 then .ptr 0 else .struct [(⟨bs! "Next", false⟩, .ptr 0)], rfl, fun i => ?_⟩
    simp only []
    rcases Nat.mod_two_eq_zero_or_one i with h | h
    · rw [if_pos h, if_neg (by omega)]; exact .ptr 0
    · rw [if_neg (by omega), if_pos (by omega)]; exact .struct _ ⟨bs! "Next", false⟩ _ (by simp) (by simp [Omitted])
  · refine ⟨fun i => if i % 2 = 0 then .slice 0 else .iface (.slice 0), rfl, fun i => ?_⟩
    simp only []
    rcases Nat.mod_two_eq_zero_or_one i with h | h
    · rw [if_pos h, if_neg (by omega)]; exact .slice 0 _ (by simp)
    · rw [if_neg (by omega), if_pos (by omega)]; exact .iface _
  · refine ⟨fun i => if i % 2 = 0 then .mapSI 0 else .iface (.mapSI 0), rfl, fun i => ?_⟩
    simp only []
    rcases Nat.mod_two_eq_zero_or_one i with h | h
    · rw [if_pos h, if_neg (by omega)]; exact .mapSI 0 (bs! "m") _ (by simp)
    · rw [if_neg (by omega), if_pos (by omega)]; exact .iface _

/-- Partial: a value that looks like a tree when all references are followed, however
much of it is shared, is encoded like that tree, given enough stack. All theorems about
`enc` apply to it then. Missing are the values that contain themselves. -/
theorem C68_tree_partial (c : Cfg) (h : NMem) (v : NV) (t : GV) (ht : IsTree h v t) : ∃ N, ∀ n, N ≤ n → encG c h n v = enc c t :=
  encG_tree ht

/-- Every value either is a tree or goes on for ever, and not both. -/
theorem C68_either (h : NMem) (v : NV) : ((∃ t, IsTree h v t) ∨ Endless h v) ∧ ¬ ((∃ t, IsTree h v t) ∧ Endless h v) :=
  ⟨tree_or_endless h v, fun ⟨⟨_, ht⟩, he⟩ => tree_not_endless ht he⟩

/-- A value that goes on for ever, and has nothing in it that is an error, is never
encoded, whatever the stack. -/
theorem C68_fails_endless (c : Cfg) (h : NMem) (v : NV) (hs : Sound c h v) (he : Endless h v) (n : Nat) (b : Bytes) (d : Int) :
    encG c h n v b d = .panic :=
  (encG_fate c h n v hs).2 he b d

/-- So values without errors return exactly if they are trees; and then they succeed. -/
theorem C68_exact (c : Cfg) (h : NMem) (v : NV) (hs : Sound c h v) :
    ((∃ n b d, encG c h n v b d ≠ .panic) ↔ ∃ t, IsTree h v t) ∧
    ((∃ t, IsTree h v t) → ∃ N, ∀ n, N ≤ n → Succeeds (encG c h n v)) := by
  refine ⟨⟨fun ⟨n, b, d, hn⟩ => ?_, fun ⟨t, ht⟩ => ?_⟩, fun ⟨t, ht⟩ => ?_⟩
  · rcases tree_or_endless h v with h1 | h1
    · exact h1
    · exact absurd (C68_fails_endless c h v hs h1 n b d) hn
  · obtain ⟨N, hN⟩ := encG_tree (c := c) ht
    exact ⟨N, [], 0, by rw [hN N (Nat.le_refl _)]; exact succeeds_ne (tree_succeeds ht hs) _ _⟩
  · obtain ⟨N, hN⟩ := encG_tree (c := c) ht
    exact ⟨N, fun n hn => by rw [hN n hn]; exact tree_succeeds ht hs⟩

/-- What is returned does not depend on the stack there is. -/
theorem C68_stack (c : Cfg) (h : NMem) (v : NV) (b : Bytes) (d : Int) (n m : Nat) (b' : Bytes) (d' : Int) (e : Option Err)
    (hn : encG c h n v b d = .done b' d' e) (hm : n ≤ m) : encG c h m v b d = .done b' d' e := by
  rcases encG_le c h hm v b d with h1 | h1
  · rw [h1] at hn; cases hn
  · rw [← h1, hn]

/-! ### Cases -/

/-- A list of two nodes that share a string, and a slice that refers to it three times. -/
def graphMem : NMem where
  vars := fun a => if a = 0 then .struct [(⟨bs! "V", false⟩, .ptr 2), (⟨bs! "Next", true⟩, .ptr 1)]
    else if a = 1 then .struct [(⟨bs! "V", false⟩, .ptr 2), (⟨bs! "Next", true⟩, .leaf .ptrNil)]
    else .leaf (.string (bs! "s"))
  elems := fun _ => [.ptr 1, .ptr 2, .ptr 1]
  maps := fun _ => [(.str (bs! "k"), .slice 0)]
  mapsSI := fun _ => [(bs! "n", .iface (.ptr 0)), (bs! "m", .iface (.map 0))]

example : encG {} graphMem 9 (.ptr 0) [] 0 = .done (bs! "{\"V\":\"s\",\"Next\":{\"V\":\"s\"}}") 0 none := by with_unfolding_all rfl
example : encG {} graphMem 9 (.mapSI 0) [] 0 =
    .done (bs! "{\"m\":{\"k\":[{\"V\":\"s\"},\"s\",{\"V\":\"s\"}]},\"n\":{\"V\":\"s\",\"Next\":{\"V\":\"s\"}}}") 0 none := by decide +kernel
/-- With too little stack for the list. -/
example : encG {} graphMem 2 (.ptr 0) [] 0 = .panic := by with_unfolding_all rfl
/-- The list is a tree. -/
example : IsTree graphMem (.ptr 1) (.ptr (.struct [(⟨bs! "V", false⟩, .ptr (.string (bs! "s"))), (⟨bs! "Next", true⟩, .ptrNil)])) := by
  refine .ptr 1 _ (.struct _ _ rfl ?_ ?_)
  · intro i v t hv ht
    match i with
    | 0 => cases hv; cases ht; rfl
    | 1 => cases hv; cases ht; rfl
    | _ + 2 => simp at hv
  · intro i v t hv ht ho
    match i with
    | 0 => cases hv; cases ht; exact .ptr 2 _ (.leaf _)
    | 1 => cases hv; cases ht; exact .leaf _
    | _ + 2 => simp at hv

/-- `Sound` is needed in `C68_fails_endless`: an error met before the end of the stack is
returned. `[]interface{}{make(chan int), itself}`. -/
theorem C68_sharp_sound : ∃ h v, Endless h v ∧ ∀ n, encG {} h (n + 2) v [] 0 = .done [] 0 (some .unsupportedType) :=
  ⟨⟨fun _ => .leaf .nil, fun _ => [.iface (.leaf .unsupported), .iface (.slice 0)], fun _ => [], fun _ => []⟩, .slice 0,
    ⟨fun i => if i % 2 = 0 then .slice 0 else .iface (.slice 0), rfl, fun i => by
      simp only []
      rcases Nat.mod_two_eq_zero_or_one i with h | h
      · rw [if_pos h, if_neg (by omega)]; exact .slice 0 _ (by simp)
      · rw [if_neg (by omega), if_pos (by omega)]; exact .iface _⟩, fun _ => by with_unfolding_all rfl⟩

/-- The same map in two fields, one with `omitempty`. -/
example : encG {} ⟨fun _ => .leaf .nil, fun _ => [], fun _ => [], fun _ => []⟩ 1 (.struct [(⟨bs! "M", true⟩, .mapSI 0), (⟨bs! "N", false⟩, .mapSI 0)]) [] 0 =
    .done (bs! "{\"N\":{}}") 0 none := by with_unfolding_all rfl

end JC.Props

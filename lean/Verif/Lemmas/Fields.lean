import Verif.Model.Fields
import Verif.Spec.StructFields
/-! Facts about the selection of struct fields. -/
namespace JC
open Spec

/-! ### The sorted result in order -/

/-- The fields in order of declaration, those of embedded structs filtered and untagged. -/
def flat (keep : SField → Bool) (i : Nat) : List FEntry → List SField
  | [] => []
  | .skip :: es => flat keep (i + 1) es
  | .direct name isTag :: es => ⟨name, isTag, [i], (i, 0)⟩ :: flat keep (i + 1) es
  | .embed subs :: es => ((embeddedOf i 0 subs).filter keep).map (fun s : SField => { s with tag := false }) ++ flat keep (i + 1) es

theorem idxLt_iff {a b : Nat × Nat} : idxLt a b = true ↔ a.1 < b.1 ∨ a.1 = b.1 ∧ a.2 < b.2 := by simp [idxLt]

theorem embeddedOf_index {i : Nat} : ∀ {j : Nat} {ss : List SField} {s : SField}, s ∈ embeddedOf i j ss → s.index.1 = i ∧ j ≤ s.index.2
  | _, [], _, h => by simp [embeddedOf] at h
  | j, x :: ss, s, h => by
    simp only [embeddedOf, List.mem_cons] at h
    rcases h with rfl | h
    · simp
    · have := embeddedOf_index h
      exact ⟨this.1, by omega⟩

theorem embeddedOf_sorted (i : Nat) : ∀ (j : Nat) (ss : List SField), (embeddedOf i j ss).Pairwise fun a b => idxLt a.index b.index = true
  | _, [] => List.Pairwise.nil
  | j, x :: ss => by
    simp only [embeddedOf, List.pairwise_cons]
    refine ⟨fun b hb => ?_, embeddedOf_sorted i (j + 1) ss⟩
    have := embeddedOf_index hb
    rw [idxLt_iff]
    right
    simp only
    omega

theorem flat_index {keep : SField → Bool} : ∀ {i : Nat} {es : List FEntry} {s : SField}, s ∈ flat keep i es → i ≤ s.index.1
  | _, [], _, h => by simp [flat] at h
  | i, .skip :: es, s, h => by
    simp only [flat] at h
    have := flat_index h
    omega
  | i, .direct n t :: es, s, h => by
    simp only [flat, List.mem_cons] at h
    rcases h with rfl | h
    · simp
    · have := flat_index h; omega
  | i, .embed subs :: es, s, h => by
    simp only [flat, List.mem_append, List.mem_map, List.mem_filter] at h
    rcases h with ⟨a, ⟨ha, _⟩, rfl⟩ | h
    · have := embeddedOf_index ha; simp only; omega
    · have := flat_index h; omega

theorem flat_sorted (keep : SField → Bool) : ∀ (i : Nat) (es : List FEntry), (flat keep i es).Pairwise fun a b => idxLt a.index b.index = true
  | _, [] => List.Pairwise.nil
  | i, .skip :: es => by simp only [flat]; exact flat_sorted keep (i + 1) es
  | i, .direct n t :: es => by
    simp only [flat, List.pairwise_cons]
    refine ⟨fun b hb => ?_, flat_sorted keep (i + 1) es⟩
    have := flat_index hb
    rw [idxLt_iff]; left; simp only; omega
  | i, .embed subs :: es => by
    simp only [flat]
    rw [List.pairwise_append]
    refine ⟨?_, flat_sorted keep (i + 1) es, ?_⟩
    · rw [List.pairwise_map]
      exact (embeddedOf_sorted i 0 subs).sublist List.filter_sublist
    · intro a ha b hb
      simp only [List.mem_map, List.mem_filter] at ha
      obtain ⟨a, ⟨ha, _⟩, rfl⟩ := ha
      have h1 := embeddedOf_index ha
      have h2 := flat_index hb
      rw [idxLt_iff]; left; simp only; omega

theorem flat_perm (keep : SField → Bool) : ∀ (i : Nat) (es : List FEntry),
    (directs i es ++ ((embeddeds i es).filter keep).map (fun s : SField => { s with tag := false })).Perm (flat keep i es)
  | _, [] => by simp [directs, embeddeds, flat]
  | i, .skip :: es => by simp only [directs, embeddeds, flat]; exact flat_perm keep (i + 1) es
  | i, .direct n t :: es => by simp only [directs, embeddeds, flat, List.cons_append]; exact (flat_perm keep (i + 1) es).cons _
  | i, .embed subs :: es => by
    simp only [directs, embeddeds, flat, List.filter_append, List.map_append]
    refine List.Perm.trans ?_ ((flat_perm keep (i + 1) es).append_left _)
    rw [← List.append_assoc, ← List.append_assoc]
    exact List.perm_append_comm.append_right _

theorem insertField_perm (s : SField) : ∀ l, (insertField s l).Perm (s :: l)
  | [] => List.Perm.refl _
  | t :: l => by
    unfold insertField
    split
    · exact List.Perm.refl _
    · exact ((insertField_perm s l).cons t).trans (List.Perm.swap s t l)

theorem sortFields_perm : ∀ l, (sortFields l).Perm l
  | [] => List.Perm.refl _
  | s :: l => (insertField_perm s _).trans ((sortFields_perm l).cons s)

theorem insertField_sorted (s : SField) : ∀ {l : List SField}, (l.Pairwise fun a b => idxLt b.index a.index = false) →
    (insertField s l).Pairwise fun a b => idxLt b.index a.index = false
  | [], _ => by simp [insertField]
  | t :: l, h => by
    simp only [List.pairwise_cons] at h
    unfold insertField
    split
    · rename_i hlt
      rw [idxLt_iff] at hlt
      simp only [List.pairwise_cons, List.mem_cons]
      refine ⟨?_, h⟩
      rintro b (rfl | hb)
      · rw [← Bool.not_eq_true, idxLt_iff]; omega
      · have h2 := h.1 b hb
        rw [← Bool.not_eq_true, idxLt_iff] at h2 ⊢
        omega
    · rename_i hlt
      simp only [List.pairwise_cons]
      refine ⟨?_, insertField_sorted s h.2⟩
      intro b hb
      rcases List.mem_cons.1 ((insertField_perm s l).mem_iff.1 hb) with rfl | hb
      · simpa using hlt
      · exact h.1 b hb

theorem sortFields_sorted : ∀ l : List SField, (sortFields l).Pairwise fun a b => idxLt b.index a.index = false
  | [] => List.Pairwise.nil
  | s :: l => insertField_sorted s (sortFields_sorted l)

/-- Sorting gives the only list in strict order. -/
theorem sort_eq {l m : List SField} (hp : l.Perm m) (hm : m.Pairwise fun a b => idxLt a.index b.index = true) : sortFields l = m := by
  have hp' : (sortFields l).Perm m := (sortFields_perm l).trans hp
  refine List.Perm.eq_of_pairwise (le := fun a b => idxLt b.index a.index = false) ?_ (sortFields_sorted l) ?_ hp'
  · intro a b ha hb h1 h2
    rw [← Bool.not_eq_true, idxLt_iff] at h1 h2
    have ha := hp'.mem_iff.1 ha
    by_cases hab : a = b
    · exact hab
    · have key : ∀ {l : List SField}, (l.Pairwise fun a b => idxLt a.index b.index = true) → a ∈ l → b ∈ l →
          idxLt a.index b.index = true ∨ idxLt b.index a.index = true := by
        intro l hl ha hb
        induction l with
        | nil => cases ha
        | cons x l ih =>
          simp only [List.pairwise_cons] at hl
          rcases List.mem_cons.1 ha with h3 | ha <;> rcases List.mem_cons.1 hb with h4 | hb
          · exact absurd (h3.trans h4.symm) hab
          · exact .inl (h3 ▸ hl.1 b hb)
          · exact .inr (h4 ▸ hl.1 a ha)
          · exact ih hl.2 ha hb
      have := key hm ha hb
      rw [idxLt_iff, idxLt_iff] at this
      omega
  · refine hm.imp fun h => ?_
    rw [idxLt_iff] at h
    rw [← Bool.not_eq_true, idxLt_iff]
    omega

/-- Is this embedded field kept? -/
def keeps (es : List FEntry) (s : SField) : Bool :=
  !(decide (nameCount ((directs 0 es).map (·.name)) (embeddeds 0 es) s.name > 1) &&
    (!s.tag || tagCount ((directs 0 es).map (·.name)) (embeddeds 0 es) s.name != 1))

theorem resolve_flat (es : List FEntry) : resolve es = flat (keeps es) 0 es := sort_eq (flat_perm _ 0 es) (flat_sorted _ 0 es)

/-! ### Order of the paths -/

theorem before_irrefl : ∀ p, ¬ Before p p
  | [], h => h.elim
  | i :: p, h => by
    simp only [Before] at h
    rcases h with h | ⟨_, h⟩
    · omega
    · exact before_irrefl p h

/-- The paths are in order. -/
def InOrder (l : List SField) : Prop := (l.map (·.path)).Pairwise Before

theorem InOrder.nodup {l : List SField} (h : InOrder l) : (l.map (·.path)).Nodup :=
  List.Pairwise.imp (fun {a b} hab => by rintro rfl; exact before_irrefl _ hab) h

theorem embeddedOf_path {i : Nat} : ∀ (j : Nat) (ss : List SField), (embeddedOf i j ss).map (·.path) = ss.map fun s => i :: s.path
  | _, [] => rfl
  | j, s :: ss => by simp [embeddedOf, embeddedOf_path (j + 1) ss]

theorem embeddedOf_inOrder (i : Nat) {ss : List SField} (h : InOrder ss) : InOrder (embeddedOf i 0 ss) := by
  unfold InOrder at *
  rw [embeddedOf_path]
  rw [List.pairwise_map] at *
  exact h.imp fun hab => .inr ⟨rfl, hab⟩

theorem InOrder.sub {l m : List SField} (h : InOrder m) (hs : l.Sublist m) : InOrder l := List.Pairwise.sublist (hs.map _) h

/-- The embedded fields are in order. -/
def SubsOrder (es : List FEntry) : Prop := ∀ subs, FEntry.embed subs ∈ es → InOrder subs

theorem embeddeds_head {i : Nat} : ∀ {es : List FEntry} {s : SField}, s ∈ embeddeds i es → ∃ k p, i ≤ k ∧ s.path = k :: p := by
  intro es
  induction es generalizing i with
  | nil => intro s h; simp [embeddeds] at h
  | cons e es ih =>
    intro s h
    cases e with
    | skip => simp only [embeddeds] at h; obtain ⟨k, p, hk, hp⟩ := ih h; exact ⟨k, p, by omega, hp⟩
    | direct n t => simp only [embeddeds] at h; obtain ⟨k, p, hk, hp⟩ := ih h; exact ⟨k, p, by omega, hp⟩
    | embed subs =>
      simp only [embeddeds, List.mem_append] at h
      rcases h with h | h
      · have h2 : s.path ∈ (embeddedOf i 0 subs).map (·.path) := List.mem_map_of_mem h
        rw [embeddedOf_path] at h2
        obtain ⟨u, _, hu⟩ := List.mem_map.1 h2
        exact ⟨i, _, Nat.le_refl _, hu.symm⟩
      · obtain ⟨k, p, hk, hp⟩ := ih h; exact ⟨k, p, by omega, hp⟩

theorem embeddeds_inOrder (i : Nat) : ∀ {es : List FEntry}, SubsOrder es → InOrder (embeddeds i es) := by
  intro es
  induction es generalizing i with
  | nil => intro _; exact List.Pairwise.nil
  | cons e es ih =>
    intro h
    have h' : SubsOrder es := fun subs hs => h subs (List.mem_cons_of_mem _ hs)
    cases e with
    | skip => exact ih _ h'
    | direct n t => exact ih _ h'
    | embed subs =>
      simp only [embeddeds, InOrder, List.map_append]
      rw [List.pairwise_append]
      refine ⟨embeddedOf_inOrder i (h subs List.mem_cons_self), ih _ h', ?_⟩
      intro a ha b hb
      rw [embeddedOf_path] at ha
      obtain ⟨u, _, rfl⟩ := List.mem_map.1 ha
      obtain ⟨v, hv, rfl⟩ := List.mem_map.1 hb
      obtain ⟨k, p, hk, hp⟩ := embeddeds_head hv
      rw [hp]
      exact .inl (by omega)

theorem directs_head {i : Nat} : ∀ {es : List FEntry} {s : SField}, s ∈ directs i es → ∃ k p, i ≤ k ∧ s.path = k :: p := by
  intro es
  induction es generalizing i with
  | nil => intro s h; simp [directs] at h
  | cons e es ih =>
    intro s h
    cases e with
    | skip => simp only [directs] at h; obtain ⟨k, p, hk, hp⟩ := ih h; exact ⟨k, p, by omega, hp⟩
    | embed t => simp only [directs] at h; obtain ⟨k, p, hk, hp⟩ := ih h; exact ⟨k, p, by omega, hp⟩
    | direct n t =>
      simp only [directs, List.mem_cons] at h
      rcases h with rfl | h
      · exact ⟨i, [], Nat.le_refl _, rfl⟩
      · obtain ⟨k, p, hk, hp⟩ := ih h; exact ⟨k, p, by omega, hp⟩

theorem flat_head {keep : SField → Bool} {i : Nat} {es : List FEntry} {s : SField} (h : s ∈ flat keep i es) : ∃ k p, i ≤ k ∧ s.path = k :: p := by
  have h := (flat_perm keep i es).mem_iff.2 h
  rw [List.mem_append] at h
  rcases h with h | h
  · exact directs_head h
  · obtain ⟨u, hu, rfl⟩ := List.mem_map.1 h
    exact embeddeds_head (s := u) (List.mem_filter.1 hu).1

theorem flat_inOrder (keep : SField → Bool) (i : Nat) : ∀ {es : List FEntry}, SubsOrder es → InOrder (flat keep i es) := by
  intro es
  induction es generalizing i with
  | nil => intro _; exact List.Pairwise.nil
  | cons e es ih =>
    intro h
    have h' : SubsOrder es := fun subs hs => h subs (List.mem_cons_of_mem _ hs)
    cases e with
    | skip => exact ih _ h'
    | direct n t =>
      simp only [flat, InOrder, List.map_cons, List.pairwise_cons]
      refine ⟨fun b hb => ?_, ih _ h'⟩
      obtain ⟨v, hv, rfl⟩ := List.mem_map.1 hb
      obtain ⟨k, p, hk, hp⟩ := flat_head hv
      rw [hp]
      exact .inl (by omega)
    | embed subs =>
      simp only [flat, InOrder, List.map_append, List.map_map]
      rw [List.pairwise_append]
      refine ⟨?_, ih _ h', ?_⟩
      · exact (embeddedOf_inOrder i (h subs List.mem_cons_self)).sub List.filter_sublist
      intro a ha b hb
      obtain ⟨u, hu, rfl⟩ := List.mem_map.1 ha
      obtain ⟨v, hv, rfl⟩ := List.mem_map.1 hb
      obtain ⟨k, p, hk, hp⟩ := flat_head hv
      have h2 : u.path ∈ (embeddedOf i 0 subs).map (·.path) := List.mem_map_of_mem (List.mem_filter.1 hu).1
      rw [embeddedOf_path] at h2
      obtain ⟨w, _, hw⟩ := List.mem_map.1 h2
      rw [hp]
      show Before u.path _
      rw [← hw]
      exact .inl (by omega)

theorem resolve_inOrder {es : List FEntry} (h : SubsOrder es) : InOrder (resolve es) := by
  rw [resolve_flat]; exact flat_inOrder _ _ h

/-! ### Which embedded fields are kept -/

theorem countP_gt_one {α β : Type} (f : α → β) (p : α → Bool) : ∀ {l : List α}, (l.map f).Nodup →
    (1 < l.countP p ↔ ∃ a ∈ l, ∃ b ∈ l, f a ≠ f b ∧ p a = true ∧ p b = true)
  | [], _ => by simp
  | x :: l, h => by
    simp only [List.map_cons, List.nodup_cons] at h
    have ih := countP_gt_one f p h.2
    by_cases hx : p x = true
    · rw [List.countP_cons_of_pos hx]
      constructor
      · intro hc
        have : 0 < l.countP p := by omega
        obtain ⟨b, hb, hpb⟩ := List.countP_pos_iff.1 this
        refine ⟨x, List.mem_cons_self, b, List.mem_cons_of_mem _ hb, ?_, hx, hpb⟩
        intro e
        exact h.1 (e ▸ List.mem_map_of_mem hb)
      · rintro ⟨a, ha, b, hb, hab, hpa, hpb⟩
        have : 0 < l.countP p := by
          rw [List.countP_pos_iff]
          rcases List.mem_cons.1 ha with rfl | ha
          · rcases List.mem_cons.1 hb with rfl | hb
            · exact absurd rfl hab
            · exact ⟨b, hb, hpb⟩
          · exact ⟨a, ha, hpa⟩
        omega
    · rw [List.countP_cons_of_neg hx, ih]
      constructor
      · rintro ⟨a, ha, b, hb, r⟩
        exact ⟨a, List.mem_cons_of_mem _ ha, b, List.mem_cons_of_mem _ hb, r⟩
      · rintro ⟨a, ha, b, hb, hab, hpa, hpb⟩
        rcases List.mem_cons.1 ha with rfl | ha
        · exact absurd hpa hx
        rcases List.mem_cons.1 hb with rfl | hb
        · exact absurd hpb hx
        exact ⟨a, ha, b, hb, hab, hpa, hpb⟩

/-- An embedded field is kept if no direct field has its name, and it is the only tagged one among
several of that name. -/
theorem keeps_iff {es : List FEntry} (h : SubsOrder es) {s : SField} (hs : s ∈ embeddeds 0 es) :
    keeps es s = true ↔ (∀ d ∈ directs 0 es, d.name ≠ s.name) ∧
      ∀ b ∈ embeddeds 0 es, b.name = s.name → b.path ≠ s.path → s.tag = true ∧ b.tag = false := by
  have hn := (embeddeds_inOrder 0 h).nodup
  have c1 := countP_gt_one (·.path) (fun u : SField => decide (u.name = s.name)) hn
  have c2 := countP_gt_one (·.path) (fun u : SField => decide (u.name = s.name ∧ u.tag = true)) hn
  have p1 : 0 < (embeddeds 0 es).countP (fun u : SField => decide (u.name = s.name)) := List.countP_pos_iff.2 ⟨s, hs, by simp⟩
  have p2 : s.tag = true → 0 < (embeddeds 0 es).countP (fun u : SField => decide (u.name = s.name ∧ u.tag = true)) :=
    fun ht => List.countP_pos_iff.2 ⟨s, hs, by simp [ht]⟩
  have e1 : nameCount ((directs 0 es).map (·.name)) (embeddeds 0 es) s.name = (if s.name ∈ (directs 0 es).map (·.name) then 1 else 0) +
    (embeddeds 0 es).countP (fun u : SField => decide (u.name = s.name)) := rfl
  have e2 : tagCount ((directs 0 es).map (·.name)) (embeddeds 0 es) s.name = (if s.name ∈ (directs 0 es).map (·.name) then 1 else 0) +
    (embeddeds 0 es).countP (fun u : SField => decide (u.name = s.name ∧ u.tag = true)) := rfl
  unfold keeps
  generalize nameCount ((directs 0 es).map (·.name)) (embeddeds 0 es) s.name = A at e1 ⊢
  generalize tagCount ((directs 0 es).map (·.name)) (embeddeds 0 es) s.name = B at e2 ⊢
  generalize (embeddeds 0 es).countP (fun u : SField => decide (u.name = s.name)) = N at c1 p1 e1
  generalize (embeddeds 0 es).countP (fun u : SField => decide (u.name = s.name ∧ u.tag = true)) = T at c2 p2 e2
  have hmem : s.name ∈ (directs 0 es).map (·.name) ↔ ¬ ∀ d ∈ directs 0 es, d.name ≠ s.name := by
    simp only [List.mem_map, Classical.not_forall, ne_eq, Decidable.not_not]
    constructor
    · rintro ⟨d, hd, e⟩; exact ⟨d, hd, e⟩
    · rintro ⟨d, hd, e⟩; exact ⟨d, hd, e⟩
  by_cases hd : ∀ d ∈ directs 0 es, d.name ≠ s.name
  · rw [if_neg (fun hh => (hmem.1 hh) hd), Nat.zero_add] at e1 e2
    subst A B
    simp only [Bool.not_eq_true', Bool.and_eq_false_iff, decide_eq_false_iff_not, Bool.or_eq_false_iff,
      Bool.not_eq_false', bne_eq_false_iff_eq, gt_iff_lt]
    refine ⟨fun hk => ⟨hd, ?_⟩, fun hk => ?_⟩
    · intro b hb hbn hbp
      have h1 : 1 < N := c1.2 ⟨b, hb, s, hs, hbp, by simp [hbn], by simp⟩
      rcases hk with hk | ⟨ht, hT⟩
      · exact absurd h1 hk
      · refine ⟨ht, ?_⟩
        cases hbt : b.tag with
        | false => rfl
        | true =>
          have := c2.2 ⟨b, hb, s, hs, hbp, by simp [hbn, hbt], by simp [ht]⟩
          omega
    · by_cases h1 : 1 < N
      · right
        obtain ⟨a, ha, b, hb, hab, hpa, hpb⟩ := c1.1 h1
        simp only [decide_eq_true_eq] at hpa hpb
        have ht : s.tag = true := by
          by_cases e : a.path = s.path
          · exact (hk.2 b hb hpb (fun e2 => hab (e.trans e2.symm))).1
          · exact (hk.2 a ha hpa e).1
        refine ⟨ht, ?_⟩
        have := p2 ht
        have h3 : ¬ 1 < T := by
          intro h2
          obtain ⟨a, ha, b, hb, hab, hpa, hpb⟩ := c2.1 h2
          simp only [decide_eq_true_eq] at hpa hpb
          by_cases e : a.path = s.path
          · have := (hk.2 b hb hpb.1 (fun e2 => hab (e.trans e2.symm))).2
            rw [hpb.2] at this; cases this
          · have := (hk.2 a ha hpa.1 e).2
            rw [hpa.2] at this; cases this
        omega
      · exact .inl h1
  · rw [if_pos (hmem.2 hd)] at e1 e2
    constructor
    · intro hk
      exfalso
      simp only [Bool.not_eq_true', Bool.and_eq_false_iff, decide_eq_false_iff_not, Bool.or_eq_false_iff,
        Bool.not_eq_false', bne_eq_false_iff_eq, gt_iff_lt] at hk
      rcases hk with hk | ⟨ht, hk⟩
      · omega
      · have := p2 ht; omega
    · intro hk
      exact absurd hk.1 hd

end JC

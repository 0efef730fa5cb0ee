import Verif.Lemmas.Fields
/-! The selected fields of a struct that does not embed itself, against Go's rule. -/
namespace JC
open Spec

mutual
/-- A field of the specification as the model sees it. -/
def entI : SItem → FEntry
  | .skip => .skip
  | .direct name tag => .direct name tag
  | .embed fs => .embed (resolve (entL fs))
def entL : List SItem → List FEntry
  | [] => []
  | x :: xs => entI x :: entL xs
end

theorem entL_map : ∀ fs, entL fs = fs.map entI
  | [] => by simp [entL]
  | x :: xs => by simp [entL, entL_map xs]

theorem entL_getElem? (fs : List SItem) (i : Nat) : (entL fs)[i]? = (fs[i]?).map entI := by rw [entL_map, List.getElem?_map]

mutual
theorem entI_order : ∀ (x : SItem) subs, entI x = .embed subs → InOrder subs
  | .skip, _, h => by simp [entI] at h
  | .direct .., _, h => by simp [entI] at h
  | .embed fs, _, h => by
    simp only [entI, FEntry.embed.injEq] at h
    subst h
    exact resolve_inOrder (entL_order fs)
theorem entL_order : ∀ fs, SubsOrder (entL fs)
  | [] => by simp [entL, SubsOrder]
  | x :: xs => by
    intro subs h
    simp only [entL, List.mem_cons] at h
    rcases h with h | h
    · exact entI_order x subs h.symm
    · exact entL_order xs subs h
end

/-! ### Candidates -/

theorem mem_candL {c : Cand} : ∀ {k : Nat} {fs : List SItem}, c ∈ candL k fs ↔
    ∃ (i : Nat) (x : SItem), fs[i]? = some x ∧ ∃ d ∈ candI x, c = d.under (k + i)
  | k, [] => by simp [candL]
  | k, x :: xs => by
    simp only [candL, List.mem_append, List.mem_map]
    rw [mem_candL (k := k + 1) (fs := xs)]
    constructor
    · rintro (⟨d, hd, rfl⟩ | ⟨i, y, hy, d, hd, rfl⟩)
      · exact ⟨0, x, rfl, d, hd, rfl⟩
      · exact ⟨i + 1, y, hy, d, hd, by rw [show k + 1 + i = k + (i + 1) by omega]⟩
    · rintro ⟨i, y, hy, d, hd, rfl⟩
      cases i with
      | zero => simp only [List.getElem?_cons_zero, Option.some.injEq] at hy; subst hy; exact .inl ⟨d, hd, rfl⟩
      | succ i => exact .inr ⟨i, y, hy, d, hd, by rw [show k + 1 + i = k + (i + 1) by omega]⟩

theorem mem_cands {c : Cand} {fs : List SItem} : c ∈ cands fs ↔
    (∃ (i : Nat) (n : Bytes) (t : Bool), fs[i]? = some (.direct n t) ∧ c = ⟨[i], n, t⟩) ∨
    ∃ (i : Nat) (sub : List SItem), fs[i]? = some (.embed sub) ∧ ∃ d ∈ cands sub, c = d.under i := by
  unfold cands
  rw [mem_candL]
  constructor
  · rintro ⟨i, x, hx, d, hd, rfl⟩
    cases x with
    | skip => simp [candI] at hd
    | direct n t =>
      simp only [candI, List.mem_singleton] at hd
      subst hd
      exact .inl ⟨i, n, t, hx, by simp [Cand.under]⟩
    | embed sub => exact .inr ⟨i, sub, hx, d, by simpa [candI] using hd, by simp⟩
  · rintro (⟨i, n, t, hx, rfl⟩ | ⟨i, sub, hx, d, hd, rfl⟩)
    · exact ⟨i, _, hx, ⟨[], n, t⟩, by simp [candI], by simp [Cand.under]⟩
    · exact ⟨i, _, hx, d, by simpa [candI] using hd, by simp⟩

theorem cands_path_ne {c : Cand} {fs : List SItem} (h : c ∈ cands fs) : 0 < c.path.length := by
  rcases mem_cands.1 h with ⟨i, n, t, _, rfl⟩ | ⟨i, sub, _, d, _, rfl⟩ <;> simp [Cand.under]

theorem hides_cons {i j : Nat} {p q : List Nat} (hp : 0 < p.length) : Hides (i :: p) (j :: q) ↔ i = j ∧ Hides p q := by
  cases p with
  | nil => simp at hp
  | cons a p =>
    simp only [Hides, List.dropLast_cons_cons, List.cons_prefix_cons, List.length_cons]
    constructor
    · rintro ⟨h1, h2, h3⟩; exact ⟨h2, by omega, h3⟩
    · rintro ⟨h1, h2, h3⟩; exact ⟨by omega, h1, h3⟩

theorem hides_single {i : Nat} {q : List Nat} : Hides [i] q ↔ 1 < q.length := by simp [Hides]

theorem hides_lt {p q : List Nat} (h : Hides p q) : p.length < q.length := h.1

theorem hides_trans {p q r : List Nat} (h1 : Hides p q) (h2 : Hides q r) : Hides p r := by
  refine ⟨Nat.lt_trans h1.1 h2.1, ?_⟩
  have hl : p.dropLast.length ≤ q.dropLast.length := by simp only [List.length_dropLast]; have := h1.1; omega
  have : p.dropLast <+: q.dropLast := List.prefix_of_prefix_length_le h1.2 (List.dropLast_prefix q) hl
  exact this.trans h2.2

/-- Not hidden. -/
def Surv (fs : List SItem) (c : Cand) : Prop := c ∈ cands fs ∧ ∀ d ∈ cands fs, d.name = c.name → ¬ Hides d.path c.path

/-- A hidden candidate is hidden by one that is not. -/
theorem exists_surv (fs : List SItem) : ∀ (n : Nat) (c : Cand), c.path.length ≤ n → c ∈ cands fs → ¬ Surv fs c →
    ∃ d, Surv fs d ∧ d.name = c.name ∧ Hides d.path c.path
  | 0, c, hn, hc, _ => by have := cands_path_ne hc; omega
  | n + 1, c, hn, hc, h => by
    have : ∃ d ∈ cands fs, d.name = c.name ∧ Hides d.path c.path := by
      apply Classical.byContradiction
      intro hne
      exact h ⟨hc, fun d hd hdn hh => hne ⟨d, hd, hdn, hh⟩⟩
    obtain ⟨d, hd, hdn, hh⟩ := this
    by_cases hs : Surv fs d
    · exact ⟨d, hs, hdn, hh⟩
    · obtain ⟨e, he, hen, heh⟩ := exists_surv fs n d (by have := hides_lt hh; omega) hd hs
      exact ⟨e, he, hen.trans hdn, hides_trans heh hh⟩

theorem surv_direct {fs : List SItem} {i : Nat} {n : Bytes} {t : Bool} (h : fs[i]? = some (.direct n t)) : Surv fs ⟨[i], n, t⟩ := by
  refine ⟨mem_cands.2 (.inl ⟨i, n, t, h, rfl⟩), fun d hd _ hh => ?_⟩
  have h1 := hides_lt hh
  have h2 := cands_path_ne hd
  simp only [List.length_singleton] at h1
  omega

/-- A field of its own has this name. -/
def HasDirect (fs : List SItem) (n : Bytes) : Prop := ∃ (i : Nat) (t : Bool), fs[i]? = some (.direct n t)

theorem surv_under {fs sub : List SItem} {i : Nat} {y : Cand} (hi : fs[i]? = some (.embed sub)) (hy : y ∈ cands sub) :
    Surv fs (y.under i) ↔ ¬ HasDirect fs y.name ∧ Surv sub y := by
  have hpos := cands_path_ne hy
  constructor
  · rintro ⟨_, h⟩
    refine ⟨?_, hy, ?_⟩
    · rintro ⟨k, t, hk⟩
      refine h ⟨[k], y.name, t⟩ (mem_cands.2 (.inl ⟨k, _, t, hk, rfl⟩)) rfl ?_
      rw [hides_single]
      simp only [Cand.under, List.length_cons]; omega
    · intro d hd hdn hh
      refine h (d.under i) (mem_cands.2 (.inr ⟨i, sub, hi, d, hd, rfl⟩)) hdn ?_
      exact (hides_cons (cands_path_ne hd)).2 ⟨rfl, hh⟩
  · rintro ⟨h1, _, h2⟩
    refine ⟨mem_cands.2 (.inr ⟨i, sub, hi, y, hy, rfl⟩), ?_⟩
    intro d hd hdn hh
    rcases mem_cands.1 hd with ⟨k, n, t, hk, rfl⟩ | ⟨k, sub', hk, e, he, rfl⟩
    · exact h1 ⟨k, t, by simp only [Cand.under] at hdn; rw [← hdn]; exact hk⟩
    · obtain ⟨rfl, hh'⟩ := (hides_cons (cands_path_ne he)).1 hh
      rw [hi] at hk
      cases hk
      exact h2 e he hdn hh'

/-! ### What the model selects -/

/-- The model's field as a candidate. -/
def SField.cand (s : SField) : Cand := ⟨s.path, s.name, s.tag⟩

/-- The tag is remembered for one level only. -/
def _root_.JC.Spec.Cand.fade (c : Cand) : Cand := { c with tag := c.tag && c.path.length == 1 }

theorem mem_embeddedOf {i : Nat} {x : Cand} : ∀ {j : Nat} {ss : List SField}, (∃ s ∈ embeddedOf i j ss, s.cand = x) ↔ ∃ u ∈ ss, x = u.cand.under i
  | j, [] => by simp [embeddedOf]
  | j, u :: ss => by
    have ih := mem_embeddedOf (i := i) (x := x) (j := j + 1) (ss := ss)
    simp only [embeddedOf, List.mem_cons]
    constructor
    · rintro ⟨s, rfl | hs, rfl⟩
      · exact ⟨u, .inl rfl, rfl⟩
      · obtain ⟨v, hv, he⟩ := ih.1 ⟨s, hs, rfl⟩
        exact ⟨v, .inr hv, he⟩
    · rintro ⟨v, rfl | hv, rfl⟩
      · exact ⟨_, .inl rfl, rfl⟩
      · obtain ⟨s, hs, he⟩ := ih.2 ⟨v, hv, rfl⟩
        exact ⟨s, .inr hs, he⟩

theorem mem_embeddeds {x : Cand} : ∀ {k : Nat} {es : List FEntry}, (∃ s ∈ embeddeds k es, s.cand = x) ↔
    ∃ (i : Nat) (subs : List SField), es[i]? = some (.embed subs) ∧ ∃ u ∈ subs, x = u.cand.under (k + i)
  | k, [] => by simp [embeddeds]
  | k, e :: es => by
    have ih := mem_embeddeds (x := x) (k := k + 1) (es := es)
    have shift : (∃ s ∈ embeddeds (k + 1) es, s.cand = x) ↔
        ∃ (i : Nat) (subs : List SField), (e :: es)[i + 1]? = some (.embed subs) ∧ ∃ u ∈ subs, x = u.cand.under (k + (i + 1)) := by
      rw [ih]
      simp only [List.getElem?_cons_succ, show ∀ i, k + 1 + i = k + (i + 1) from fun i => by omega]
    have split0 : (∃ (i : Nat) (subs : List SField), (e :: es)[i]? = some (.embed subs) ∧ ∃ u ∈ subs, x = u.cand.under (k + i)) ↔
        (∃ subs, e = .embed subs ∧ ∃ u ∈ subs, x = u.cand.under k) ∨ ∃ s ∈ embeddeds (k + 1) es, s.cand = x := by
      rw [shift]
      constructor
      · rintro ⟨i, subs, h, r⟩
        cases i with
        | zero => simp only [List.getElem?_cons_zero, Option.some.injEq] at h; exact .inl ⟨subs, h, r⟩
        | succ i => exact .inr ⟨i, subs, h, r⟩
      · rintro (⟨subs, rfl, r⟩ | ⟨i, subs, h, r⟩)
        · exact ⟨0, subs, rfl, r⟩
        · exact ⟨i + 1, subs, h, r⟩
    rw [split0]
    cases e with
    | skip => simp [embeddeds]
    | direct n t => simp [embeddeds]
    | embed subs =>
      simp only [embeddeds, List.mem_append, FEntry.embed.injEq]
      rw [show (∃ s, (s ∈ embeddedOf k 0 subs ∨ s ∈ embeddeds (k + 1) es) ∧ s.cand = x) ↔
        (∃ s ∈ embeddedOf k 0 subs, s.cand = x) ∨ ∃ s ∈ embeddeds (k + 1) es, s.cand = x from by
          constructor
          · rintro ⟨s, h | h, e⟩
            · exact .inl ⟨s, h, e⟩
            · exact .inr ⟨s, h, e⟩
          · rintro (⟨s, h, e⟩ | ⟨s, h, e⟩)
            · exact ⟨s, .inl h, e⟩
            · exact ⟨s, .inr h, e⟩, mem_embeddedOf]
      simp

theorem mem_directs {s : SField} : ∀ {k : Nat} {es : List FEntry}, s ∈ directs k es ↔
    ∃ (i : Nat) (n : Bytes) (t : Bool), es[i]? = some (.direct n t) ∧ s = ⟨n, t, [k + i], (k + i, 0)⟩
  | k, [] => by simp [directs]
  | k, e :: es => by
    have ih := mem_directs (s := s) (k := k + 1) (es := es)
    have split0 : (∃ (i : Nat) (n : Bytes) (t : Bool), (e :: es)[i]? = some (.direct n t) ∧ s = ⟨n, t, [k + i], (k + i, 0)⟩) ↔
        (∃ n t, e = .direct n t ∧ s = ⟨n, t, [k], (k, 0)⟩) ∨ s ∈ directs (k + 1) es := by
      rw [ih]
      constructor
      · rintro ⟨i, n, t, h, r⟩
        cases i with
        | zero => simp only [List.getElem?_cons_zero, Option.some.injEq] at h; exact .inl ⟨n, t, h, r⟩
        | succ i => exact .inr ⟨i, n, t, h, by rw [show k + 1 + i = k + (i + 1) by omega]; exact r⟩
      · rintro (⟨n, t, rfl, r⟩ | ⟨i, n, t, h, r⟩)
        · exact ⟨0, n, t, rfl, r⟩
        · exact ⟨i + 1, n, t, h, by rw [show k + (i + 1) = k + 1 + i by omega]; exact r⟩
    rw [split0]
    cases e with
    | skip => simp [directs]
    | embed u => simp [directs]
    | direct n t =>
      simp only [directs, List.mem_cons, FEntry.direct.injEq]
      constructor
      · rintro (h | h)
        · exact .inl ⟨n, t, ⟨rfl, rfl⟩, h⟩
        · exact .inr h
      · rintro (⟨_, _, ⟨rfl, rfl⟩, h⟩ | h)
        · exact .inl h
        · exact .inr h

theorem mem_resolve {es : List FEntry} {s : SField} : s ∈ resolve es ↔
    s ∈ directs 0 es ∨ ∃ u ∈ embeddeds 0 es, keeps es u = true ∧ s = { u with tag := false } := by
  rw [resolve_flat, ← (flat_perm (keeps es) 0 es).mem_iff, List.mem_append, List.mem_map]
  simp only [List.mem_filter]
  constructor
  · rintro (h | ⟨u, ⟨h1, h2⟩, rfl⟩)
    · exact .inl h
    · exact .inr ⟨u, h1, h2, rfl⟩
  · rintro (h | ⟨u, h1, h2, rfl⟩)
    · exact .inl h
    · exact .inr ⟨u, ⟨h1, h2⟩, rfl⟩

/-- The model's selection for the struct. -/
def Picks (fs : List SItem) (x : Cand) : Prop := ∃ s ∈ resolve (entL fs), s.cand = x

/-- The fields of the embedded structs. -/
def Promoted (fs : List SItem) (x : Cand) : Prop :=
  ∃ (i : Nat) (sub : List SItem), fs[i]? = some (.embed sub) ∧ ∃ y, Picks sub y ∧ x = y.under i

theorem entI_direct {x : SItem} {n : Bytes} {t : Bool} (h : entI x = .direct n t) : x = .direct n t := by
  cases x <;> simp_all [entI]

theorem entI_embed {x : SItem} {subs : List SField} (h : entI x = .embed subs) : ∃ sub, x = .embed sub ∧ subs = resolve (entL sub) := by
  cases x <;> simp_all [entI]

theorem promoted_iff {fs : List SItem} {x : Cand} : (∃ s ∈ embeddeds 0 (entL fs), s.cand = x) ↔ Promoted fs x := by
  rw [mem_embeddeds]
  constructor
  · rintro ⟨i, subs, h, u, hu, rfl⟩
    rw [entL_getElem?, Option.map_eq_some_iff] at h
    obtain ⟨y, hy, he⟩ := h
    obtain ⟨sub, rfl, rfl⟩ := entI_embed he
    exact ⟨i, sub, hy, u.cand, ⟨u, hu, rfl⟩, by simp⟩
  · rintro ⟨i, sub, h, y, ⟨u, hu, rfl⟩, rfl⟩
    exact ⟨i, resolve (entL sub), by rw [entL_getElem?, h]; simp [entI], u, hu, by simp⟩

theorem hasDirect_iff {fs : List SItem} {n : Bytes} : (∀ d ∈ directs 0 (entL fs), d.name ≠ n) ↔ ¬ HasDirect fs n := by
  constructor
  · rintro h ⟨i, t, hi⟩
    exact h _ (mem_directs.2 ⟨i, n, t, by rw [entL_getElem?, hi]; simp [entI], rfl⟩) rfl
  · intro h d hd hn
    obtain ⟨i, m, t, hi, rfl⟩ := mem_directs.1 hd
    rw [entL_getElem?, Option.map_eq_some_iff] at hi
    obtain ⟨y, hy, he⟩ := hi
    rw [entI_direct he] at hy
    simp only at hn
    subst hn
    exact h ⟨i, t, hy⟩

/-- The model's selection, one level at a time. -/
theorem picks_iff {fs : List SItem} {x : Cand} : Picks fs x ↔
    (∃ (i : Nat) (n : Bytes) (t : Bool), fs[i]? = some (.direct n t) ∧ x = ⟨[i], n, t⟩) ∨
    ∃ y, Promoted fs y ∧ ¬ HasDirect fs y.name ∧
      (∀ z, Promoted fs z → z.name = y.name → z.path ≠ y.path → y.tag = true ∧ z.tag = false) ∧ x = { y with tag := false } := by
  unfold Picks
  constructor
  · rintro ⟨s, hs, rfl⟩
    rcases mem_resolve.1 hs with h | ⟨u, hu, hk, rfl⟩
    · obtain ⟨i, m, t, hi, rfl⟩ := mem_directs.1 h
      rw [entL_getElem?, Option.map_eq_some_iff] at hi
      obtain ⟨y, hy, he⟩ := hi
      rw [entI_direct he] at hy
      exact .inl ⟨i, m, t, hy, by simp [SField.cand]⟩
    · right
      have hk := (keeps_iff (entL_order fs) hu).1 hk
      refine ⟨u.cand, promoted_iff.1 ⟨u, hu, rfl⟩, hasDirect_iff.1 hk.1, ?_, rfl⟩
      intro z hz hn hp
      obtain ⟨v, hv, rfl⟩ := promoted_iff.2 hz
      exact hk.2 v hv hn hp
  · rintro (⟨i, n, t, hi, rfl⟩ | ⟨y, hy, hd, hk, rfl⟩)
    · exact ⟨⟨n, t, [0 + i], (0 + i, 0)⟩, mem_resolve.2 (.inl (mem_directs.2 ⟨i, n, t, by rw [entL_getElem?, hi]; simp [entI], rfl⟩)), by simp [SField.cand]⟩
    · obtain ⟨u, hu, rfl⟩ := promoted_iff.2 hy
      refine ⟨{ u with tag := false }, mem_resolve.2 (.inr ⟨u, hu, (keeps_iff (entL_order fs) hu).2 ⟨hasDirect_iff.2 hd, ?_⟩, rfl⟩), rfl⟩
      intro b hb hn hp
      exact hk b.cand (promoted_iff.1 ⟨b, hb, rfl⟩) hn hp

/-- No two candidates have the same name, except that one hides the other, or that both are fields
of the struct itself. -/
def NClash (fs : List SItem) : Prop := ∀ c ∈ cands fs, ∀ d ∈ cands fs, c.name = d.name → c.path ≠ d.path →
  Hides c.path d.path ∨ Hides d.path c.path ∨ c.path.length = 1 ∧ d.path.length = 1

theorem nc_sub {fs sub : List SItem} {i : Nat} (hi : fs[i]? = some (.embed sub)) (m : Nat)
    (h : ∀ c ∈ cands fs, ∀ d ∈ cands fs, c.name = d.name → c.path ≠ d.path →
      Hides c.path d.path ∨ Hides d.path c.path ∨ c.path.length = m ∧ d.path.length = m) (hm : m ≤ 2) : NClash sub := by
  intro c hc d hd hn hp
  have hc' := cands_path_ne hc
  have hd' := cands_path_ne hd
  have := h (c.under i) (mem_cands.2 (.inr ⟨i, sub, hi, c, hc, rfl⟩)) (d.under i) (mem_cands.2 (.inr ⟨i, sub, hi, d, hd, rfl⟩)) hn
    (by simpa [Cand.under] using hp)
  simp only [Cand.under, hides_cons hc', hides_cons hd', true_and, List.length_cons] at this
  rcases this with h | h | ⟨h1, h2⟩
  · exact .inl h
  · exact .inr (.inl h)
  · exact .inr (.inr ⟨by omega, by omega⟩)

/-- Two distinct survivors of the same name under a struct are not related by hiding. -/
theorem surv_unrelated {fs : List SItem} {i j : Nat} {sub sub' : List SItem} {y z : Cand} (hi : fs[i]? = some (.embed sub)) (hj : fs[j]? = some (.embed sub'))
    (hy : Surv sub y) (hz : Surv sub' z) (hn : y.name = z.name) : ¬ Hides (y.under i).path (z.under j).path := by
  intro h
  obtain ⟨rfl, h'⟩ := (hides_cons (cands_path_ne hy.1)).1 h
  rw [hi] at hj
  cases hj
  exact hz.2 y hy.1 hn h'

/-- The promoted fields of the embedded structs are the survivors in them. -/
theorem promoted_surv {fs : List SItem} (ih : ∀ x ∈ fs, ∀ (sub : List SItem), x = .embed sub → NClash sub → ∀ c, Picks sub c ↔ ∃ d, Surv sub d ∧ c = d.fade)
    (hsub : ∀ (i : Nat) sub, fs[i]? = some (.embed sub) → NClash sub) {x : Cand} :
    Promoted fs x ↔ ∃ (i : Nat) (sub : List SItem), fs[i]? = some (.embed sub) ∧ ∃ d, Surv sub d ∧ x = d.fade.under i := by
  constructor
  · rintro ⟨i, sub, hi, y, hy, rfl⟩
    obtain ⟨d, hd, rfl⟩ := (ih _ (List.mem_of_getElem? hi) sub rfl (hsub i sub hi) y).1 hy
    exact ⟨i, sub, hi, d, hd, rfl⟩
  · rintro ⟨i, sub, hi, d, hd, rfl⟩
    exact ⟨i, sub, hi, d.fade, (ih _ (List.mem_of_getElem? hi) sub rfl (hsub i sub hi) _).2 ⟨d, hd, rfl⟩, rfl⟩

theorem fade_under {d : Cand} {i : Nat} (h : 0 < d.path.length) : (d.under i).fade = { d.fade.under i with tag := false } := by
  simp only [Cand.fade, Cand.under, List.length_cons, Cand.mk.injEq, true_and, Bool.and_eq_false_iff, beq_eq_false_iff_ne]
  right; omega

theorem picks_surv (fs : List SItem) (hnc : NClash fs) (ih : ∀ x ∈ fs, ∀ (sub : List SItem), x = .embed sub → NClash sub → ∀ c, Picks sub c ↔ ∃ d, Surv sub d ∧ c = d.fade)
    (c : Cand) : Picks fs c ↔ ∃ d, Surv fs d ∧ c = d.fade := by
  have hsub : ∀ (i : Nat) sub, fs[i]? = some (.embed sub) → NClash sub := fun i sub hi => nc_sub hi 1 hnc (by omega)
  have hp := fun {x} => promoted_surv ih hsub (x := x)
  rw [picks_iff]
  constructor
  · rintro (⟨i, n, t, hi, rfl⟩ | ⟨y, hy, hd, hk, rfl⟩)
    · exact ⟨_, surv_direct hi, by simp [Cand.fade]⟩
    · obtain ⟨i, sub, hi, d, hds, rfl⟩ := hp.1 hy
      exact ⟨d.under i, (surv_under hi hds.1).2 ⟨hd, hds⟩, (fade_under (cands_path_ne hds.1)).symm⟩
  · rintro ⟨d, hd, rfl⟩
    rcases mem_cands.1 hd.1 with ⟨i, n, t, hi, rfl⟩ | ⟨i, sub, hi, y, hy, rfl⟩
    · exact .inl ⟨i, n, t, hi, by simp [Cand.fade]⟩
    · right
      have hs := (surv_under hi hy).1 hd
      refine ⟨y.fade.under i, hp.2 ⟨i, sub, hi, y, hs.2, rfl⟩, hs.1, ?_, fade_under (cands_path_ne hy)⟩
      intro z hz hn hpath
      exfalso
      obtain ⟨j, sub', hj, w, hw, rfl⟩ := hp.1 hz
      have h1 := surv_unrelated hi hj hs.2 hw hn.symm
      have h2 := surv_unrelated hj hi hw hs.2 hn
      rcases hnc (y.under i) hd.1 (w.under j) (mem_cands.2 (.inr ⟨j, sub', hj, w, hw.1, rfl⟩)) hn.symm (fun e => hpath e.symm) with h | h | ⟨h, _⟩
      · exact h1 h
      · exact h2 h
      · have := cands_path_ne hy
        simp only [Cand.under, List.length_cons] at h
        omega

mutual
theorem picksI : ∀ (x : SItem) (sub : List SItem), x = .embed sub → NClash sub → ∀ c, Picks sub c ↔ ∃ d, Surv sub d ∧ c = d.fade
  | .skip, _, h, _ => by cases h
  | .direct .., _, h, _ => by cases h
  | .embed fs, sub, h, hnc => by cases h; exact picks_surv fs hnc (picksL fs)
theorem picksL : ∀ (fs : List SItem), ∀ x ∈ fs, ∀ (sub : List SItem), x = .embed sub → NClash sub → ∀ c, Picks sub c ↔ ∃ d, Surv sub d ∧ c = d.fade
  | [], _, h => by cases h
  | x :: xs, y, h => by
    rcases List.mem_cons.1 h with h | h
    · rw [h]; exact picksI x
    · exact picksL xs y h
end

/-- On a tame struct the model selects what Go's rule selects. -/
theorem picks_dominant {fs : List SItem} (ht : Tame fs) (n : Bytes) (p : List Nat) :
    (∃ t, Picks fs ⟨p, n, t⟩) ↔ ∃ t, Dominant fs ⟨p, n, t⟩ := by
  have hsub : ∀ (i : Nat) sub, fs[i]? = some (.embed sub) → NClash sub := fun i sub hi => nc_sub hi 2 ht (by omega)
  have hp := fun {x} => promoted_surv (picksL fs) hsub (x := x)
  constructor
  · rintro ⟨t, h⟩
    rcases picks_iff.1 h with ⟨i, m, t', hi, he⟩ | ⟨y, hy, hd, hk, he⟩
    · cases he
      have hm : (⟨[i], n, t⟩ : Cand) ∈ cands fs := mem_cands.2 (.inl ⟨i, n, t, hi, rfl⟩)
      refine ⟨t, hm, ?_⟩
      intro d hdm hdn hdp
      left
      have hpos := cands_path_ne hdm
      rcases ht _ hm d hdm hdn.symm (fun e => hdp e.symm) with h | h | ⟨h, _⟩
      · exact hides_lt h
      · have := hides_lt h; simp only [List.length_singleton] at this; omega
      · simp only [List.length_singleton] at h; omega
    · obtain ⟨i, sub, hi, z, hz, rfl⟩ := hp.1 hy
      simp only [Cand.under, Cand.fade, Cand.mk.injEq] at he
      obtain ⟨rfl, rfl, rfl⟩ := he
      have hm : z.under i ∈ cands fs := mem_cands.2 (.inr ⟨i, sub, hi, z, hz.1, rfl⟩)
      refine ⟨z.tag, hm, ?_⟩
      intro d hdm hdn hdp
      simp only at hdn hdp ⊢
      -- two distinct survivors are both one level down, and the tags decide
      have key : ∀ (j : Nat) (sub' : List SItem) (w : Cand), fs[j]? = some (.embed sub') → Surv sub' w → w.name = z.name →
          (w.under j).path ≠ (z.under i).path → z.path.length = 1 ∧ w.path.length = 1 ∧ z.tag = true ∧ w.tag = false := by
        intro j sub' w hj hw hwn hwp
        have h1 := surv_unrelated hi hj hz hw hwn.symm
        have h2 := surv_unrelated hj hi hw hz hwn
        rcases ht _ hm (w.under j) (mem_cands.2 (.inr ⟨j, sub', hj, w, hw.1, rfl⟩)) hwn.symm (fun e => hwp e.symm) with h | h | ⟨h3, h4⟩
        · exact absurd h h1
        · exact absurd h h2
        · simp only [Cand.under, List.length_cons] at h3 h4
          have := hk (w.fade.under j) (hp.2 ⟨j, sub', hj, w, hw, rfl⟩) hwn hwp
          have hz1 : z.path.length = 1 := by omega
          have hw1 : w.path.length = 1 := by omega
          simp only [Cand.under, Cand.fade, hz1, hw1, beq_self_eq_true, Bool.and_true] at this
          exact ⟨hz1, hw1, this⟩
      rcases mem_cands.1 hdm with ⟨j, m, t', hj, rfl⟩ | ⟨j, sub', hj, w, hw, rfl⟩
      · exact absurd ⟨j, t', hdn ▸ hj⟩ hd
      · by_cases hs : Surv sub' w
        · obtain ⟨h1, h2, h3, h4⟩ := key j sub' w hj hs hdn hdp
          exact .inr ⟨by simp [Cand.under, h1, h2], h3, h4⟩
        · obtain ⟨w', hw', hwn', hh⟩ := exists_surv sub' w.path.length w (Nat.le_refl _) hw hs
          have hlt := hides_lt hh
          left
          by_cases e : (w'.under j).path = (z.under i).path
          · have : w'.path.length = z.path.length := by
              have := congrArg List.length e
              simpa [Cand.under] using this
            simp only [Cand.under, List.length_cons]; omega
          · obtain ⟨h1, h2, _, _⟩ := key j sub' w' hj hw' (hwn'.trans hdn) e
            simp only [Cand.under, List.length_cons]; omega
  · rintro ⟨t, hm, hdom⟩
    rcases mem_cands.1 hm with ⟨i, m, t', hi, he⟩ | ⟨i, sub, hi, z, hz, he⟩
    · cases he
      exact ⟨t, picks_iff.2 (.inl ⟨i, n, t, hi, rfl⟩)⟩
    · cases he
      have hzpos := cands_path_ne hz
      have hsurv : Surv sub z := by
        refine ⟨hz, fun d hd hdn hh => ?_⟩
        have hlt := hides_lt hh
        have := hdom (d.under i) (mem_cands.2 (.inr ⟨i, sub, hi, d, hd, rfl⟩)) hdn
          (by intro e; have := congrArg List.length e; simp [Cand.under] at this; omega)
        simp only [Cand.under, List.length_cons] at this
        omega
      refine ⟨false, picks_iff.2 (.inr ⟨z.fade.under i, hp.2 ⟨i, sub, hi, z, hsurv, rfl⟩, ?_, ?_, rfl⟩)⟩
      · rintro ⟨k, t', hk⟩
        have := hdom ⟨[k], z.name, t'⟩ (mem_cands.2 (.inl ⟨k, _, t', hk, rfl⟩)) rfl
          (by intro e; have := congrArg List.length e; simp only [List.length_cons, List.length_nil] at this; omega)
        simp only [List.length_cons, List.length_nil] at this
        omega
      · intro b hb hbn hbp
        obtain ⟨j, sub', hj, w, hw, rfl⟩ := hp.1 hb
        have hwm : w.under j ∈ cands fs := mem_cands.2 (.inr ⟨j, sub', hj, w, hw.1, rfl⟩)
        have h1 := surv_unrelated hi hj hsurv hw hbn.symm
        have h2 := surv_unrelated hj hi hw hsurv hbn
        rcases ht _ hm (w.under j) hwm hbn.symm (fun e => hbp e.symm) with h | h | ⟨h3, h4⟩
        · exact absurd h h1
        · exact absurd h h2
        · have := hdom (w.under j) hwm hbn hbp
          simp only [Cand.under, List.length_cons] at h3 h4 this
          have hz1 : z.path.length = 1 := by omega
          have hw1 : w.path.length = 1 := by omega
          rcases this with h | ⟨_, h5, h6⟩
          · omega
          · simp [Cand.under, Cand.fade, hz1, hw1, h5, h6]

end JC

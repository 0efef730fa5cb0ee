import Verif.Lemmas.DecSound
import Verif.Lemmas.Sort
/-! The tree-level decoder into `interface{}` computes `Denotes`. -/
namespace JC
open Spec Props

theorem keyMeans_unq {raw : Bytes} (h : JString raw) (k : Bytes) : KeyMeans raw k ↔ k = unq raw := by
  obtain ⟨s, rs, rfl, hm⟩ := jstring_means h
  rw [unq_means hm]
  constructor
  · rintro ⟨i, rs', e, hm', rfl⟩
    injection e with _ e
    have := List.append_cancel_right e
    subst this
    rw [StrMeans.unique hm hm']
  · rintro rfl; exact ⟨s, rs, rfl, hm, rfl⟩

/-! ### maps as sorted lists -/

def SortedM (es : List (MK × DV)) : Prop := es.Pairwise (fun a b => a.1.text < b.1.text)

def StrKeys (es : List (MK × DV)) : Prop := ∀ e ∈ es, ∃ k, e.1 = .str k

theorem mapSet_mem {k : MK} {v : DV} : ∀ {es : List (MK × DV)} {e : MK × DV}, e ∈ mapSet k v es → e = (k, v) ∨ e ∈ es
  | [], e, h => by simp [mapSet] at h; exact .inl h
  | (k', v') :: es, e, h => by
    simp only [mapSet] at h
    split at h
    · rcases List.mem_cons.1 h with h | h
      · exact .inl h
      · exact .inr (by simp [h])
    · split at h
      · rcases List.mem_cons.1 h with h | h
        · exact .inl h
        · exact .inr h
      · rcases List.mem_cons.1 h with h | h
        · exact .inr (by simp [h])
        · rcases mapSet_mem h with h | h
          · exact .inl h
          · exact .inr (by simp [h])

theorem mapSet_sorted {k : MK} {v : DV} (hinj : ∀ k' : MK, k'.text = k.text → k' = k) : ∀ {es : List (MK × DV)}, SortedM es → SortedM (mapSet k v es)
  | [], _ => by simp [mapSet, SortedM]
  | (k', v') :: es, h => by
    unfold SortedM at h
    rw [List.pairwise_cons] at h
    simp only [mapSet]
    split
    · rename_i e; subst e
      unfold SortedM
      rw [List.pairwise_cons]; exact h
    · rename_i hne
      split
      · rename_i hlt
        rw [bytesLt_iff] at hlt
        unfold SortedM
        rw [List.pairwise_cons, List.pairwise_cons]
        refine ⟨?_, h⟩
        intro a ha
        rcases List.mem_cons.1 ha with rfl | ha
        · exact hlt
        · exact blt_trans hlt (h.1 a ha)
      · rename_i hlt
        rw [bytesLt_iff] at hlt
        have hgt : k'.text < k.text := by
          rcases blt_total k.text k'.text with h | h | h
          · exact absurd h hlt
          · exact absurd (hinj _ h.symm) hne
          · exact h
        unfold SortedM
        rw [List.pairwise_cons]
        refine ⟨?_, mapSet_sorted hinj h.2⟩
        intro a ha
        rcases mapSet_mem ha with rfl | ha
        · exact hgt
        · exact h.1 a ha

theorem mapSet_iff {k : MK} {v : DV} : ∀ {es : List (MK × DV)}, SortedM es → ∀ k' w, (k', w) ∈ mapSet k v es ↔ (k' = k ∧ w = v) ∨ (k' ≠ k ∧ (k', w) ∈ es)
  | [], _, k', w => by simp [mapSet]
  | (k0, v0) :: es, h, k', w => by
    unfold SortedM at h
    rw [List.pairwise_cons] at h
    have notin : ∀ k1 w1, (k1, w1) ∈ es → k1 ≠ k0 := by
      intro k1 w1 hm e
      subst e
      exact blt_irrefl k1.text (h.1 (k1, w1) hm)
    simp only [mapSet]
    split
    · rename_i e; subst e
      simp only [List.mem_cons, Prod.mk.injEq]
      constructor
      · rintro (h | h)
        · exact .inl h
        · exact .inr ⟨notin _ _ h, .inr h⟩
      · rintro (h | ⟨h1, h | h⟩)
        · exact .inl h
        · exact absurd h.1 h1
        · exact .inr h
    · rename_i hne
      split
      · rename_i hlt
        rw [bytesLt_iff] at hlt
        have notk : ∀ w1, (k, w1) ∉ es := fun w1 hm => blt_irrefl _ (blt_trans hlt (h.1 _ hm))
        simp only [List.mem_cons, Prod.mk.injEq]
        constructor
        · rintro (h | h | h)
          · exact .inl h
          · refine .inr ⟨?_, .inl h⟩
            rw [h.1]; exact hne
          · refine .inr ⟨?_, .inr h⟩
            rintro rfl; exact notk _ h
        · rintro (h | ⟨_, h | h⟩)
          · exact .inl h
          · exact .inr (.inl h)
          · exact .inr (.inr h)
      · rw [List.mem_cons, mapSet_iff h.2, List.mem_cons]
        simp only [Prod.mk.injEq]
        constructor
        · rintro (h | h | h)
          · refine .inr ⟨?_, .inl h⟩
            rw [h.1]; exact hne
          · exact .inl h
          · exact .inr ⟨h.1, .inr h.2⟩
        · rintro (h | ⟨h1, h | h⟩)
          · exact .inr (.inl h)
          · exact .inl h
          · exact .inr (.inr ⟨h1, h⟩)

theorem mapSet_strKeys {k : Bytes} {v : DV} {es : List (MK × DV)} (h : StrKeys es) : StrKeys (mapSet (.str k) v es) := by
  intro e he
  rcases mapSet_mem he with rfl | he
  · exact ⟨k, rfl⟩
  · exact h e he

theorem mapSet_sortedS {k : Bytes} {v : DV} : ∀ {es : List (MK × DV)}, StrKeys es → SortedM es → SortedM (mapSet (.str k) v es)
  | [], _, _ => by simp [mapSet, SortedM]
  | (k', v') :: es, hs, h => by
    obtain ⟨s, hk'⟩ := hs _ (List.mem_cons_self ..)
    simp only [] at hk'
    subst hk'
    unfold SortedM at h
    rw [List.pairwise_cons] at h
    simp only [mapSet]
    split
    · rename_i e; injection e with e; subst e
      unfold SortedM
      rw [List.pairwise_cons]; exact h
    · rename_i hne
      split
      · rename_i hlt
        rw [bytesLt_iff] at hlt
        unfold SortedM
        rw [List.pairwise_cons, List.pairwise_cons]
        refine ⟨?_, h⟩
        intro a ha
        rcases List.mem_cons.1 ha with rfl | ha
        · exact hlt
        · exact blt_trans hlt (h.1 a ha)
      · rename_i hlt
        rw [bytesLt_iff] at hlt
        have hgt : s < k := by
          rcases blt_total k s with h | h | h
          · exact absurd h hlt
          · exact absurd (by rw [h]) hne
          · exact h
        unfold SortedM
        rw [List.pairwise_cons]
        refine ⟨?_, mapSet_sortedS (fun e he => hs e (List.mem_cons_of_mem _ he)) h.2⟩
        intro a ha
        rcases mapSet_mem ha with rfl | ha
        · exact hgt
        · exact h.1 a ha

theorem sortedM_ext : ∀ {a b : List (MK × DV)}, SortedM a → SortedM b → (∀ e, e ∈ a ↔ e ∈ b) → a = b
  | [], [], _, _, _ => rfl
  | [], y :: b, _, _, h => by have := (h y).2 (by simp); simp at this
  | x :: a, [], _, _, h => by have := (h x).1 (by simp); simp at this
  | x :: a, y :: b, ha, hb, h => by
    unfold SortedM at ha hb
    rw [List.pairwise_cons] at ha hb
    have hxy : x = y := by
      rcases List.mem_cons.1 ((h x).1 (by simp)) with e | hx
      · exact e
      · rcases List.mem_cons.1 ((h y).2 (by simp)) with e | hy
        · exact e.symm
        · exact absurd (blt_trans (ha.1 y hy) (hb.1 x hx)) (blt_irrefl _)
    subst hxy
    have nx : ∀ e, (e ∈ a ∨ e ∈ b) → e ≠ x := by
      rintro e (he | he) rfl
      · exact blt_irrefl _ (ha.1 _ he)
      · exact blt_irrefl _ (hb.1 _ he)
    rw [sortedM_ext ha.2 hb.2]
    intro e
    constructor
    · intro he
      rcases List.mem_cons.1 ((h e).1 (by simp [he])) with e1 | h1
      · exact absurd e1 (nx _ (.inl he))
      · exact h1
    · intro he
      rcases List.mem_cons.1 ((h e).2 (by simp [he])) with e1 | h1
      · exact absurd e1 (nx _ (.inr he))
      · exact h1

/-! ### genJ and Denotes -/

theorem jsonOk_str {raw : Bytes} (h : JsonOk (.str raw)) : JString raw := by rw [JsonOk] at h; exact h

theorem jsonOk_members {ms : List (Bytes × Json)} (h : JsonOk (.obj ms)) : ∀ m ∈ ms, JString m.1 ∧ JsonOk m.2 := by
  exact jsonOk_obj.1 h

theorem jsonOk_elems {xs : List Json} (h : JsonOk (.arr xs)) : ∀ x ∈ xs, JsonOk x := by
  exact jsonOk_arr.1 h

mutual
theorem genJ_denotes (c : DCfg) : ∀ (j : Json), JsonOk j → ∀ v, genJ c j = some v → Denotes c j v
  | .null, _, v, h => by simp [genJ] at h; simp [Denotes, h]
  | .tru, _, v, h => by simp [genJ] at h; simp [Denotes, h]
  | .fls, _, v, h => by simp [genJ] at h; simp [Denotes, h]
  | .num s, _, v, h => by
    simp only [genJ] at h
    simp only [Denotes]
    split at h
    · rename_i hu; rw [if_pos hu]; injection h with h; exact h.symm
    · rename_i hu; rw [if_neg hu]
      cases e : c.lib.parseFloat false s with
      | none => rw [e] at h; simp at h
      | some f => rw [e] at h; simp at h; exact ⟨f, rfl, h.symm⟩
  | .str raw, hj, v, h => by
    simp only [genJ, Option.some.injEq] at h
    simp only [Denotes]
    exact ⟨unq raw, (keyMeans_unq (jsonOk_str hj) _).2 rfl, h.symm⟩
  | .arr xs, hj, v, h => by
    simp only [genJ] at h
    simp only [Denotes]
    cases e : genE c xs with
    | none => rw [e] at h; simp at h
    | some vs => rw [e] at h; simp at h; exact ⟨vs, genE_denotes c xs (jsonOk_elems hj) vs e, h.symm⟩
  | .obj ms, hj, v, h => by
    simp only [genJ] at h
    simp only [Denotes]
    cases e : genM c ms [] with
    | none => rw [e] at h; simp at h
    | some es =>
      rw [e] at h; simp at h
      obtain ⟨h1, h2, h3, h4⟩ := genM_denotes c ms (jsonOk_members hj) [] es (by simp [SortedM]) (by simp [StrKeys]) e
      refine ⟨es, h.symm, h1, h2, h3, ?_⟩
      intro k w
      rw [h4]; simp
theorem genE_denotes (c : DCfg) : ∀ (xs : List Json), (∀ x ∈ xs, JsonOk x) → ∀ vs, genE c xs = some vs → DenotesL c xs vs
  | [], _, vs, h => by simp [genE] at h; simp [DenotesL, h]
  | j :: xs, hx, vs, h => by
    simp only [genE] at h
    simp only [DenotesL]
    split at h
    · simp at h
    · rename_i v e
      cases e2 : genE c xs with
      | none => rw [e2] at h; simp at h
      | some vs' =>
        rw [e2] at h; simp at h
        exact ⟨v, vs', h.symm, genJ_denotes c j (hx j (by simp)) v e, genE_denotes c xs (fun x hm => hx x (by simp [hm])) vs' e2⟩
theorem genM_denotes (c : DCfg) : ∀ (ms : List (Bytes × Json)), (∀ x ∈ ms, JString x.1 ∧ JsonOk x.2) → ∀ m es, SortedM m → StrKeys m →
    genM c ms m = some es → AllDenote c ms ∧ SortedM es ∧ StrKeys es ∧
      ∀ k w, (MK.str k, w) ∈ es ↔ DenotesM c ms k w ∨ ((MK.str k, w) ∈ m ∧ ∀ x ∈ ms, ¬ KeyMeans x.1 k)
  | [], _, m, es, hs, hk, h => by
    simp [genM] at h; subst h
    exact ⟨trivial, hs, hk, by simp [DenotesM]⟩
  | (raw, j) :: ms, hx, m, es, hs, hk, h => by
    simp only [genM] at h
    split at h
    · simp at h
    · rename_i v e
      have hj := hx (raw, j) (by simp)
      have hv := genJ_denotes c j hj.2 v e
      obtain ⟨h1, h2, h3, h4⟩ := genM_denotes c ms (fun x hm => hx x (by simp [hm])) _ es
        (mapSet_sortedS hk hs) (mapSet_strKeys hk) h
      refine ⟨⟨⟨v, hv⟩, h1⟩, h2, h3, ?_⟩
      intro k w
      rw [h4, mapSet_iff hs]
      simp only [DenotesM, MK.str.injEq, List.forall_mem_cons, keyMeans_unq hj.1]
      constructor
      · rintro (h | ⟨⟨rfl, rfl⟩ | ⟨h1, h2⟩, h3⟩)
        · exact .inl (.inl h)
        · exact .inl (.inr ⟨rfl, hv, h3⟩)
        · exact .inr ⟨h2, by simpa using h1, h3⟩
      · rintro ((h | ⟨rfl, h2, h3⟩) | ⟨h1, h2, h3⟩)
        · exact .inl h
        · refine .inr ⟨.inl ⟨rfl, ?_⟩, h3⟩
          exact denotes_unique c j hj.2 _ _ h2 hv
        · exact .inr ⟨.inr ⟨by simpa using h2, h1⟩, h3⟩
theorem denotes_unique (c : DCfg) : ∀ (j : Json), JsonOk j → ∀ v w, Denotes c j v → Denotes c j w → v = w
  | .null, _, v, w, h, h' | .tru, _, v, w, h, h' | .fls, _, v, w, h, h' => by
    simp only [Denotes] at h h'; rw [h, h']
  | .num s, _, v, w, h, h' => by
    simp only [Denotes] at h h'
    split at h
    · rename_i hu; rw [if_pos hu] at h'; rw [h, h']
    · rename_i hu; rw [if_neg hu] at h'
      obtain ⟨f, e, rfl⟩ := h
      obtain ⟨g, e', rfl⟩ := h'
      rw [e] at e'; injection e' with e'; rw [e']
  | .str raw, hj, v, w, h, h' => by
    simp only [Denotes] at h h'
    have hs := jsonOk_str hj
    obtain ⟨s, hs1, rfl⟩ := h
    obtain ⟨s', hs2, rfl⟩ := h'
    rw [(keyMeans_unq hs _).1 hs1, (keyMeans_unq hs _).1 hs2]
  | .arr xs, hj, v, w, h, h' => by
    simp only [Denotes] at h h'
    obtain ⟨vs, h1, rfl⟩ := h
    obtain ⟨ws, h2, rfl⟩ := h'
    rw [denotesL_unique c xs (jsonOk_elems hj) vs ws h1 h2]
  | .obj ms, hj, v, w, h, h' => by
    simp only [Denotes] at h h'
    obtain ⟨es, rfl, h1, h2, h3, h4⟩ := h
    obtain ⟨fs, rfl, g1, g2, g3, g4⟩ := h'
    have : es = fs := by
      refine sortedM_ext h2 g2 ?_
      rintro ⟨k, x⟩
      constructor
      · intro hm
        obtain ⟨s, hs⟩ := h3 _ hm
        simp only [] at hs; subst hs
        rw [g4, ← h4]; exact hm
      · intro hm
        obtain ⟨s, hs⟩ := g3 _ hm
        simp only [] at hs; subst hs
        rw [h4, ← g4]; exact hm
    rw [this]
theorem denotesL_unique (c : DCfg) : ∀ (xs : List Json), (∀ x ∈ xs, JsonOk x) → ∀ v w, DenotesL c xs v → DenotesL c xs w → v = w
  | [], _, v, w, h, h' => by simp only [DenotesL] at h h'; rw [h, h']
  | j :: xs, hx, v, w, h, h' => by
    simp only [DenotesL] at h h'
    obtain ⟨a, as, rfl, h1, h2⟩ := h
    obtain ⟨b, bs, rfl, g1, g2⟩ := h'
    rw [denotes_unique c j (hx j (by simp)) a b h1 g1, denotesL_unique c xs (fun x hm => hx x (by simp [hm])) as bs h2 g2]
end

mutual
theorem denotes_gen (c : DCfg) : ∀ (j : Json), ∀ v, Denotes c j v → ∃ w, genJ c j = some w
  | .null, v, h | .tru, v, h | .fls, v, h | .str _, v, h => by simp [genJ]
  | .num s, v, h => by
    simp only [Denotes] at h
    simp only [genJ]
    split at h
    · rename_i hu; rw [if_pos hu]; exact ⟨_, rfl⟩
    · rename_i hu; rw [if_neg hu]; obtain ⟨f, e, _⟩ := h; rw [e]; exact ⟨_, rfl⟩
  | .arr xs, v, h => by
    simp only [Denotes] at h
    obtain ⟨vs, h1, _⟩ := h
    obtain ⟨w, e⟩ := denotesL_gen c xs vs h1
    simp [genJ, e]
  | .obj ms, v, h => by
    simp only [Denotes] at h
    obtain ⟨es, _, h1, _⟩ := h
    obtain ⟨w, e⟩ := denotesM_gen c ms h1 []
    simp [genJ, e]
theorem denotesL_gen (c : DCfg) : ∀ (xs : List Json), ∀ v, DenotesL c xs v → ∃ w, genE c xs = some w
  | [], v, h => by simp [genE]
  | j :: xs, v, h => by
    simp only [DenotesL] at h
    obtain ⟨a, as, _, h1, h2⟩ := h
    obtain ⟨w, e⟩ := denotes_gen c j a h1
    obtain ⟨ws, e2⟩ := denotesL_gen c xs as h2
    simp [genE, e, e2]
theorem denotesM_gen (c : DCfg) : ∀ (ms : List (Bytes × Json)), AllDenote c ms → ∀ m, ∃ w, genM c ms m = some w
  | [], _, m => by simp [genM]
  | (raw, j) :: ms, h, m => by
    simp only [AllDenote] at h
    obtain ⟨v, hv⟩ := h.1
    obtain ⟨w, e⟩ := denotes_gen c j v hv
    simp only [genM, e]
    exact denotesM_gen c ms h.2 _
end

theorem genJ_iff {c : DCfg} {j : Json} (hj : JsonOk j) (v : DV) : genJ c j = some v ↔ Denotes c j v := by
  constructor
  · exact genJ_denotes c j hj v
  · intro h
    obtain ⟨w, e⟩ := denotes_gen c j v h
    rw [e, denotes_unique c j hj _ _ (genJ_denotes c j hj w e) h]

end JC

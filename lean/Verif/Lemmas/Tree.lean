import Verif.Spec.Tree
import Verif.Props.Raw
import Verif.Props.Decode
/-! Trees of generic values: what the encoder writes for them denotes the same tree. -/
namespace JC
open Spec Props

theorem coerced_iff {s s' : Bytes} : Coerced s s' ↔ s' = utf8s (runes s) := by
  constructor
  · rintro ⟨rs, h, rfl⟩; rw [h.runes_eq]
  · rintro rfl; exact ⟨_, runes_decodes s, rfl⟩

theorem keyMeans_quote (html : Bool) (s k : Bytes) : KeyMeans (quote html s) k ↔ Coerced s k := by
  rw [coerced_iff]
  have e : quote html s = 0x22 :: (encLoop html [] s ++ [0x22]) := rfl
  have hm := encLoop_means html s
  constructor
  · rintro ⟨i, rs, e', hi, rfl⟩
    rw [e] at e'
    injection e' with _ e'
    have := List.append_cancel_right e'
    subst this
    rw [hi.unique hm]
  · rintro rfl; exact ⟨_, _, e, hm, rfl⟩

theorem allDenote_iff {c : DCfg} : ∀ {ms : List (Bytes × Json)}, AllDenote c ms ↔ ∀ m ∈ ms, ∃ v, Denotes c m.2 v
  | [] => by simp [AllDenote]
  | (k, j) :: ms => by simp [AllDenote, allDenote_iff (ms := ms)]

/-- With distinct keys any member counts. -/
theorem denotesM_mem {c : DCfg} : ∀ {ms : List (Bytes × Json)}, ms.Pairwise (fun a b => ∀ k, KeyMeans a.1 k → ¬ KeyMeans b.1 k) →
    ∀ k w, DenotesM c ms k w ↔ ∃ m ∈ ms, KeyMeans m.1 k ∧ Denotes c m.2 w
  | [], _, k, w => by simp [DenotesM]
  | (r, j) :: ms, hp, k, w => by
    rw [List.pairwise_cons] at hp
    simp only [DenotesM, denotesM_mem hp.2 k w, List.mem_cons, exists_eq_or_imp]
    constructor
    · rintro (h | ⟨h1, h2, _⟩)
      · exact .inr h
      · exact .inl ⟨h1, h2⟩
    · rintro (⟨h1, h2⟩ | h)
      · exact .inr ⟨h1, h2, fun m hm => hp.1 m hm k h1⟩
      · exact .inl h

/-- The document of a meaning. -/
def docGet : Meaning → Doc
  | .doc x => x
  | _ => .bare false

def IsDoc (m : Meaning) : Prop := ∃ x, m = .doc x

theorem docGet_doc {m : Meaning} (h : IsDoc m) : m = .doc (docGet m) := by
  obtain ⟨x, rfl⟩ := h; rfl

theorem seqKeyed_docs : ∀ (l : List (Bytes × Meaning)) (f : Bytes → Bytes), (∀ e ∈ l, IsDoc e.2) →
    seqMembers (l.map fun e => (.ok .key (f e.1), e.2)) = .ok (l.map fun e => (.key, f e.1, docGet e.2))
  | [], _, _ => rfl
  | (k, m) :: l, f, h => by
    obtain ⟨x, hx⟩ := h (k, m) List.mem_cons_self
    simp only at hx
    subst hx
    rw [List.map_cons, seqMembers, seqKeyed_docs l f (fun e he => h e (List.mem_cons_of_mem _ he))]
    rfl

theorem jsonOfM_map : ∀ (l : List (Bytes × Meaning)) (f : Bytes → Bytes),
    jsonOfM (l.map fun e => (.key, f e.1, docGet e.2)) = l.map fun e => (f e.1, jsonOf (docGet e.2))
  | [], _ => rfl
  | (k, m) :: l, f => by rw [List.map_cons, jsonOfM, jsonOfM_map l f]; rfl

theorem docOkM_map : ∀ (l : List (Bytes × Meaning)) (f : Bytes → Bytes), (∀ s, JString (f s)) → (∀ e ∈ l, DocOk (docGet e.2)) →
    DocOkM (l.map fun e => (.key, f e.1, docGet e.2))
  | [], _, _, _ => by simp [DocOkM]
  | (k, m) :: l, f, hf, h => by
    rw [List.map_cons, DocOkM]
    exact ⟨hf k, h (k, m) List.mem_cons_self, docOkM_map l f hf (fun e he => h e (List.mem_cons_of_mem _ he))⟩

theorem haveTrees_iff {c : DCfg} : ∀ {es : List (Bytes × GV)}, HaveTrees c es ↔ ∀ e ∈ es, ∃ v, SameTree c e.2 v
  | [] => by simp [HaveTrees]
  | (k, j) :: ms => by simp [HaveTrees, haveTrees_iff (es := ms)]

theorem sameEntry_iff {c : DCfg} : ∀ {es : List (Bytes × GV)} {k w}, SameEntry c es k w ↔ ∃ e ∈ es, Coerced e.1 k ∧ SameTree c e.2 w
  | [], k, w => by simp [SameEntry]
  | (k0, j) :: ms, k, w => by simp [SameEntry, sameEntry_iff (es := ms)]

theorem scalarJson_quote (html : Bool) (s : Bytes) : scalarJson (quote html s) = .str (quote html s) :=
  scalarJson_str (quote_jstring html s)

/-- What an element contributes to a document. -/
def Shows (c : Cfg) (dc : DCfg) (g : GV) (v : DV) : Prop :=
  ∃ x, meaning c g = .doc x ∧ DocOk x ∧ Denotes dc (jsonOf x) v

theorem map_shows {c : Cfg} {dc : DCfg} {es : List (Bytes × GV)} (ih : ∀ e ∈ es, ∀ v, SameTree dc e.2 v → Shows c dc e.2 v) {v : DV}
    (h : SameTree dc (.mapSI es) v) : Shows c dc (.mapSI es) v := by
  simp only [SameTree] at h
  obtain ⟨es', rfl, hd, hh, hs, hk, hm⟩ := h
  rw [haveTrees_iff] at hh
  have doc : ∀ e ∈ es, IsDoc (meaning c e.2) ∧ DocOk (docGet (meaning c e.2)) := by
    intro e he
    obtain ⟨w, hw⟩ := hh e he
    obtain ⟨x, h1, h2, _⟩ := ih e he w hw
    exact ⟨⟨x, h1⟩, by rw [h1]; exact h2⟩
  have den : ∀ e ∈ es, ∀ w, SameTree dc e.2 w → Denotes dc (jsonOf (docGet (meaning c e.2))) w := by
    intro e he w hw
    obtain ⟨x, h1, _, h3⟩ := ih e he w hw
    rw [h1]; exact h3
  have den' : ∀ e ∈ es, ∀ w, Denotes dc (jsonOf (docGet (meaning c e.2))) w → SameTree dc e.2 w := by
    intro e he w hw
    obtain ⟨w', hw'⟩ := hh e he
    have := den e he w' hw'
    have hok : JsonOk (jsonOf (docGet (meaning c e.2))) := by
      have hd := render_derives (st := ⟨none, none⟩) ⟨rfl, by intro _ _ h; cases h⟩ 0 _ (doc e he).2
      exact jtext_ok (s := render ⟨none, none⟩ 0 (docGet (meaning c e.2))) ⟨[], render ⟨none, none⟩ 0 (docGet (meaning c e.2)), [], by simp, ws_nil, ws_nil, hd⟩
    rw [← genJ_iff hok] at this hw
    rw [this] at hw
    cases hw
    exact hw'
  -- the members in the order written
  obtain ⟨l, hl, hmean⟩ : ∃ l : List (Bytes × Meaning), l.Perm (meanS c es) ∧
      meaning c (.mapSI es) = (seqMembers (l.map fun e => (.ok .key (quote c.escapeHTML e.1), e.2))).toObj := by
    rw [meaning]
    by_cases hsort : c.sortMapKeys = true
    · exact ⟨_, sortBy_perm _ _, by rw [if_pos hsort]⟩
    · exact ⟨_, List.Perm.refl _, by rw [if_neg hsort]⟩
  rw [meanS_map] at hl
  have inl : ∀ e, e ∈ l ↔ ∃ a ∈ es, e = (a.1, meaning c a.2) := by
    intro e
    rw [hl.mem_iff, List.mem_map]
    constructor
    · rintro ⟨a, h1, rfl⟩; exact ⟨a, h1, rfl⟩
    · rintro ⟨a, h1, rfl⟩; exact ⟨a, h1, rfl⟩
  rw [seqKeyed_docs l _ (by intro e he; obtain ⟨a, ha, rfl⟩ := (inl e).1 he; exact (doc a ha).1)] at hmean
  refine ⟨_, hmean, ?_, ?_⟩
  · rw [DocOk]
    exact docOkM_map l _ (quote_jstring _) (by intro e he; obtain ⟨a, ha, rfl⟩ := (inl e).1 he; exact (doc a ha).2)
  · rw [jsonOf, jsonOfM_map, Denotes]
    have hpl : l.Pairwise (fun a b => ∀ k, Coerced a.1 k → ¬ Coerced b.1 k) := by
      refine (hl.pairwise_iff ?_).2 ?_
      · intro a b h k h1 h2; exact h k h2 h1
      · rw [List.pairwise_map]; exact hd
    have hpm : (l.map fun e => (quote c.escapeHTML e.1, jsonOf (docGet e.2))).Pairwise (fun a b => ∀ k, KeyMeans a.1 k → ¬ KeyMeans b.1 k) := by
      rw [List.pairwise_map]
      refine hpl.imp ?_
      intro a b h k h1 h2
      exact h k ((keyMeans_quote _ _ _).1 h1) ((keyMeans_quote _ _ _).1 h2)
    refine ⟨es', rfl, ?_, hs, hk, ?_⟩
    · rw [allDenote_iff]
      intro m hm
      obtain ⟨e, he, rfl⟩ := List.mem_map.1 hm
      obtain ⟨a, ha, rfl⟩ := (inl e).1 he
      obtain ⟨w, hw⟩ := hh a ha
      exact ⟨w, den a ha w hw⟩
    · intro k w
      rw [hm, sameEntry_iff, denotesM_mem hpm]
      constructor
      · rintro ⟨a, ha, hk, hw⟩
        exact ⟨_, List.mem_map.2 ⟨_, (inl _).2 ⟨a, ha, rfl⟩, rfl⟩, (keyMeans_quote _ _ _).2 hk, den a ha w hw⟩
      · rintro ⟨m, hm, hk, hw⟩
        obtain ⟨e, he, rfl⟩ := List.mem_map.1 hm
        obtain ⟨a, ha, rfl⟩ := (inl e).1 he
        exact ⟨a, ha, (keyMeans_quote _ _ _).1 hk, den' a ha w hw⟩

theorem num_shows {c : Cfg} {dc : DCfg} {g : GV} {v : DV} {s : Bytes} (hm : meaning c g = .doc (.leaf .number s)) (hs : JNumber s)
    (h : Denotes dc (.num s) v) : Shows c dc g v := by
  refine ⟨_, hm, ?_, ?_⟩
  · rw [DocOk]; exact .inr (.inr (.inr (.inl hs)))
  · rw [jsonOf, scalarJson_num hs]; exact h

mutual
theorem tree_shows (c : Cfg) (dc : DCfg) : ∀ (g : GV) (v : DV), SameTree dc g v → Shows c dc g v
  | .nil, v, h => by
    simp only [SameTree] at h
    subst h
    exact ⟨_, rfl, null_tok, by simp [jsonOf, scalarJson, Denotes]⟩
  | .bool b, v, h => by
    simp only [SameTree] at h
    subst h
    cases b
    · exact ⟨_, rfl, .inr (.inr (.inl rfl)), by simp [jsonOf, scalarJson, Denotes]⟩
    · exact ⟨_, rfl, .inr (.inl rfl), by simp [jsonOf, scalarJson, Denotes]⟩
  | .float (.fin expo t ok), v, h => by
    simp only [SameTree] at h
    refine num_shows (s := floatText expo t) (by rw [meaning, floatText]) (float_jnumber ok) ?_
    rw [Denotes]
    split
    · rw [if_pos ‹_›] at h; exact h
    · rw [if_neg ‹_›] at h; exact ⟨_, h.1, h.2⟩
  | .number s, v, h => by
    simp only [SameTree] at h
    refine num_shows (s := s) ?_ h.1 ?_
    · have hne : s ≠ [] := by
        rintro rfl
        obtain ⟨c, t, e, _⟩ := jnumber_head h.1
        cases e
      rw [meaning, numberMeaning]
      rw [if_neg hne, if_pos h.1]
    · rw [Denotes]; exact h.2
  | .string s, v, h => by
    simp only [SameTree] at h
    obtain ⟨s', hs, rfl⟩ := h
    refine ⟨_, rfl, .inr (.inr (.inr (.inr (quote_jstring _ _)))), ?_⟩
    rw [jsonOf, scalarJson_quote, Denotes]
    exact ⟨s', (keyMeans_quote _ _ _).2 hs, rfl⟩
  | .slice xs, v, h => by
    simp only [SameTree] at h
    obtain ⟨vs, hvs, rfl⟩ := h
    obtain ⟨ds, h1, h2, h3⟩ := trees_show c dc xs vs hvs
    refine ⟨.arr ds, by rw [meaning, h1]; rfl, by rw [DocOk]; exact h2, ?_⟩
    rw [jsonOf, Denotes]
    exact ⟨vs, h3, rfl⟩
  | .mapSI es, v, h => map_shows (entries_show c dc es) h
  | .iface g _, v, h => by
    simp only [SameTree] at h
    obtain ⟨x, h1, h2, h3⟩ := tree_shows c dc g v h
    exact ⟨x, by rw [meaning]; exact h1, h2, h3⟩
  | .ptr g, v, h => by
    simp only [SameTree] at h
    obtain ⟨x, h1, h2, h3⟩ := tree_shows c dc g v h
    exact ⟨x, by rw [meaning]; exact h1, h2, h3⟩
  | .float .nan, _, h | .float .inf, _, h | .int _, _, h | .uint _, _, h | .bytesNil, _, h | .bytes _, _, h | .time _ _, _, h
  | .sliceNil, _, h | .array _, _, h | .mapNil, _, h | .map _, _, h | .mapRaw _, _, h | .struct _, _, h | .ptrNil, _, h
  | .rawNil, _, h | .raw _, _, h | .jsonM _ _, _, h | .textM _ _, _, h | .quoted _, _, h | .embNil _, _, h | .emb _ _, _, h
  | .unsupported, _, h => by simp [SameTree] at h
theorem trees_show (c : Cfg) (dc : DCfg) : ∀ (gs : List GV) (vs : List DV), SameTrees dc gs vs →
    ∃ xs, seqElems (meanL c gs) = .ok xs ∧ DocOkL xs ∧ DenotesL dc (jsonOfL xs) vs
  | [], vs, h => by
    simp only [SameTrees] at h
    subst h
    exact ⟨[], rfl, by simp [DocOkL], by simp [jsonOfL, DenotesL]⟩
  | g :: gs, vs, h => by
    simp only [SameTrees] at h
    obtain ⟨v, vs', rfl, h1, h2⟩ := h
    obtain ⟨x, a1, a2, a3⟩ := tree_shows c dc g v h1
    obtain ⟨xs, b1, b2, b3⟩ := trees_show c dc gs vs' h2
    refine ⟨x :: xs, ?_, by rw [DocOkL]; exact ⟨a2, b2⟩, ?_⟩
    · rw [meanL, a1, seqElems, b1]
    · rw [jsonOfL, DenotesL]; exact ⟨v, vs', rfl, a3, b3⟩
theorem entries_show (c : Cfg) (dc : DCfg) : ∀ (es : List (Bytes × GV)), ∀ e ∈ es, ∀ v, SameTree dc e.2 v → Shows c dc e.2 v
  | [], e, he => by cases he
  | (k, g) :: es, e, he => by
    intro v h
    rcases List.mem_cons.1 he with rfl | he
    · exact tree_shows c dc g v h
    · exact entries_show c dc es e he v h
end

end JC

import Verif.Lemmas.Tree
import Verif.Model.Value
/-!
Property C37: trees of generic values survive marshalling and unmarshalling.
-/
namespace JC.Props
open JC Spec

/-- **C37** (partial: no nil slices or maps inside interfaces, and keys that differ after coercion; see
`C37_fails_nil_slice` and `C37_fails_collision`) Encoding a tree of generic values succeeds, and unmarshalling what was written (into an
interface without a pointer) gives the tree with the same data. Any layout of whitespace, with
or without HTML escaping and key sorting. -/
theorem C37_roundtrip_partial (c : Cfg) (hc : c.clrs = none) (hw : WsLayout c) (dc : DCfg) (m n : Nat) {g : GV} {v : DV} (h : SameTree dc g v)
    (p : DV) (hp : NoPtr p) :
    ∃ out, enc c g [] n = .done out n none ∧ unmarshal dc m .iface out p = .done v none := by
  obtain ⟨x, h1, h2, h3⟩ := tree_shows c dc g v h
  have hd := enc_does c g
  rw [h1] at hd
  refine ⟨_, hd [] n n (fun _ => rfl), ?_⟩
  rw [C35_generic _ _ _ _ hp]
  refine ⟨jsonOf x, ⟨[], render (styleOf c) n x, [], by simp, ws_nil, ws_nil, ?_⟩, h3⟩
  exact render_derives (wsStyle_of hc hw) n x h2

/-- **C37** The same for `Marshal` and `Unmarshal`. -/
theorem C37_marshal_partial (dc : DCfg) (m : Nat) {g : GV} {v : DV} (h : SameTree dc g v) :
    ∃ out, marshal g = some (.ok out) ∧ unmarshal dc m .iface out .ifaceNil = .done v none := by
  obtain ⟨out, h1, h2⟩ := C37_roundtrip_partial {} rfl (by intro i h; cases h) dc m 0 h .ifaceNil ifaceNil_noPtr
  refine ⟨out, ?_, h2⟩
  unfold marshal
  rw [show enc {} g [] 0 = .done out _ none from h1]

/-- The tree with the same data is unique. -/
theorem C37_unique (dc : DCfg) {g : GV} {v v' : DV} (h : SameTree dc g v) (h' : SameTree dc g v') : v = v' := by
  obtain ⟨out, h1, h2⟩ := C37_marshal_partial dc 0 h
  obtain ⟨out', h1', h2'⟩ := C37_marshal_partial dc 0 h'
  rw [h1] at h1'
  cases h1'
  rw [h2] at h2'
  cases h2'
  rfl

theorem coerced_valid {s k : Bytes} (h : KeyMeans s k) : Coerced k k := by
  rw [coerced_iff]
  obtain ⟨i, rs, _, hm, rfl⟩ := h
  exact (coerce_valid ⟨rs, hm.scalars, rfl⟩).symm

theorem toGVm_map : ∀ es : List (MK × DV), toGVm es = es.map fun e => (e.1.str!, toGV e.2 .iface)
  | [] => rfl
  | (k, v) :: es => by rw [toGVm, toGVm_map es]; rfl

mutual
/-- Every tree that a document denotes has the data of the encoder's view of it. -/
theorem denotes_same {c : DCfg} (hf : FloatsReturn c.lib) : ∀ (j : Json) (v : DV), Denotes c j v → JsonOk j → SameTree c (toGV v .iface) v
  | .null, v, h, _ => by
    simp only [Denotes] at h
    subst h
    simp [toGV, SameTree]
  | .tru, v, h, _ | .fls, v, h, _ => by
    simp only [Denotes] at h
    subst h
    simp [toGV, SameTree]
  | .num s, v, h, hok => by
    rw [Denotes] at h
    split at h
    · subst h
      simp only [toGV, SameTree, if_pos ‹_›]
      exact ⟨by simpa [JsonOk] using hok, trivial⟩
    · obtain ⟨f, hp, rfl⟩ := h
      obtain ⟨e, t, ok, rfl, hb⟩ := hf s f (by simpa [JsonOk] using hok) hp
      simp only [toGV, SameTree, if_neg ‹_›]
      exact ⟨hb, trivial⟩
  | .str raw, v, h, _ => by
    rw [Denotes] at h
    obtain ⟨s, hs, rfl⟩ := h
    simp only [toGV, SameTree]
    exact ⟨s, coerced_valid hs, rfl⟩
  | .arr xs, v, h, hok => by
    rw [Denotes] at h
    obtain ⟨vs, hvs, rfl⟩ := h
    simp only [toGV, SameTree]
    exact ⟨vs, denotesL_same hf xs vs hvs (by rw [JsonOk] at hok; exact fun x hx => hok ⟨x, hx⟩ (List.mem_attach _ _)), rfl⟩
  | .obj ms, v, h, hok => by
    rw [Denotes] at h
    obtain ⟨es, rfl, _, hs, hk, hm⟩ := h
    have hok' : ∀ m ∈ ms, JString m.1 ∧ JsonOk m.2 := by rw [JsonOk] at hok; exact fun m hm => hok ⟨m, hm⟩ (List.mem_attach _ _)
    have ent : ∀ k w, (MK.str k, w) ∈ es → Coerced k k ∧ SameTree c (toGV w .iface) w := by
      intro k w hkw
      exact denotesM_same hf ms hok' k w ((hm k w).1 hkw)
    simp only [toGV, SameTree]
    refine ⟨es, rfl, ?_, ?_, hs, hk, ?_⟩
    · rw [toGVm_map, List.pairwise_map]
      refine List.Pairwise.imp_of_mem ?_ hs
      rintro ⟨k1, w1⟩ ⟨k2, w2⟩ h1 h2 hlt k hc1 hc2
      obtain ⟨k1, rfl⟩ := hk _ h1
      obtain ⟨k2, rfl⟩ := hk _ h2
      have e1 := (coerced_iff.1 hc1).trans (coerced_iff.1 (ent k1 w1 h1).1).symm
      have e2 := (coerced_iff.1 hc2).trans (coerced_iff.1 (ent k2 w2 h2).1).symm
      rw [← e1, ← e2] at hlt
      exact blt_irrefl _ hlt
    · rw [haveTrees_iff, toGVm_map]
      intro e he
      obtain ⟨⟨k, w⟩, h1, rfl⟩ := List.mem_map.1 he
      obtain ⟨k, rfl⟩ := hk _ h1
      exact ⟨w, (ent k w h1).2⟩
    · intro k w
      rw [sameEntry_iff, toGVm_map]
      constructor
      · intro h1
        exact ⟨_, List.mem_map.2 ⟨_, h1, rfl⟩, (ent k w h1).1, (ent k w h1).2⟩
      · rintro ⟨e, he, hc, hw⟩
        obtain ⟨⟨k', w'⟩, h1, rfl⟩ := List.mem_map.1 he
        obtain ⟨k', rfl⟩ := hk _ h1
        have e1 := (coerced_iff.1 hc).trans (coerced_iff.1 (ent k' w' h1).1).symm
        have e2 := C37_unique c hw (ent k' w' h1).2
        rw [e1, e2]
        exact h1
theorem denotesL_same {c : DCfg} (hf : FloatsReturn c.lib) : ∀ (xs : List Json) (vs : List DV), DenotesL c xs vs → (∀ x ∈ xs, JsonOk x) →
    SameTrees c (toGVs vs .iface) vs
  | [], vs, h, _ => by
    simp only [DenotesL] at h
    subst h
    simp [toGVs, SameTrees]
  | j :: xs, vs, h, hok => by
    simp only [DenotesL] at h
    obtain ⟨v, vs', rfl, h1, h2⟩ := h
    rw [toGVs, SameTrees]
    exact ⟨v, vs', rfl, denotes_same hf j v h1 (hok j List.mem_cons_self), denotesL_same hf xs vs' h2 (fun x hx => hok x (List.mem_cons_of_mem _ hx))⟩
theorem denotesM_same {c : DCfg} (hf : FloatsReturn c.lib) : ∀ (ms : List (Bytes × Json)), (∀ m ∈ ms, JString m.1 ∧ JsonOk m.2) → ∀ k w, DenotesM c ms k w →
    Coerced k k ∧ SameTree c (toGV w .iface) w
  | [], _, k, w, h => by simp [DenotesM] at h
  | (raw, j) :: ms, hok, k, w, h => by
    rw [DenotesM] at h
    rcases h with h | ⟨h1, h2, _⟩
    · exact denotesM_same hf ms (fun m hm => hok m (List.mem_cons_of_mem _ hm)) k w h
    · exact ⟨coerced_valid h1, denotes_same hf j w h2 (hok (raw, j) List.mem_cons_self).2⟩
end

/-- **C37** What `Unmarshal` stores in an interface comes back unchanged when it is encoded and
unmarshalled again. -/
theorem C37_stable (dc : DCfg) (hf : FloatsReturn dc.lib) (c : Cfg) (hc : c.clrs = none) (hw : WsLayout c) (m n : Nat) {b : Bytes} {v : DV}
    (h : unmarshal dc m .iface b .ifaceNil = .done v none) :
    ∃ out, enc c (toGV v .iface) [] n = .done out n none ∧ unmarshal dc m .iface out .ifaceNil = .done v none := by
  obtain ⟨j, hj, hd⟩ := (C35_generic dc m b .ifaceNil ifaceNil_noPtr v).1 h
  exact C37_roundtrip_partial c hc hw dc m n (denotes_same hf j v hd (jtext_ok hj)) .ifaceNil ifaceNil_noPtr

/-- Concrete case: a tree with a nested map, a key that is not UTF-8 and HTML. -/
example : SameTree { lib := noLib, useNumber := true } (.mapSI [(bs! "b", .slice [.nil, .bool true, .number (bs! "1.5")]), ([0x61, 0xff], .string (bs! "<"))])
    (.iface .mapSI (.map [(.str (bs! "a\uFFFD"), .iface .string (.string (bs! "<"))),
      (.str (bs! "b"), .iface (.slice .iface) (.slice [.ifaceNil, .iface .bool (.bool true), .iface .number (.number (bs! "1.5"))] []))])) := by
  have c1 : Coerced [0x61, 0xff] (bs! "a\uFFFD") := coerced_iff.2 (by decide +kernel)
  have c2 : Coerced (bs! "b") (bs! "b") := coerced_iff.2 (by decide +kernel)
  have c3 : Coerced (bs! "<") (bs! "<") := coerced_iff.2 (by decide +kernel)
  have n1 : JNumber (bs! "1.5") := .mk [] [0x31] [0x2e, 0x35] [] (.inl rfl) (jint_digit (by unfold Digit; decide)) (.some [0x35] ⟨by simp, by unfold Digit; decide⟩) .none
  simp only [SameTree, SameTrees, HaveTrees, SameEntry, if_true]
  refine ⟨_, rfl, ?_, ?_, ?_, ?_, ?_⟩
  · simp only [List.pairwise_cons, List.mem_singleton, forall_eq, List.not_mem_nil, false_imp_iff, implies_true, List.Pairwise.nil, and_true]
    intro k h1 h2
    rw [coerced_iff] at h1 h2
    rw [h1] at h2
    revert h2
    decide +kernel
  · exact ⟨⟨_, _, ⟨_, _, rfl, rfl, _, _, rfl, rfl, _, _, rfl, ⟨n1, rfl⟩, rfl⟩, rfl⟩, ⟨_, _, c3, rfl⟩, trivial⟩
  · decide +kernel
  · simp
  · intro k w
    simp only [List.mem_cons, Prod.mk.injEq, MK.str.injEq, List.not_mem_nil, or_false]
    constructor
    · rintro (⟨rfl, rfl⟩ | ⟨rfl, rfl⟩)
      · exact .inr ⟨c1, _, c3, rfl⟩
      · exact .inl ⟨c2, _, ⟨_, _, rfl, rfl, _, _, rfl, rfl, _, _, rfl, ⟨n1, rfl⟩, rfl⟩, rfl⟩
    · rintro (⟨h1, vs, ⟨_, _, rfl, rfl, _, _, rfl, rfl, _, _, rfl, ⟨_, rfl⟩, rfl⟩, rfl⟩ | ⟨h1, s', h2, rfl⟩)
      · exact .inr ⟨(coerced_iff.1 h1).trans (coerced_iff.1 c2).symm, rfl⟩
      · exact .inl ⟨(coerced_iff.1 h1).trans (coerced_iff.1 c1).symm, by rw [(coerced_iff.1 h2).trans (coerced_iff.1 c3).symm]⟩

/-- A nil `[]interface{}` inside the tree is written as `null` and comes back as a nil interface:
the tree changes. (`encoding/json` does the same.) -/
theorem C37_fails_nil_slice : ∃ out, marshal (toGV (.iface (.slice .iface) .sliceNil) .iface) = some (.ok out) ∧
    unmarshal { lib := noLib } 0 .iface out .ifaceNil = .done .ifaceNil none := ⟨bs! "null", rfl, rfl⟩

/-- Keys that only differ in bytes that are not UTF-8 collide: an entry is lost. -/
theorem C37_fails_collision : ∃ out, marshal (.mapSI [([0xfe], .bool true), ([0xff], .bool false)]) = some (.ok out) ∧
    unmarshal { lib := noLib } 0 .iface out .ifaceNil = .done (.iface .mapSI (.map [(.str (bs! "\uFFFD"), .iface .bool (.bool false))])) none := by
  refine ⟨bs! "{\"\\ufffd\":true,\"\\ufffd\":false}", by with_unfolding_all rfl, ?_⟩
  with_unfolding_all rfl

end JC.Props

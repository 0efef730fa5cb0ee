import Verif.Lemmas.EmbedNil
import Verif.Props.EmbedEnc
import Verif.Props.Typed
/-!
C74 for structs with nil embedded pointers: what is written comes back, and nil pointers are nil again.
-/
namespace JC.Props
open JC Spec

theorem backN_of {c : Cfg} (hc : c.clrs = none) (dc : DCfg) (dyn : Ty → Dec) (dynJ : Ty → JDec) : ∀ (ps : List Promoted) (xs : List DV) (gs : List (FMeta × GV)),
    xs.length = ps.length → gs.length = ps.length → NilsFirst gs →
    (∀ (i : Nat) (a : Promoted) (x : DV) (g : FMeta × GV), ps[i]? = some a → xs[i]? = some x → gs[i]? = some g → g.1 = ⟨a.1, false⟩ ∧ ((g.2 = .embNil false ∧ x = zero a.2.2) ∨
      (isRollback g.2 = false ∧ Spec.Seen dc (fun s => Coerced s s) (fun w => isNilDV w = false) a.2.2 x g.2))) →
    BackN c dc dyn dynJ (ps.map fun a => (a.1, a.2.2)) xs gs
  | [], [], [], _, _, _, _ => .rest _ _ _ trivial
  | a :: ps, x :: xs, (m, g) :: gs, l1, l2, hn, h => by
    have ih := backN_of hc dc dyn dynJ ps xs gs (by simpa using l1) (by simpa using l2) (nilsFirst_tail hn)
      (fun i a x g h1 h2 h3 => h (i + 1) a x g (by simpa using h1) (by simpa using h2) (by simpa using h3))
    obtain ⟨hm, h0⟩ := h 0 a x (m, g) rfl rfl rfl
    simp only [] at hm h0
    subst hm
    rcases h0 with ⟨rfl, rfl⟩ | ⟨hr, hs⟩
    · exact .nil _ _ _ _ _ _ _ (clip_zero _) ih
    · have key : ∀ (ps : List Promoted) (xs : List DV) (gs : List (FMeta × GV)), xs.length = ps.length → gs.length = ps.length → (∀ g ∈ gs, isRollback g.2 = false) →
          (∀ (i : Nat) (a : Promoted) (x : DV) (g : FMeta × GV), ps[i]? = some a → xs[i]? = some x → gs[i]? = some g → g.1 = ⟨a.1, false⟩ ∧ ((g.2 = .embNil false ∧ x = zero a.2.2) ∨
            (isRollback g.2 = false ∧ Spec.Seen dc (fun s => Coerced s s) (fun w => isNilDV w = false) a.2.2 x g.2))) →
          BackF c dc dyn dynJ (ps.map fun a => (a.1, a.2.2)) xs gs := by
        intro ps
        induction ps with
        | nil =>
          intro xs gs l1 l2 _ _
          cases xs with
          | nil => cases gs with
            | nil => trivial
            | cons g gs => simp at l2
          | cons x xs => simp at l1
        | cons a ps ih =>
          intro xs gs l1 l2 hno h
          match xs, gs, l1, l2 with
          | x :: xs, (m, g) :: gs, l1, l2 =>
            obtain ⟨hm, h0⟩ := h 0 a x (m, g) rfl rfl rfl
            simp only [] at hm h0
            subst hm
            refine ⟨rfl, (fun h => by cases h), ?_, ih xs gs (by simpa using l1) (by simpa using l2) (fun g hg => hno g (by simp [hg]))
              (fun i a x g h1 h2 h3 => h (i + 1) a x g (by simpa using h1) (by simpa using h2) (by simpa using h3))⟩
            rcases h0 with ⟨rfl, _⟩ | ⟨_, hs⟩
            · have := hno _ List.mem_cons_self
              simp [isRollback] at this
            · exact seen_back hc dc dyn dynJ _ _ _ hs
      refine .rest _ _ _ (key (a :: ps) (x :: xs) _ l1 l2 ?_ h)
      intro f hf
      obtain ⟨j, hj⟩ := List.getElem?_of_mem hf
      cases hfr : isRollback f.2 with
      | false => rfl
      | true =>
        obtain ⟨b, hb⟩ : ∃ b, (a :: ps)[j]? = some b := ⟨_, List.getElem?_eq_getElem (by rw [← l2]; exact (List.getElem?_eq_some_iff.1 hj).1)⟩
        obtain ⟨y, hy⟩ : ∃ y, (x :: xs)[j]? = some y := ⟨_, List.getElem?_eq_getElem (by rw [l1, ← l2]; exact (List.getElem?_eq_some_iff.1 hj).1)⟩
        have e := (h j b y f hb hy hj).1
        have := hn 0 j _ f rfl hj ⟨by simp [LeftOut], hr⟩ ⟨by simp [LeftOut, e], hfr⟩
        omega
  | [], _ :: _, _, l1, _, _, _ => by simp at l1
  | [], [], _ :: _, _, l2, _, _ => by simp at l2
  | _ :: _, [], _, l1, _, _, _ => by simp at l1
  | _ :: _, _ :: _, [], _, l2, _, _ => by simp at l2

/-- **C74** (partial as C38, and fields behind nil pointers come first; `C74_json_iff`: otherwise the text is not JSON) What is written for
a struct with embedded structs and pointers, some of which are nil, `Unmarshal` brings back: in a fresh struct every promoted field gets the
value it had (up to the memory beyond the length of slices; a field behind a nil pointer counts as zero), and a nil pointer is on the
way to it exactly if there was one. `AllOpen`: embedded pointers are of exported types. -/
theorem C74_roundtrip_nil_partial (dc : DCfg) (hl : LibOk dc.lib) (m : Nat) (fs : List EF) (ht : (flatTy fs).tree) {vs : List EV} {xs : List DV}
    (hs : ShapeL fs vs) (hv : Views fs vs xs) (hb : BlockedFirst fs vs) (ho : AllOpen fs (zeroVs fs))
    (hn : ((promoted fs).map (·.1)).Pairwise (· ≠ ·)) (hu : ∀ a ∈ promoted fs, Coerced a.1 a.1)
    (h : ∀ (i : Nat) (a : Promoted) (x : DV), (promoted fs)[i]? = some a → xs[i]? = some x → ¬ Blocked fs vs a.2.1 →
      Spec.Seen dc (fun s => Coerced s s) (fun w => isNilDV w = false) a.2.2 x (toGV x a.2.2))
    (c : Cfg) (hc : c.clrs = none) (hw : WsLayout c) (n : Nat) :
    ∃ out ws, encodeStructE c (fieldsE fs) (memL vs) [] n = .done out n none ∧ unmarshalE dc m fs out (memL (zeroVs fs)) = .done (memL ws) none ∧
      ShapeL fs ws ∧ Views fs ws (xs.map clip) ∧ ∀ a ∈ promoted fs, Blocked fs ws a.2.1 ↔ Blocked fs vs a.2.1 := by
  obtain ⟨gs, hg, hgs⟩ := C74_seen fs hs
  have hback : ∀ dyn dynJ, BackN c dc dyn dynJ ((promoted fs).map fun a => (a.1, a.2.2)) xs gs := by
    intro dyn dynJ
    refine backN_of hc dc dyn dynJ _ _ _ hv.1 hg.1 ((blockedFirst_iff hg).1 hb) ?_
    intro i a x g ha hx hgi
    obtain ⟨g', e, hsi⟩ := hg.2 i a ha
    rw [hgi] at e; injection e with e; subst e
    refine ⟨hsi.1, ?_⟩
    obtain ⟨x', ex, hr⟩ := hv.2 i a ha
    rw [hx] at ex; injection ex with ex; subst ex
    rcases hsi.2 with ⟨hbl, e⟩ | ⟨hbl, v, hrv, e⟩
    · obtain ⟨nm, p, t⟩ := a
      obtain ⟨_, _, _, _, hp⟩ := promoted_get ha
      exact .inl ⟨e, blocked_reads hbl hp.typeAt hr⟩
    · rw [e, reads_unique hrv hr]
      exact .inr ⟨toGV_not_nil _ _, h i a x ha hx hbl⟩
  have key : ∀ dyn dynJ, decJN dc m (flatTy fs) = decJ dc dyn dynJ (flatTy fs) → ∃ ms x, seqFields c.escapeHTML false (meanF c gs) = .ok ms ∧
      meaning c (.struct gs) = .doc x ∧ DocOk x ∧ jsonOf x = .obj (jsonOfM ms) ∧ decJN dc m (flatTy fs) (jsonOf x) (zero (flatTy fs)) = some (.struct (clipL xs)) := by
    intro dyn dynJ e
    obtain ⟨ms, h1, h2, h3⟩ := nils_back (hback dyn dynJ) [] [] [] (by simpa [List.map_map, Function.comp_def] using hn)
      (by intro f hf; obtain ⟨a, ha, rfl⟩ := List.mem_map.1 hf; exact hu a ha) rfl rfl
    simp only [List.nil_append] at h3
    have : ∃ x, (MeaningL.ok ms).toStruct (!gs.isEmpty) = .doc x ∧ DocOk x ∧ jsonOf x = .obj (jsonOfM ms) := by
      cases ms with
      | nil => exact ⟨_, rfl, trivial, rfl⟩
      | cons m ms => exact ⟨_, rfl, h2, rfl⟩
    obtain ⟨x, e1, e2, e3⟩ := this
    refine ⟨ms, x, h1, by rw [meaning, h1]; exact e1, e2, e3, ?_⟩
    rw [e, e3]
    simp only [flatTy, decJ, structTyJ, zero, h3, Option.map_some]
  obtain ⟨ms, x, k1, k2, k3, k4, k5⟩ : ∃ ms x, seqFields c.escapeHTML false (meanF c gs) = .ok ms ∧
      meaning c (.struct gs) = .doc x ∧ DocOk x ∧ jsonOf x = .obj (jsonOfM ms) ∧ decJN dc m (flatTy fs) (jsonOf x) (zero (flatTy fs)) = some (.struct (clipL xs)) := by
    cases m with
    | zero => exact key _ _ rfl
    | succ m => exact key _ _ rfl
  have hd := enc_does c (.struct gs)
  rw [k2] at hd
  have hjt : JText (jsonOf x) (render (styleOf c) n x) := ⟨[], render (styleOf c) n x, [], by simp, ws_nil, ws_nil, render_derives (wsStyle_of hc hw) n x k3⟩
  have hun := (unmarshal_tree hl ht hjt (held_zero _ m _) _).2 k5
  have hz : zero (flatTy fs) = .struct ((promoted fs).map fun a => zero a.2.2) := by
    simp only [flatTy, zero, zeroF_get]
  rw [hz] at hun
  obtain ⟨ys, ws, e, h3, h4, h5⟩ := (C66_flat dc m fs _ (zero_shapeL fs) (zero_views fs) ho).1 _ _ hun
  simp only [DV.struct.injEq] at e
  subst e
  rw [clipL_get] at h5
  refine ⟨_, ws, by rw [hgs c]; exact hd [] n n (fun _ => rfl), h3, h4, h5, ?_⟩
  have htr : ∀ a ∈ promoted fs, a.2.2.tree := by
    simp only [flatTy, Ty.tree] at ht
    generalize promoted fs = ps at ht
    induction ps with
    | nil => intro a ha; simp at ha
    | cons b ps ih =>
      simp only [List.map_cons, treeF] at ht
      intro a ha
      simp only [List.mem_cons] at ha
      rcases ha with rfl | ha
      · exact ht.1
      · exact ih ht.2 a ha
  have hheld : HeldE m fs (zeroVs fs) := by
    intro a ha y hy
    obtain ⟨i, hi⟩ := List.getElem?_of_mem ha
    obtain ⟨nm, p, t⟩ := a
    obtain ⟨_, _, _, _, hp⟩ := promoted_get hi
    rw [reads_unique hy (zero_reads hp.typeAt)]
    exact held_zero _ _ _
  obtain ⟨ws', hw', hmj⟩ : ∃ ws', memL ws = memL ws' ∧ MJ dc m fs (jsonOfM ms) (zeroVs fs) ws' := by
    have hder := render_derives (wsStyle_of hc hw) n x k3
    have e1 := skip_ws_value ws_nil hder []
    simp only [List.nil_append, List.append_nil] at e1
    have hobj := hder
    rw [k4] at hobj
    have hd := object_E (N := m) hl htr hobj [] (zero_shapeL fs) hheld
    rw [List.append_nil] at hd
    unfold unmarshalE at h3
    rw [e1] at h3
    cases e : decodeStructE dc m (fieldsE fs) (render (styleOf c) n x) (memL (zeroVs fs)) with
    | crash q => rw [e] at h3; cases h3
    | err m' r er =>
      rw [e] at h3
      injection h3 with _ h3
      split at h3 <;> cases h3
    | ok m' r =>
      rw [e] at h3
      injection h3 with h3 _
      subst h3
      exact ((hd _ _).1 e).2
  have : ws = ws' := shapeL_mem_inj h4 (mj_shape hmj (zero_shapeL fs)) hw'
  subst this
  have hgoes : ∀ (i : Nat) (a : Promoted), (promoted fs)[i]? = some a → Goes dc fs (quote c.escapeHTML a.1) a := by
    intro i a ha
    refine ⟨i, ?_, ha⟩
    rw [unq_quote (hu a (List.mem_of_getElem? ha))]
    have hi : ((promoted fs).map (·.1))[i]? = some a.1 := by rw [List.getElem?_map, ha]; rfl
    obtain ⟨hlt, hget⟩ := List.getElem?_eq_some_iff.1 hi
    have e : (promoted fs).map (·.1) = ((promoted fs).map (·.1)).take i ++ a.1 :: ((promoted fs).map (·.1)).drop (i + 1) := by
      rw [← hget, List.getElem_cons_drop, List.take_append_drop]
    rw [e] at hn ⊢
    rw [pick_here hn, List.length_take, Nat.min_eq_left (by omega)]
  intro a ha
  obtain ⟨i, hi⟩ := List.getElem?_of_mem ha
  obtain ⟨g, hgi, hsg⟩ := hg.2 i a hi
  constructor
  · intro hbw
    refine Classical.byContradiction fun hbv => ?_
    have hnr : isRollback g.2 = false := by
      have := mt (sight_nil hsg).1 hbv
      simpa using this
    obtain ⟨y, hy⟩ : ∃ y, meaning c g.2 = .doc y := by
      rcases backN_doc (hback (fun _ => decodeBool) (fun _ _ _ => none)) g (List.mem_of_getElem? hgi) with h | h
      · rw [hnr] at h; cases h
      · exact h
    obtain ⟨f, hf, e1, e2⟩ := meanF_has (c := c) (List.mem_of_getElem? hgi)
    obtain ⟨r, hr⟩ := seqFields_all _ _ _ k1 f hf y (by rw [e1, hsg.1]) (by rw [e2, hy])
    rw [e1, hsg.1] at hr
    exact mj_reached hmj (jsonOfM_has hr) (hgoes i a hi) hbw
  · intro hbv
    refine mj_blocked hmj (vs := vs) ?_ hbv (blocked_zero hbv)
    rintro ⟨k, j⟩ hm
    obtain ⟨q, hq, rfl⟩ := jsonOfM_mem hm
    obtain ⟨f, hf, e1, e2⟩ := seqFields_keys _ _ _ k1 q hq
    obtain ⟨g', hg', e3, e4⟩ := meanF_mem hf
    obtain ⟨i', hi'⟩ := List.getElem?_of_mem hg'
    obtain ⟨a', ha'⟩ : ∃ a, (promoted fs)[i']? = some a := ⟨_, List.getElem?_eq_getElem (by rw [← hg.1]; exact (List.getElem?_eq_some_iff.1 hi').1)⟩
    obtain ⟨g'', e5, s5⟩ := hg.2 i' a' ha'
    rw [hi'] at e5; injection e5 with e5; subst e5
    refine ⟨a', by simp only []; rw [e1, e3, s5.1]; exact hgoes i' a' ha', fun hb' => ?_⟩
    rcases s5.2 with ⟨_, e6⟩ | ⟨hnb, _⟩
    · rw [e4, e6, meaning] at e2; cases e2
    · exact hnb hb'

/-- `struct { *Inner; *Other; D bool }`, `Inner` being `struct { B bool; *Deep }`, `Deep` `struct { C bool }` and `Other` `struct { E bool }`. -/
def nilTy : List EF := [.ptr false [.ptr false [.leaf (bs! "C") false .bool], .leaf (bs! "B") false .bool], .ptr false [.leaf (bs! "E") false .bool],
  .leaf (bs! "D") false .bool]

/-- `Deep` is nil, all else is set: it comes back so. -/
example :
    marshalE nilTy (memL [.ptr [.nil, .leaf (.bool true)], .ptr [.leaf (.bool false)], .leaf (.bool true)]) =
      some (.ok (bs! "{\"B\":true,\"E\":false,\"D\":true}")) ∧
    unmarshalE { lib := noLib } 0 nilTy (bs! "{\"B\":true,\"E\":false,\"D\":true}") (memL (zeroVs nilTy)) =
      .done (memL [.ptr [.nil, .leaf (.bool true)], .ptr [.leaf (.bool false)], .leaf (.bool true)]) none :=
  ⟨by with_unfolding_all rfl, by with_unfolding_all rfl⟩

/-- All pointers are nil. -/
example : marshalE nilTy (memL [.nil, .nil, .leaf (.bool true)]) = some (.ok (bs! "{\"D\":true}")) ∧
    unmarshalE { lib := noLib } 0 nilTy (bs! "{\"D\":true}") (memL (zeroVs nilTy)) = .done (memL [.nil, .nil, .leaf (.bool true)]) none :=
  ⟨by with_unfolding_all rfl, by with_unfolding_all rfl⟩

end JC.Props

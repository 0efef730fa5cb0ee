import Verif.Lemmas.EmbedEnc
import Verif.Props.Embed
import Verif.Props.Typed
/-!
C74: encoding structs with embedded structs and embedded pointers to structs.
-/
namespace JC.Props
open JC Spec

/-- The encoder goes to the memory of the promoted fields: the text is that of a struct with the values that are read by following
their paths, and with nothing where a path goes through a nil pointer. -/
theorem C74_seen (fs : List EF) {vs : List EV} (hs : ShapeL fs vs) :
    ∃ gs, Sees fs vs (promoted fs) gs ∧ ∀ c, encodeStructE c (fieldsE fs) (memL vs) = enc c (.struct gs) :=
  ⟨_, sees_fields hs, fun c => encodeStructE_see hs c⟩

theorem sight_unique {fs : List EF} {vs : List EV} {a : Promoted} {g h : FMeta × GV} (h1 : Sight fs vs a g) (h2 : Sight fs vs a h) : g = h := by
  obtain ⟨e1, h1⟩ := h1
  obtain ⟨e2, h2⟩ := h2
  refine Prod.ext (by rw [e1, e2]) ?_
  rcases h1 with ⟨b1, g1⟩ | ⟨b1, v1, r1, g1⟩
  · rcases h2 with ⟨b2, g2⟩ | ⟨b2, _⟩
    · rw [g1, g2]
    · exact absurd b1 b2
  · rcases h2 with ⟨b2, g2⟩ | ⟨b2, v2, r2, g2⟩
    · exact absurd b2 b1
    · rw [g1, g2, reads_unique r1 r2]

theorem sees_unique {fs : List EF} {vs : List EV} {gs hs : List (FMeta × GV)} (h1 : Sees fs vs (promoted fs) gs) (h2 : Sees fs vs (promoted fs) hs) : gs = hs := by
  apply List.ext_getElem?
  intro i
  cases ha : (promoted fs)[i]? with
  | none =>
    have := List.getElem?_eq_none_iff.1 ha
    rw [List.getElem?_eq_none (by rw [h1.1]; exact this), List.getElem?_eq_none (by rw [h2.1]; exact this)]
  | some a =>
    obtain ⟨g, e1, s1⟩ := h1.2 i a ha
    obtain ⟨h, e2, s2⟩ := h2.2 i a ha
    rw [e1, e2, sight_unique s1 s2]

theorem toGVf_get : ∀ (xs : List DV) (ps : List Promoted), xs.length = ps.length → (toGVf xs (ps.map fun a => (a.1, a.2.2))).length = ps.length ∧
    ∀ (i : Nat) (a : Promoted) (x : DV), ps[i]? = some a → xs[i]? = some x → (toGVf xs (ps.map fun a => (a.1, a.2.2)))[i]? = some (⟨a.1, false⟩, toGV x a.2.2)
  | [], [], _ => ⟨rfl, by simp⟩
  | x :: xs, a :: ps, h => by
    obtain ⟨h1, h2⟩ := toGVf_get xs ps (by simpa using h)
    simp only [List.map_cons, toGVf]
    refine ⟨by simp [h1], ?_⟩
    intro i b y hb hy
    cases i with
    | zero => simp at hb hy; subst hb hy; rfl
    | succ i => simpa using h2 i b y (by simpa using hb) (by simpa using hy)
  | [], _ :: _, h => by simp at h
  | _ :: _, [], h => by simp at h

/-- With no nil pointer on the way to a promoted field, the text is that of a flat struct with the promoted fields. -/
theorem C74_flat (fs : List EF) {vs : List EV} {xs : List DV} (hs : ShapeL fs vs) (hv : Views fs vs xs) (hb : ∀ a ∈ promoted fs, ¬ Blocked fs vs a.2.1) (c : Cfg) :
    encodeStructE c (fieldsE fs) (memL vs) = enc c (toGV (.struct xs) (flatTy fs)) := by
  obtain ⟨gs, h1, h2⟩ := C74_seen fs hs
  rw [h2 c]
  simp only [flatTy, toGV]
  obtain ⟨l, hg⟩ := toGVf_get xs (promoted fs) hv.1
  rw [sees_unique h1 ⟨l, ?_⟩]
  intro i a ha
  obtain ⟨x, hx, hr⟩ := hv.2 i a ha
  exact ⟨_, hg i a x ha hx, rfl, .inr ⟨hb a (List.mem_of_getElem? ha), x, hr, rfl⟩⟩

/-- The fields that are not behind a nil pointer. -/
def notNil (gs : List (FMeta × GV)) : List (FMeta × GV) := gs.filter fun g => !isRollback g.2

/-- Full statement: fields behind nil pointers are left out, that is the text is that of a struct without them. (Without an Indenter,
which would break the line in `{}` if all fields are left out.) -/
def C74_statement : Prop := ∀ (fs : List EF) (vs : List EV) (gs : List (FMeta × GV)) (c : Cfg) (b : Bytes) (n : Nat), c.ind = none →
  ShapeL fs vs → Sees fs vs (promoted fs) gs → encodeStructE c (fieldsE fs) (memL vs) b n = enc c (.struct (notNil gs)) b n

/-- In the order of the fields of the type, those behind nil pointers come before all others. -/
def BlockedFirst (fs : List EF) (vs : List EV) : Prop := ∀ (i j : Nat) (a b : Promoted), (promoted fs)[i]? = some a → (promoted fs)[j]? = some b →
  ¬ Blocked fs vs a.2.1 → Blocked fs vs b.2.1 → j < i

theorem toGV_not_nil : ∀ (v : DV) (t : Ty), isRollback (toGV v t) = false := by
  intro v t
  cases v <;> cases t <;> simp only [toGV, isRollback] <;> (try split) <;> simp [isRollback]

theorem sight_nil {fs : List EF} {vs : List EV} {a : Promoted} {g : FMeta × GV} (h : Sight fs vs a g) : isRollback g.2 = true ↔ Blocked fs vs a.2.1 := by
  rcases h.2 with ⟨b1, g1⟩ | ⟨b1, v1, r1, g1⟩
  · simp [g1, isRollback, b1]
  · simp [g1, toGV_not_nil, b1]

theorem sight_omit {fs : List EF} {vs : List EV} {a : Promoted} {g : FMeta × GV} (h : Sight fs vs a g) : ¬ LeftOut g := by
  intro ho
  rw [LeftOut, h.1] at ho
  simp at ho

theorem blockedFirst_iff {fs : List EF} {vs : List EV} {gs : List (FMeta × GV)} (h : Sees fs vs (promoted fs) gs) : BlockedFirst fs vs ↔ NilsFirst gs := by
  constructor
  · intro hb i j f g hf hg hm hbe
    obtain ⟨a, ha⟩ : ∃ a, (promoted fs)[i]? = some a := ⟨_, List.getElem?_eq_getElem (by rw [← h.1]; exact (List.getElem?_eq_some_iff.1 hf).1)⟩
    obtain ⟨b, hb'⟩ : ∃ a, (promoted fs)[j]? = some a := ⟨_, List.getElem?_eq_getElem (by rw [← h.1]; exact (List.getElem?_eq_some_iff.1 hg).1)⟩
    obtain ⟨f', e1, s1⟩ := h.2 i a ha
    obtain ⟨g', e2, s2⟩ := h.2 j b hb'
    rw [hf] at e1; injection e1 with e1; subst e1
    rw [hg] at e2; injection e2 with e2; subst e2
    exact hb i j a b ha hb' (fun hbl => by have := (sight_nil s1).2 hbl; rw [hm.2] at this; cases this) ((sight_nil s2).1 hbe.2)
  · intro hn i j a b ha hb hna hbb
    obtain ⟨f, e1, s1⟩ := h.2 i a ha
    obtain ⟨g, e2, s2⟩ := h.2 j b hb
    refine hn i j f g e1 e2 ⟨sight_omit s1, ?_⟩ ⟨sight_omit s2, (sight_nil s2).2 hbb⟩
    have := mt (sight_nil s1).1 hna
    simpa using this

theorem nils_split {gs : List (FMeta × GV)} (ho : ∀ g ∈ gs, ¬ LeftOut g) (h : NilsFirst gs) : ∃ ns rest, gs = ns ++ rest ∧ (∀ f ∈ ns, isRollback f.2 = true) ∧ notNil gs = rest := by
  induction gs with
  | nil => exact ⟨[], [], rfl, by simp, rfl⟩
  | cons g gs ih =>
    by_cases hg : isRollback g.2 = true
    · obtain ⟨ns, rest, e, h1, h2⟩ := ih (fun g hg => ho g (by simp [hg])) (nilsFirst_tail h)
      refine ⟨g :: ns, rest, by simp [e], ?_, by rw [notNil, List.filter_cons_of_neg (by simp [hg])]; exact h2⟩
      intro f hf
      simp only [List.mem_cons] at hf
      rcases hf with rfl | hf
      · exact hg
      · exact h1 f hf
    · refine ⟨[], g :: gs, rfl, by simp, ?_⟩
      rw [notNil, List.filter_eq_self]
      intro f hf
      obtain ⟨j, hj⟩ := List.getElem?_of_mem hf
      cases hr : isRollback f.2 with
      | false => rfl
      | true =>
        cases j with
        | zero => simp at hj; subst hj; exact absurd hr hg
        | succ j =>
          have := h 0 (j + 1) g f rfl hj ⟨ho g (by simp), by simpa using hg⟩ ⟨ho f hf, hr⟩
          omega

/-- **C74** (partial: fields behind nil pointers come first; the full statement is `C74_statement`) They are left out. Any colors, any layout unless
all fields are left out. -/
theorem C74_left_out_partial (fs : List EF) {vs : List EV} (hs : ShapeL fs vs) {gs : List (FMeta × GV)} (hg : Sees fs vs (promoted fs) gs) (hb : BlockedFirst fs vs)
    (c : Cfg) (hc : notNil gs ≠ [] ∨ c.ind = none) (b : Bytes) (n : Nat) :
    encodeStructE c (fieldsE fs) (memL vs) b n = enc c (.struct (notNil gs)) b n := by
  obtain ⟨gs', h1, h2⟩ := C74_seen fs hs
  rw [h2 c, sees_unique h1 hg]
  have ho : ∀ g ∈ gs, ¬ LeftOut g := by
    intro g hgm
    obtain ⟨i, hi⟩ := List.getElem?_of_mem hgm
    obtain ⟨a, ha⟩ : ∃ a, (promoted fs)[i]? = some a := ⟨_, List.getElem?_eq_getElem (by rw [← hg.1]; exact (List.getElem?_eq_some_iff.1 hi).1)⟩
    obtain ⟨g', e1, s1⟩ := hg.2 i a ha
    rw [hi] at e1; injection e1 with e1; subst e1
    exact sight_omit s1
  obtain ⟨ns, rest, rfl, h3, h4⟩ := nils_split ho ((blockedFirst_iff hg).1 hb)
  rw [h4] at hc ⊢
  exact struct_nils c h3 hc b n

/-- `struct { A bool; *Inner; D bool }`, `Inner` being `struct { B bool }`, with a nil pointer. -/
def strayTy : List EF := [.leaf (bs! "A") false .bool, .ptr false [.leaf (bs! "B") false .bool], .leaf (bs! "D") false .bool]
def strayVs : List EV := [.leaf (.bool true), .nil, .leaf (.bool true)]

/-- Otherwise there is a comma too many. -/
theorem C74_fails_comma : ¬ C74_statement ∧ marshalE strayTy (memL strayVs) = some (.ok (bs! "{\"A\":true,,\"D\":true}")) := by
  refine ⟨?_, by with_unfolding_all rfl⟩
  intro h
  have hs : ShapeL strayTy strayVs := by simp [strayTy, strayVs, ShapeL, Shape]
  have h := h strayTy strayVs _ {} [] 0 rfl hs (sees_fields hs)
  have e : notNil ((fieldsE strayTy).map fun f => (⟨f.sf.name, false⟩, f.codec.see (memL strayVs) f.off)) =
      [(⟨bs! "A", false⟩, .bool true), (⟨bs! "D", false⟩, .bool true)] := by with_unfolding_all rfl
  rw [e] at h
  have e1 : encodeStructE {} (fieldsE strayTy) (memL strayVs) [] 0 = .done (bs! "{\"A\":true,,\"D\":true}") 0 none := by with_unfolding_all rfl
  have e2 : enc {} (.struct [(⟨bs! "A", false⟩, .bool true), (⟨bs! "D", false⟩, .bool true)]) [] 0 = .done (bs! "{\"A\":true,\"D\":true}") 0 none := by decide +kernel
  exact absurd (e1.symm.trans (h.trans e2)) (by simp)

/-- **C74** For structs in general, with `omitempty`: if the values of the members are such that the encoder keeps its promises (C25),
then what is written is JSON exactly when the fields behind nil embedded pointers come before all members. -/
theorem C74_stray_iff {c : Cfg} (hc : c.clrs = none) (hw : WsLayout c) {gs : List (FMeta × GV)} (hm : ∀ g ∈ gs, Member g → Clean c g.2) {n : Nat} {out : Bytes} {d : Int}
    (h : enc c (.struct gs) [] n = .done out d none) : IsJson out ↔ NilsFirst gs := by
  constructor
  · intro hj
    refine Classical.byContradiction fun hn => ?_
    obtain ⟨pre, f, post, rfl, h1, h2, h3⟩ := first_stray (c := c) gs false hm (fun h => hn h.1)
    exact stray_text hc hw h1 (h3.resolve_left (by simp)) h2 h hj
  · intro hn
    have := C25_valid_json_partial (v := .struct gs) (show Clean c (.struct gs) from by
      simp only [Clean]; exact cleanF_of gs false hm hn (fun h => by cases h)) hc hw h
    obtain ⟨t, e, ht⟩ := this
    rw [e]; exact ht

/-- **C74** The same for a struct in memory. -/
theorem C74_json_iff (fs : List EF) {vs : List EV} (hs : ShapeL fs vs) {c : Cfg} (hc : c.clrs = none) (hw : WsLayout c)
    (hm : ∀ a ∈ promoted fs, ∀ v, Reads fs vs a.2.1 v → Clean c (toGV v a.2.2)) {n : Nat} {out : Bytes} {d : Int}
    (h : encodeStructE c (fieldsE fs) (memL vs) [] n = .done out d none) : IsJson out ↔ BlockedFirst fs vs := by
  obtain ⟨gs, h1, h2⟩ := C74_seen fs hs
  rw [h2 c] at h
  rw [blockedFirst_iff h1]
  refine C74_stray_iff hc hw ?_ h
  intro g hg hmem
  obtain ⟨i, hi⟩ := List.getElem?_of_mem hg
  obtain ⟨a, ha⟩ : ∃ a, (promoted fs)[i]? = some a := ⟨_, List.getElem?_eq_getElem (by rw [← h1.1]; exact (List.getElem?_eq_some_iff.1 hi).1)⟩
  obtain ⟨g', e1, s1⟩ := h1.2 i a ha
  rw [hi] at e1; injection e1 with e1; subst e1
  rcases s1.2 with ⟨_, e⟩ | ⟨_, v, hr, e⟩
  · have := hmem.2
    rw [e] at this
    simp [isRollback] at this
  · rw [e]
    exact hm a (List.mem_of_getElem? ha) v hr

/-- The values of the promoted fields of a zero struct. -/
theorem zero_views (fs : List EF) : Views fs (zeroVs fs) ((promoted fs).map fun a => zero a.2.2) := by
  refine ⟨by simp, ?_⟩
  rintro i ⟨nm, p, t⟩ ha
  obtain ⟨f, hf, _, _, hp⟩ := promoted_get ha
  exact ⟨zero t, by rw [List.getElem?_map, ha]; rfl, zero_reads hp.typeAt⟩

theorem clipL_get : ∀ (xs : List DV), clipL xs = xs.map clip
  | [] => rfl
  | x :: xs => by simp only [clipL, List.map_cons, clipL_get xs]

theorem zeroF_get : ∀ (ps : List Promoted), zeroF (ps.map fun a => (a.1, a.2.2)) = ps.map fun a => zero a.2.2
  | [] => rfl
  | a :: ps => by simp only [List.map_cons, zeroF, zeroF_get ps]

mutual
theorem shape_mem_inj : ∀ {f : EF} {v w : EV}, Shape f v → Shape f w → v.mem = w.mem → v = w
  | .skip _, .leaf v, .leaf w, _, _, e => by simpa [EV.mem] using e
  | .leaf _ _ _, .leaf v, .leaf w, _, _, e => by simpa [EV.mem] using e
  | .val fs, .val vs, .val ws, h1, h2, e => by
    simp only [Shape] at h1 h2
    simp only [EV.mem] at e
    rw [shapeL_mem_inj h1 h2 e]
  | .ptr _ _, .nil, .nil, _, _, _ => rfl
  | .ptr _ fs, .ptr vs, .ptr ws, h1, h2, e => by
    simp only [Shape] at h1 h2
    simp only [EV.mem, List.cons.injEq, Cell.ptr.injEq, and_true] at e
    rw [shapeL_mem_inj h1 h2 e]
  | .ptr _ _, .nil, .ptr _, _, _, e => by simp [EV.mem] at e
  | .ptr _ _, .ptr _, .nil, _, _, e => by simp [EV.mem] at e
theorem shapeL_mem_inj : ∀ {fs : List EF} {vs ws : List EV}, ShapeL fs vs → ShapeL fs ws → memL vs = memL ws → vs = ws
  | [], [], [], _, _, _ => rfl
  | f :: fs, v :: vs, w :: ws, h1, h2, e => by
    simp only [ShapeL] at h1 h2
    simp only [memL] at e
    obtain ⟨e1, e2⟩ := List.append_inj e (by rw [shape_len h1.1, shape_len h2.1])
    rw [shape_mem_inj h1.1 h2.1 e1, shapeL_mem_inj h1.2 h2.2 e2]
end

/-- **C74** (partial as C38, and no pointer is nil) What `Marshal` writes for a struct with embedded structs and pointers, `Unmarshal` brings back: in
a fresh struct, with all its embedded pointers nil, every promoted field gets the value it had (up to the memory beyond the length of
slices). `AllOpen`: embedded pointers are of exported types. -/
theorem C74_roundtrip_partial (dc : DCfg) (hl : LibOk dc.lib) (m : Nat) (fs : List EF) (ht : (flatTy fs).tree) {vs : List EV} {xs : List DV} (hs : ShapeL fs vs) (hv : Views fs vs xs)
    (hb : ∀ a ∈ promoted fs, ¬ Blocked fs vs a.2.1) (ho : AllOpen fs (zeroVs fs))
    (h : Spec.Seen dc (fun s => Coerced s s) (fun w => isNilDV w = false) (flatTy fs) (.struct xs) (toGV (.struct xs) (flatTy fs)))
    (c : Cfg) (hc : c.clrs = none) (hw : WsLayout c) (n : Nat) :
    ∃ out ws, encodeStructE c (fieldsE fs) (memL vs) [] n = .done out n none ∧ unmarshalE dc m fs out (memL (zeroVs fs)) = .done (memL ws) none ∧
      ShapeL fs ws ∧ Views fs ws (xs.map clip) ∧ GrowsL fs (zeroVs fs) ws := by
  obtain ⟨out, h1, h2⟩ := C38_roundtrip_partial c hc hw dc hl m n ht h
  have hz : zero (flatTy fs) = .struct ((promoted fs).map fun a => zero a.2.2) := by
    simp only [flatTy, zero, zeroF_get]
  rw [hz] at h2
  obtain ⟨ys, ws, e, h3, h4, h5⟩ := (C66_flat dc m fs out (zero_shapeL fs) (zero_views fs) ho).1 _ _ h2
  simp only [clip, DV.struct.injEq] at e
  subst e
  rw [clipL_get] at h5
  obtain ⟨ws', e', h6, h7⟩ := C66_grows dc m fs out (zero_shapeL fs) h3
  refine ⟨out, ws', by rw [C74_flat fs hs hv hb c]; exact h1, by rw [← e']; exact h3, h6, ?_, h7⟩
  have : ws = ws' := shapeL_mem_inj h4 h6 e'
  rw [← this]; exact h5

/-- all pointers set: the members are those of a flat struct, in the order of the paths, and come back -/
example :
    marshalE (sample false) (memL [.leaf (.bool true), .val [.leaf (.bool true), .leaf (.bool true)],
        .ptr [.leaf (.bool false), .ptr [.leaf (.bool true)], .leaf (.string [0x78])], .leaf (.bool false)]) =
      some (.ok (bs! "{\"A\":true,\"E\":true,\"B\":false,\"C\":true,\"D\":false}")) ∧
    unmarshalE { lib := noLib } 0 (sample false) (bs! "{\"A\":true,\"E\":true,\"B\":false,\"C\":true,\"D\":false}") (memL (zeroVs (sample false))) =
      .done (memL [.leaf (.bool true), .val [.leaf (.bool false), .leaf (.bool true)],
        .ptr [.leaf (.bool false), .ptr [.leaf (.bool true)], .leaf (.string [])], .leaf (.bool false)]) none :=
  ⟨by with_unfolding_all rfl, by with_unfolding_all rfl⟩

/-- `struct { *Inner; D bool }` with a nil pointer: nothing is left of it. -/
example : BlockedFirst (strayTy.drop 1) [.nil, .leaf (.bool true)] ∧
    marshalE (strayTy.drop 1) (memL [.nil, .leaf (.bool true)]) = some (.ok (bs! "{\"D\":true}")) := by
  refine ⟨?_, by with_unfolding_all rfl⟩
  have e : promoted (strayTy.drop 1) = [(bs! "B", [0, 0], .bool), (bs! "D", [1], .bool)] := by with_unfolding_all rfl
  intro i j a b ha hb hna hbb
  rw [e] at ha hb
  match i, j with
  | 0, _ => simp at ha; subst ha; exact absurd (.here _ _ 0 false [.leaf (bs! "B") false .bool] [0] rfl rfl) hna
  | 1, 0 => omega
  | 1, 1 =>
    simp at ha hb; subst ha
    rw [← hb] at hbb
    exact absurd hbb hna
  | 1, j + 2 => simp at hb
  | i + 2, _ => simp at ha

end JC.Props

import Verif.Spec.Embed
import Verif.Lemmas.Fields
/-!
Lemmas on embedded structs: memory, promoted fields and where they are.
-/
namespace JC
open Spec

/-! ### memory -/

mutual
theorem shape_len : ∀ {f : EF} {v : EV}, Shape f v → v.mem.length = f.cells.length
  | .skip _, .leaf _, _ => rfl
  | .leaf _ _ _, .leaf _, _ => rfl
  | .val fs, .val vs, h => by simpa only [EV.mem, EF.cells] using shapeL_len (fs := fs) (vs := vs) (by simpa only [Shape] using h)
  | .ptr _ _, .nil, _ => rfl
  | .ptr _ _, .ptr _, _ => rfl
  | .skip _, .val _, h | .skip _, .nil, h | .skip _, .ptr _, h => by simp [Shape] at h
  | .leaf _ _ _, .val _, h | .leaf _ _ _, .nil, h | .leaf _ _ _, .ptr _, h => by simp [Shape] at h
  | .val _, .leaf _, h | .val _, .nil, h | .val _, .ptr _, h => by simp [Shape] at h
  | .ptr _ _, .leaf _, h | .ptr _ _, .val _, h => by simp [Shape] at h
theorem shapeL_len : ∀ {fs : List EF} {vs : List EV}, ShapeL fs vs → (memL vs).length = (zeroCells fs).length
  | [], [], _ => rfl
  | f :: fs, v :: vs, h => by
    simp only [ShapeL] at h
    simp only [memL, zeroCells, List.length_append, shape_len h.1, shapeL_len h.2]
  | [], _ :: _, h => by simp [ShapeL] at h
  | _ :: _, [], h => by simp [ShapeL] at h
end

mutual
theorem zero_mem : ∀ f : EF, (zeroEV f).mem = f.cells
  | .skip _ => rfl
  | .leaf _ _ _ => rfl
  | .val fs => by simp only [zeroEV, EV.mem, EF.cells, zero_memL fs]
  | .ptr _ _ => rfl
theorem zero_memL : ∀ fs : List EF, memL (zeroVs fs) = zeroCells fs
  | [] => rfl
  | f :: fs => by simp only [zeroVs, memL, zeroCells, zero_mem f, zero_memL fs]
end

mutual
theorem zero_shape : ∀ f : EF, Shape f (zeroEV f)
  | .skip _ => trivial
  | .leaf _ _ _ => trivial
  | .val fs => by simpa only [zeroEV, Shape] using zero_shapeL fs
  | .ptr _ _ => trivial
theorem zero_shapeL : ∀ fs : List EF, ShapeL fs (zeroVs fs)
  | [] => trivial
  | f :: fs => ⟨zero_shape f, zero_shapeL fs⟩
end

theorem shapeL_get : ∀ {fs : List EF} {vs : List EV}, ShapeL fs vs → ∀ {i : Nat} {f : EF}, fs[i]? = some f → ∃ v, vs[i]? = some v ∧ Shape f v
  | f :: fs, v :: vs, h, 0, g, e => by
    simp only [ShapeL] at h
    simp only [List.getElem?_cons_zero, Option.some.injEq] at e
    subst e
    exact ⟨v, rfl, h.1⟩
  | f :: fs, v :: vs, h, i + 1, g, e => by
    simp only [ShapeL] at h
    simp only [List.getElem?_cons_succ] at e ⊢
    exact shapeL_get h.2 e
  | [], _, _, _, _, e => by simp at e
  | _ :: _, [], h, _, _, _ => by simp [ShapeL] at h

theorem shapeL_set : ∀ {fs : List EF} {vs : List EV}, ShapeL fs vs → ∀ {i : Nat} {f : EF} {v : EV}, fs[i]? = some f → Shape f v → ShapeL fs (vs.set i v)
  | f :: fs, v :: vs, h, 0, g, w, e, hw => by
    simp only [ShapeL] at h
    simp only [List.getElem?_cons_zero, Option.some.injEq] at e
    subst e
    exact ⟨hw, h.2⟩
  | f :: fs, v :: vs, h, i + 1, g, w, e, hw => by
    simp only [ShapeL] at h
    simp only [List.getElem?_cons_succ] at e
    exact ⟨h.1, shapeL_set h.2 e hw⟩
  | [], _, _, _, _, _, e, _ => by simp at e
  | _ :: _, [], h, _, _, _, _, _ => by simp [ShapeL] at h

/-- the offset of a field -/
def offOf (fs : List EF) (i : Nat) : Nat := (zeroCells (fs.take i)).length

/-- the memory of a struct around one of its fields -/
theorem mem_split : ∀ {fs : List EF} {vs : List EV}, ShapeL fs vs → ∀ {i : Nat} {v : EV}, vs[i]? = some v →
    ∃ a z, a.length = offOf fs i ∧ memL vs = a ++ (v.mem ++ z) ∧ ∀ w, memL (vs.set i w) = a ++ (w.mem ++ z)
  | f :: fs, u :: vs, h, 0, v, e => by
    simp only [List.getElem?_cons_zero, Option.some.injEq] at e
    subst e
    exact ⟨[], memL vs, rfl, by simp [memL], fun w => by simp [memL]⟩
  | f :: fs, u :: vs, h, i + 1, v, e => by
    simp only [ShapeL] at h
    simp only [List.getElem?_cons_succ] at e
    obtain ⟨a, z, h1, h2, h3⟩ := mem_split h.2 e
    refine ⟨u.mem ++ a, z, ?_, by simp [memL, h2], fun w => by simp [memL, h3 w]⟩
    simp only [offOf, List.take_succ_cons, zeroCells, List.length_append, shape_len h.1, h1]
  | [], _ :: _, h, _, _, _ => by simp [ShapeL] at h
  | _, [], _, _, _, e => by simp at e

/-! ### where a promoted field is -/

/-- `Place fs o cd p t`: the field at path `p`, of type `t`, is found at offset `o` with codec `cd`. -/
inductive Place : List EF → Nat → ECodec → List Nat → Ty → Prop
  | leaf (fs : List EF) (i : Nat) (name : Bytes) (isTag : Bool) (t : Ty) : fs[i]? = some (.leaf name isTag t) → Place fs (offOf fs i) (.plain t) [i] t
  | val (fs : List EF) (i : Nat) (sub : List EF) (o : Nat) (cd : ECodec) (p : List Nat) (t : Ty) : fs[i]? = some (.val sub) →
      Place sub o cd p t → Place fs (o + offOf fs i) cd (i :: p) t
  | ptr (fs : List EF) (i : Nat) (u : Bool) (sub : List EF) (o : Nat) (cd : ECodec) (p : List Nat) (t : Ty) : fs[i]? = some (.ptr u sub) →
      Place sub o cd p t → Place fs (offOf fs i) (.embPtr (zeroCells sub) u o cd) (i :: p) t

theorem Place.typeAt {fs : List EF} {o : Nat} {cd : ECodec} {p : List Nat} {t : Ty} (h : Place fs o cd p t) : TypeAt fs p t := by
  induction h with
  | leaf fs i nm g t h => exact .leaf fs i nm g t h
  | val fs i sub o cd p t h _ ih => exact .val fs i sub p t h ih
  | ptr fs i u sub o cd p t h _ ih => exact .ptr fs i u sub p t h ih

/-- a field is inside the struct -/
theorem Place.lt {fs : List EF} {o : Nat} {cd : ECodec} {p : List Nat} {t : Ty} (h : Place fs o cd p t) : o < (zeroCells fs).length := by
  have key : ∀ (fs : List EF) (i : Nat) (f : EF) (o : Nat), fs[i]? = some f → o < f.cells.length → o + offOf fs i < (zeroCells fs).length := by
    intro fs
    induction fs with
    | nil => intro i f o h; simp at h
    | cons g fs ih =>
      intro i f o h ho
      cases i with
      | zero =>
        simp only [List.getElem?_cons_zero, Option.some.injEq] at h
        subst h
        simp [offOf, zeroCells]; omega
      | succ i =>
        simp only [List.getElem?_cons_succ] at h
        have := ih i f o h ho
        simp only [offOf, List.take_succ_cons, zeroCells, List.length_append] at this ⊢
        omega
  induction h with
  | leaf fs i nm g t h => simpa using key fs i _ 0 h (by simp [EF.cells])
  | val fs i sub o cd p t h _ ih => exact key fs i _ o h (by simpa [EF.cells] using ih)
  | ptr fs i u sub o cd p t h _ ih => simpa using key fs i _ 0 h (by simp [EF.cells])

/-! ### the promoted fields -/

/-- the entry without offsets and codecs -/
def EEntry.base : EEntry → FEntry
  | .skip => .skip
  | .direct n g _ _ => .direct n g
  | .embed _ subs => .embed (subs.map (·.sf))
  | .embedPtr _ _ _ subs => .embed (subs.map (·.sf))

theorem directsE_sf : ∀ (i : Nat) (es : List EEntry), (directsE i es).map (·.sf) = directs i (es.map EEntry.base)
  | _, [] => rfl
  | i, .skip :: es => by simp [directsE, directs, EEntry.base, directsE_sf]
  | i, .direct n g o t :: es => by simp [directsE, directs, EEntry.base, directsE_sf]
  | i, .embed o subs :: es => by simp [directsE, directs, EEntry.base, directsE_sf]
  | i, .embedPtr o b u subs :: es => by simp [directsE, directs, EEntry.base, directsE_sf]

theorem embeddedOfE_sf {i : Nat} {place : EField → Nat × ECodec} : ∀ (j : Nat) (ss : List EField),
    (embeddedOfE i j place ss).map (·.sf) = embeddedOf i j (ss.map (·.sf))
  | _, [] => rfl
  | j, s :: ss => by simp [embeddedOfE, embeddedOf, embeddedOfE_sf (j + 1) ss]

theorem embeddedsE_sf : ∀ (i : Nat) (es : List EEntry), (embeddedsE i es).map (·.sf) = embeddeds i (es.map EEntry.base)
  | _, [] => rfl
  | i, .skip :: es => by simp [embeddedsE, embeddeds, EEntry.base, embeddedsE_sf]
  | i, .direct n g o t :: es => by simp [embeddedsE, embeddeds, EEntry.base, embeddedsE_sf]
  | i, .embed o subs :: es => by simp [embeddedsE, embeddeds, EEntry.base, embeddedsE_sf, embeddedOfE_sf]
  | i, .embedPtr o b u subs :: es => by simp [embeddedsE, embeddeds, EEntry.base, embeddedsE_sf, embeddedOfE_sf]

theorem insertFieldE_sf (s : EField) : ∀ l, (insertFieldE s l).map (·.sf) = insertField s.sf (l.map (·.sf))
  | [] => rfl
  | t :: l => by
    simp only [insertFieldE, List.map_cons, insertField]
    split
    · simp
    · simp [insertFieldE_sf s l]

theorem sortFieldsE_sf : ∀ l, (sortFieldsE l).map (·.sf) = sortFields (l.map (·.sf))
  | [] => rfl
  | s :: l => by simp only [sortFieldsE, insertFieldE_sf, sortFieldsE_sf l, List.map_cons, sortFields]

/-- offsets and codecs do not matter for the choice of the fields -/
theorem resolveE_sf (es : List EEntry) : (resolveE es).map (·.sf) = resolve (es.map EEntry.base) := by
  simp only [resolveE, resolve, sortFieldsE_sf, List.map_append, directsE_sf, List.map_map, ← embeddedsE_sf]
  congr 2
  have hn : (directsE 0 es).map (fun s => s.sf.name) = (directs 0 (es.map EEntry.base)).map (·.name) := by
    rw [← directsE_sf, List.map_map]; rfl
  rw [hn, List.filter_map, List.map_map]
  rfl

theorem insertFieldE_perm (s : EField) : ∀ l, (insertFieldE s l).Perm (s :: l)
  | [] => List.Perm.refl _
  | t :: l => by
    unfold insertFieldE
    split
    · exact List.Perm.refl _
    · exact ((insertFieldE_perm s l).cons t).trans (List.Perm.swap s t l)

theorem sortFieldsE_perm : ∀ l, (sortFieldsE l).Perm l
  | [] => List.Perm.refl _
  | s :: l => (insertFieldE_perm s _).trans ((sortFieldsE_perm l).cons s)

theorem mem_resolveE {es : List EEntry} {f : EField} (h : f ∈ resolveE es) :
    f ∈ directsE 0 es ∨ ∃ g ∈ embeddedsE 0 es, f = { g with sf := { g.sf with tag := false } } := by
  have := (sortFieldsE_perm _).mem_iff.1 h
  rw [List.mem_append] at this
  rcases this with h | h
  · exact .inl h
  · obtain ⟨g, hg, rfl⟩ := List.mem_map.1 h
    exact .inr ⟨g, (List.mem_filter.1 hg).1, rfl⟩

theorem mem_embeddedOfE {i : Nat} {place : EField → Nat × ECodec} : ∀ {j : Nat} {ss : List EField} {f : EField}, f ∈ embeddedOfE i j place ss →
    ∃ s ∈ ss, f.sf.path = i :: s.sf.path ∧ f.off = (place s).1 ∧ f.codec = (place s).2
  | _, [], _, h => by simp [embeddedOfE] at h
  | j, s :: ss, f, h => by
    simp only [embeddedOfE, List.mem_cons] at h
    rcases h with rfl | h
    · exact ⟨s, by simp, rfl, rfl, rfl⟩
    · obtain ⟨s', hs, h⟩ := mem_embeddedOfE h
      exact ⟨s', by simp [hs], h⟩

/-- what a direct or embedded field comes from -/
def Comes (k : Nat) (es : List EEntry) (f : EField) : Prop :=
    ∃ i : Nat, (∃ n g o t, es[i]? = some (.direct n g o t) ∧ f.sf.path = [k + i] ∧ f.off = o ∧ f.codec = .plain t) ∨
      (∃ o subs s, es[i]? = some (.embed o subs) ∧ s ∈ subs ∧ f.sf.path = (k + i) :: s.sf.path ∧ f.off = s.off + o ∧ f.codec = s.codec) ∨
      (∃ o b u subs s, es[i]? = some (.embedPtr o b u subs) ∧ s ∈ subs ∧ f.sf.path = (k + i) :: s.sf.path ∧ f.off = o ∧
        f.codec = .embPtr b u s.off s.codec)

theorem mem_entriesE {k : Nat} : ∀ {es : List EEntry} {f : EField}, f ∈ directsE k es ∨ f ∈ embeddedsE k es → Comes k es f := by
  intro es
  induction es generalizing k with
  | nil => intro f h; simp [directsE, embeddedsE] at h
  | cons e es ih =>
    intro f h
    have later : f ∈ directsE (k + 1) es ∨ f ∈ embeddedsE (k + 1) es → Comes k (e :: es) f := fun h => by
      obtain ⟨i, h⟩ := ih h
      refine ⟨i + 1, ?_⟩
      simp only [List.getElem?_cons_succ, show k + (i + 1) = k + 1 + i by omega]
      exact h
    cases e with
    | skip => exact later (by simpa [directsE, embeddedsE] using h)
    | direct n g o t =>
      simp only [directsE, embeddedsE, List.mem_cons] at h
      rcases h with (rfl | h) | h
      · exact ⟨0, .inl ⟨n, g, o, t, rfl, rfl, rfl, rfl⟩⟩
      · exact later (.inl h)
      · exact later (.inr h)
    | embed o subs =>
      simp only [directsE, embeddedsE, List.mem_append] at h
      rcases h with h | h | h
      · exact later (.inl h)
      · obtain ⟨s, hs, h1, h2, h3⟩ := mem_embeddedOfE h
        exact ⟨0, .inr (.inl ⟨o, subs, s, rfl, hs, h1, h2, h3⟩)⟩
      · exact later (.inr h)
    | embedPtr o b u subs =>
      simp only [directsE, embeddedsE, List.mem_append] at h
      rcases h with h | h | h
      · exact later (.inl h)
      · obtain ⟨s, hs, h1, h2, h3⟩ := mem_embeddedOfE h
        exact ⟨0, .inr (.inr ⟨o, b, u, subs, s, rfl, hs, h1, h2, h3⟩)⟩
      · exact later (.inr h)

theorem entriesE_get : ∀ {fs : List EF} {o i : Nat}, (entriesE o fs)[i]? = fs[i]?.map fun f => entryE (o + offOf fs i) f
  | [], _, _ => by simp [entriesE]
  | f :: fs, o, 0 => by simp [entriesE, offOf, zeroCells]
  | f :: fs, o, i + 1 => by
    simp only [entriesE, List.getElem?_cons_succ, entriesE_get (fs := fs), offOf, List.take_succ_cons, zeroCells, List.length_append]
    congr 1
    funext g
    congr 1
    omega

/-- every field of the list is where its path says -/
def Located (fs : List EF) (l : List EField) : Prop := ∀ f ∈ l, ∃ t, Place fs f.off f.codec f.sf.path t

theorem located_of {fs : List EF} (h : ∀ (i : Nat) (sub : List EF), fs[i]? = some (.val sub) ∨ (∃ u, fs[i]? = some (.ptr u sub)) → Located sub (fieldsE sub)) :
    Located fs (fieldsE fs) := by
  intro f hf
  have core : ∀ g : EField, g ∈ directsE 0 (entriesE 0 fs) ∨ g ∈ embeddedsE 0 (entriesE 0 fs) → ∃ t, Place fs g.off g.codec g.sf.path t := by
    intro g hg
    obtain ⟨i, hg⟩ := mem_entriesE hg
    simp only [Nat.zero_add, entriesE_get] at hg
    cases hi : fs[i]? with
    | none => simp [hi] at hg
    | some x =>
      simp only [hi, Option.map_some, Option.some.injEq] at hg
      cases x with
      | skip t => simp [entryE] at hg
      | leaf n gg t =>
        simp only [entryE, EEntry.direct.injEq, reduceCtorEq, false_and, exists_false, or_false] at hg
        obtain ⟨_, _, _, _, ⟨rfl, rfl, rfl, rfl⟩, h2, h3, h4⟩ := hg
        rw [h2, h3, h4]
        exact ⟨t, .leaf fs i n gg t hi⟩
      | val sub =>
        simp only [entryE, EEntry.embed.injEq, reduceCtorEq, false_and, exists_false, or_false, false_or] at hg
        obtain ⟨_, _, s, ⟨rfl, rfl⟩, hs, h2, h3, h4⟩ := hg
        obtain ⟨t, ht⟩ := h i sub (.inl hi) s hs
        rw [h2, h3, h4]
        exact ⟨t, .val fs i sub _ _ _ t hi ht⟩
      | ptr u sub =>
        simp only [entryE, EEntry.embedPtr.injEq, reduceCtorEq, false_and, exists_false, false_or] at hg
        obtain ⟨_, _, _, _, s, ⟨rfl, rfl, rfl, rfl⟩, hs, h2, h3, h4⟩ := hg
        obtain ⟨t, ht⟩ := h i sub (.inr ⟨_, hi⟩) s hs
        rw [h2, h3, h4]
        exact ⟨t, .ptr fs i _ sub _ _ _ t hi ht⟩
  rcases mem_resolveE hf with h | ⟨g, hg, rfl⟩
  · exact core f (.inl h)
  · exact core g (.inr hg)

mutual
theorem ef_located : ∀ (f : EF) (sub : List EF), f = .val sub ∨ (∃ u, f = .ptr u sub) → Located sub (fieldsE sub)
  | .skip _, sub, h => by simp at h
  | .leaf _ _ _, sub, h => by simp at h
  | .val fs, sub, h => by
    have e : fs = sub := by simpa using h
    subst e
    exact located_of fun i s hs => fs_located fs i s hs
  | .ptr u fs, sub, h => by
    have e : fs = sub := by simpa using h
    subst e
    exact located_of fun i s hs => fs_located fs i s hs
theorem fs_located : ∀ (fs : List EF) (i : Nat) (sub : List EF), fs[i]? = some (.val sub) ∨ (∃ u, fs[i]? = some (.ptr u sub)) → Located sub (fieldsE sub)
  | [], _, _, h => by simp at h
  | f :: fs, 0, sub, h => ef_located f sub (by simpa using h)
  | f :: fs, i + 1, sub, h => fs_located fs i sub (by simpa using h)
end

/-- **the offsets and codecs of all promoted fields are right** -/
theorem fieldsE_located (fs : List EF) : Located fs (fieldsE fs) := located_of (fs_located fs)

theorem subs_order {fs : List EF} (h : ∀ (i : Nat) (sub : List EF), fs[i]? = some (.val sub) ∨ (∃ u, fs[i]? = some (.ptr u sub)) →
    InOrder ((fieldsE sub).map EField.sf)) (o : Nat) : SubsOrder ((entriesE o fs).map EEntry.base) := by
  intro subs hs
  obtain ⟨e, he, hb⟩ := List.mem_map.1 hs
  obtain ⟨i, hi⟩ := List.getElem?_of_mem he
  rw [entriesE_get] at hi
  cases hx : fs[i]? with
  | none => simp [hx] at hi
  | some x =>
    simp only [hx, Option.map_some, Option.some.injEq] at hi
    subst hi
    cases x with
    | skip t => simp [entryE, EEntry.base] at hb
    | leaf n g t => simp [entryE, EEntry.base] at hb
    | val sub =>
      simp only [entryE, EEntry.base, FEntry.embed.injEq] at hb
      rw [← hb]; exact h i sub (.inl hx)
    | ptr u sub =>
      simp only [entryE, EEntry.base, FEntry.embed.injEq] at hb
      rw [← hb]; exact h i sub (.inr ⟨u, hx⟩)

theorem order_of {fs : List EF} (h : ∀ (i : Nat) (sub : List EF), fs[i]? = some (.val sub) ∨ (∃ u, fs[i]? = some (.ptr u sub)) →
    InOrder ((fieldsE sub).map EField.sf)) : InOrder ((fieldsE fs).map EField.sf) := by
  rw [fieldsE, resolveE_sf]
  exact resolve_inOrder (subs_order h 0)

mutual
theorem ef_order : ∀ (f : EF) (sub : List EF), f = .val sub ∨ (∃ u, f = .ptr u sub) → InOrder ((fieldsE sub).map EField.sf)
  | .skip _, sub, h => by simp at h
  | .leaf _ _ _, sub, h => by simp at h
  | .val fs, sub, h => by
    have e : fs = sub := by simpa using h
    subst e
    exact order_of fun i s hs => fs_order fs i s hs
  | .ptr u fs, sub, h => by
    have e : fs = sub := by simpa using h
    subst e
    exact order_of fun i s hs => fs_order fs i s hs
theorem fs_order : ∀ (fs : List EF) (i : Nat) (sub : List EF), fs[i]? = some (.val sub) ∨ (∃ u, fs[i]? = some (.ptr u sub)) →
    InOrder ((fieldsE sub).map EField.sf)
  | [], _, _, h => by simp at h
  | f :: fs, 0, sub, h => ef_order f sub (by simpa using h)
  | f :: fs, i + 1, sub, h => fs_order fs i sub (by simpa using h)
end

/-- no field is promoted twice -/
theorem fieldsE_nodup (fs : List EF) : ((fieldsE fs).map (·.sf.path)).Nodup := by
  have := (order_of (fs_order fs)).nodup
  rw [List.map_map] at this
  exact this

end JC

import Verif.Lemmas.RunEmbed
/-!
Lemmas for C85: decoding into a struct with embedded parts against decoding into a flat one.
-/
namespace JC
open Spec Props

theorem fields_setField (p : DV) (i : Nat) (x : DV) : (p.setField i x).fields = p.fields.set i x := rfl

theorem field_setField_same {p : DV} {i : Nat} (h : i < p.fields.length) (x : DV) : (p.setField i x).field i = x := by
  simp [DV.field, fields_setField, List.getD, h]

theorem field_setField_ne {i j : Nat} (h : i ≠ j) (p x : DV) : (p.setField i x).field j = p.field j := by
  simp [DV.field, fields_setField, List.getD, List.getElem?_set_ne h]

/-- The field number of a step. -/
def Spec.Hop.num : Hop → Nat
  | .struct i => i
  | .ptr i _ _ => i

/-- Two ways that part. -/
def ApartW : List Hop → Nat → List Hop → Nat → Prop
  | [], i, [], j => i ≠ j
  | [], i, h :: _, _ => i ≠ h.num
  | h :: _, _, [], j => h.num ≠ j
  | h :: hs, i, h' :: hs', j => h.num ≠ h'.num ∨ h = h' ∧ ApartW hs i hs' j

variable {zs : Nat → DV}

theorem look_store_same : ∀ (hs : List Hop) (i : Nat) (x v : DV), HasField zs hs i v →
    look zs hs i (store zs hs i x v) = x ∧ HasField zs hs i (store zs hs i x v) ∧ (barred zs hs v = false → barred zs hs (store zs hs i x v) = false)
  | [], i, x, v, h => by
    refine ⟨field_setField_same h x, ?_, fun _ => rfl⟩
    simpa [HasField, store, fields_setField] using h
  | .struct j :: hs, i, x, v, h => by
    obtain ⟨h1, h2, h3⟩ := look_store_same hs i x _ h.2
    simp only [look, store, HasField, barred, field_setField_same h.1, fields_setField, List.length_set]
    exact ⟨h1, ⟨h.1, h2⟩, h3⟩
  | .ptr j u id :: hs, i, x, v, h => by
    obtain ⟨h1, h2, h3⟩ := look_store_same hs i x _ h.2
    simp only [look, store, HasField, barred, field_setField_same h.1, fields_setField, List.length_set]
    refine ⟨h1, ⟨h.1, h2⟩, ?_⟩
    intro hb
    apply h3
    cases hv : v.field j <;> simp only [hv, Bool.or_eq_false_iff] at hb ⊢
    all_goals first | exact hb.2 | exact hb

theorem look_store_apart : ∀ (hs : List Hop) (i : Nat) (hs' : List Hop) (i' : Nat) (x v : DV), ApartW hs i hs' i' → HasField zs hs i v → HasField zs hs' i' v →
    look zs hs' i' (store zs hs i x v) = look zs hs' i' v ∧ HasField zs hs' i' (store zs hs i x v) ∧ (barred zs hs' v = false → barred zs hs' (store zs hs i x v) = false)
  | hs, i, [], i', x, v, ha, h, h' => by
    have hne : ∃ j y, store zs hs i x v = v.setField j y ∧ j ≠ i' := by
      match hs, ha with
      | [], ha => exact ⟨i, x, rfl, ha⟩
      | .struct j :: hs, ha => exact ⟨j, _, rfl, ha⟩
      | .ptr j u id :: hs, ha => exact ⟨j, _, rfl, ha⟩
    obtain ⟨j, y, e, hne⟩ := hne
    rw [e]
    refine ⟨field_setField_ne hne _ _, ?_, fun _ => rfl⟩
    simpa [HasField, fields_setField] using h'
  | hs, i, h0 :: hs', i', x, v, ha, h, h' => by
    by_cases hd : ∃ j y, store zs hs i x v = v.setField j y ∧ j ≠ h0.num
    · obtain ⟨j, y, e, hne⟩ := hd
      rw [e]
      cases h0 with
      | struct k =>
        have hne' : j ≠ k := hne
        simp only [look, HasField, barred, field_setField_ne hne', fields_setField, List.length_set]
        exact ⟨trivial, h', fun h => h⟩
      | ptr k u id =>
        have hne' : j ≠ k := hne
        simp only [look, HasField, barred, field_setField_ne hne', fields_setField, List.length_set]
        exact ⟨trivial, h', fun h => h⟩
    · match hs, ha, h, hd with
      | [], ha, h, hd => exact absurd ⟨i, x, rfl, ha⟩ hd
      | .struct j :: hs, ha, h, hd =>
        rcases ha with ha | ⟨rfl, hap⟩
        · exact absurd ⟨j, _, rfl, ha⟩ hd
        obtain ⟨h1, h2, h3⟩ := look_store_apart hs i hs' i' x _ hap h.2 h'.2
        simp only [look, store, HasField, barred, field_setField_same h.1, fields_setField, List.length_set]
        exact ⟨h1, ⟨h.1, h2⟩, h3⟩
      | .ptr j u id :: hs, ha, h, hd =>
        rcases ha with ha | ⟨rfl, hap⟩
        · exact absurd ⟨j, _, rfl, ha⟩ hd
        obtain ⟨h1, h2, h3⟩ := look_store_apart hs i hs' i' x _ hap h.2 h'.2
        simp only [look, store, HasField, barred, field_setField_same h.1, fields_setField, List.length_set]
        refine ⟨h1, ⟨h.1, h2⟩, ?_⟩
        intro hb
        apply h3
        cases hv : v.field j <;> simp only [hv, Bool.or_eq_false_iff] at hb ⊢
        all_goals first | exact hb.2 | exact hb

/-- different paths part -/
theorem place_apart {env : PEnv} {id : Nat} {p : List Nat} {k : Nat} {f : PField} {via : List Bool} (h : Reaches env id p k f via) :
    ∀ {p' : List Nat} {k' : Nat} {f' : PField} {via' : List Bool}, Reaches env id p' k' f' via' → p ≠ p' → ∀ {q q' : Place},
      place env id p = some q → place env id p' = some q' → ApartW q.way q.idx q'.way q'.idx := by
  have hplace : ∀ {id i : Nat} {f : PField} {id' : Nat} {ptr : Bool} {p : List Nat} {q : Place}, p ≠ [] → (env id).fields[i]? = some f → embeds f = some (id', ptr) →
      place env id (i :: p) = some q → ∃ q0, place env id' p = some q0 ∧ q = { q0 with way := (if ptr then .ptr i f.unexported id' else .struct i) :: q0.way } := by
    intro id i f id' ptr p q hne hf he hq
    cases p with
    | nil => exact absurd rfl hne
    | cons j p =>
      simp only [place, hf, he, Option.map_eq_some_iff] at hq
      obtain ⟨q0, h1, h2⟩ := hq
      exact ⟨q0, h1, h2.symm⟩
  have hnum : ∀ (ptr : Bool) (i : Nat) (u : Bool) (id : Nat), (if ptr then Hop.ptr i u id else Hop.struct i).num = i := by intro ptr; cases ptr <;> intros <;> rfl
  induction h with
  | here id i f hf hs he =>
    intro p' k' f' via' h' hne q q' hq hq'
    simp only [place, hf, Option.map_some, Option.some.injEq] at hq
    subst hq
    cases h' with
    | here _ j f' hf' hs' he' =>
      simp only [place, hf', Option.map_some, Option.some.injEq] at hq'
      subst hq'
      simpa [ApartW] using hne
    | there _ j f' id' ptr p' _ _ _ hf' hs' he' hr' =>
      obtain ⟨q0, h1, rfl⟩ := hplace (reaches_ne hr') hf' he' hq'
      simp only [ApartW, hnum]
      rintro rfl
      rw [hf] at hf'
      cases hf'
      rw [he] at he'; cases he'
  | there id i f id' ptr p k g via hf hs he hr ih =>
    intro p' k' f' via' h' hne q q' hq hq'
    obtain ⟨q0, h1, rfl⟩ := hplace (reaches_ne hr) hf he hq
    cases h' with
    | here _ j f' hf' hs' he' =>
      simp only [place, hf', Option.map_some, Option.some.injEq] at hq'
      subst hq'
      simp only [ApartW, hnum]
      rintro rfl
      rw [hf] at hf'
      cases hf'
      rw [he] at he'; cases he'
    | there _ j f' id'' ptr' p' _ _ _ hf' hs' he' hr' =>
      obtain ⟨q0', h1', rfl⟩ := hplace (reaches_ne hr') hf' he' hq'
      simp only [ApartW, hnum]
      by_cases hij : i = j
      · subst hij
        rw [hf] at hf'
        cases hf'
        rw [he] at he'
        cases he'
        exact .inr ⟨rfl, ih hr' (fun e => hne (by rw [e])) h1 h1'⟩
      · exact .inl hij

/-! ### The loops -/

/-- The fields of a struct, and what is known of the variable. -/
structure PromFlat (zs : Nat → DV) (qs : List Place) (v : DV) : Prop where
  apart : ∀ (i j : Nat) (q q' : Place), i ≠ j → qs[i]? = some q → qs[j]? = some q' → ApartW q.way q.idx q'.way q'.idx
  fits : ∀ q ∈ qs, HasField zs q.way q.idx v
  free : ∀ q ∈ qs, barred zs q.way v = false

/-- What the fields hold. -/
def flatten (zs : Nat → DV) (qs : List Place) (v : DV) : List DV := qs.map fun q => look zs q.way q.idx v

theorem PromFlat.store {qs : List Place} {v : DV} (h : PromFlat zs qs v) {i : Nat} {q : Place} (hq : qs[i]? = some q) (x : DV) :
    PromFlat zs qs (store zs q.way q.idx x v) ∧ flatten zs qs (Spec.store zs q.way q.idx x v) = (flatten zs qs v).set i x := by
  have key : ∀ j q', qs[j]? = some q' → HasField zs q'.way q'.idx (Spec.store zs q.way q.idx x v) ∧ barred zs q'.way (Spec.store zs q.way q.idx x v) = false ∧
      look zs q'.way q'.idx (Spec.store zs q.way q.idx x v) = if i = j then x else look zs q'.way q'.idx v := by
    intro j q' hq'
    by_cases hij : i = j
    · subst hij
      rw [hq] at hq'; cases hq'
      obtain ⟨h1, h2, h3⟩ := look_store_same q.way q.idx x v (h.fits q (List.mem_of_getElem? hq))
      exact ⟨h2, h3 (h.free q (List.mem_of_getElem? hq)), by simp [h1]⟩
    · obtain ⟨h1, h2, h3⟩ := look_store_apart q.way q.idx q'.way q'.idx x v (h.apart i j q q' hij hq hq') (h.fits q (List.mem_of_getElem? hq)) (h.fits q' (List.mem_of_getElem? hq'))
      exact ⟨h2, h3 (h.free q' (List.mem_of_getElem? hq')), by simp [h1, hij]⟩
  refine ⟨⟨h.apart, ?_, ?_⟩, ?_⟩
  · intro q' hm
    obtain ⟨j, hj⟩ := List.getElem?_of_mem hm
    exact (key j q' hj).1
  · intro q' hm
    obtain ⟨j, hj⟩ := List.getElem?_of_mem hm
    exact (key j q' hj).2.1
  · apply List.ext_getElem?
    intro j
    simp only [flatten, List.getElem?_map, List.getElem?_set, List.length_map]
    cases hj : qs[j]? with
    | none =>
      have : ¬ (i = j) := by rintro rfl; rw [hq] at hj; cases hj
      simp [this]
    | some q' =>
      have hlt : j < qs.length := by
        rw [List.getElem?_eq_some_iff] at hj; exact hj.1
      simp only [Option.map_some, (key j q' hj).2.2]
      by_cases hij : i = j
      · subst hij; simp [hlt]
      · simp [hij]

/-- The same result for a struct with embedded parts and for a flat one. -/
inductive SameFlat (zs : Nat → DV) (qs : List Place) : DRes → DRes → Prop
  | ok (v : DV) (r : Bytes) : PromFlat zs qs v → SameFlat zs qs (.ok v r) (.ok (.struct (flatten zs qs v)) r)
  | err (v : DV) (r : Bytes) (e : Err) : PromFlat zs qs v → SameFlat zs qs (.err v r e) (.err (.struct (flatten zs qs v)) r e)
  | crash (x : Crash) : SameFlat zs qs (.crash x) (.crash x)

variable {c : DCfg} {names : List Bytes} {decs : Place → Dec} {qs : List Place}

theorem structLoopV_flat {input : Bytes} : ∀ (n : Nat) (first : Bool) (v : DV) (b : Bytes), PromFlat zs qs v →
    SameFlat zs qs (structLoopV c names (qs.map fun q => intoPlace zs q (decs q)) input n first v b)
      (structLoopD c names (qs.map decs) input n first (flatten zs qs v) b)
  | 0, _, _, _, _ => .crash _
  | n + 1, first, v, b, h => by
    rw [structLoopV, structLoopD]
    simp only []
    split
    · exact .ok _ _ h
    · generalize memberKey _ first (skipSpaces b) = mk
      rcases mk with x | ⟨r, e⟩ | ⟨kv, b'⟩
      · exact .crash _
      · exact .err _ _ _ h
      · simp only []
        generalize pickField c names _ = pf
        cases pf with
        | none =>
          simp only []
          split
          · exact .err _ _ _ h
          · generalize parseValue b' = pv
            cases pv with
            | fail r e => exact .err _ _ _ h
            | ok x r => exact structLoopV_flat n false v _ h
        | some i =>
          simp only [List.getElem?_map]
          cases hq : qs[i]? with
          | none => exact .crash _
          | some q =>
            simp only [Option.map_some, intoPlace, h.free q (List.mem_of_getElem? hq), Bool.false_eq_true, if_false]
            have hg : (flatten zs qs v).getD i (.user none) = look zs q.way q.idx v := by
              simp [flatten, List.getD, hq]
            rw [hg]
            cases decs q _ (look zs q.way q.idx v) with
            | crash x => exact .crash _
            | err x r e =>
              obtain ⟨h1, h2⟩ := h.store hq x
              simp only [DRes.map, ← h2]
              cases parseValue input with
              | fail r e => exact .err _ _ _ h1
              | ok x r => exact .err _ _ _ h1
            | ok x r =>
              obtain ⟨h1, h2⟩ := h.store hq x
              simp only [DRes.map, ← h2]
              exact structLoopV_flat n false _ _ h1

theorem flat_struct {v : DV} (h : PromFlat zs qs v) (hne : qs ≠ []) : v = .struct v.fields := by
  cases qs with
  | nil => exact absurd rfl hne
  | cons q qs =>
    have := h.fits q (by simp)
    have hl : ∃ j, j < v.fields.length := by
      revert this
      match q.way with
      | [] => intro h; exact ⟨_, h⟩
      | .struct j :: _ => intro h; exact ⟨_, h.1⟩
      | .ptr j _ _ :: _ => intro h; exact ⟨_, h.1⟩
    obtain ⟨j, hj⟩ := hl
    cases v <;> first | rfl | simp [DV.fields] at hj

theorem inputErr_flat {b : Bytes} {v : DV} (h : PromFlat zs qs v) : SameFlat zs qs (inputErr b v) (inputErr b (.struct (flatten zs qs v))) := by
  unfold inputErr
  exact .err _ _ _ h

theorem decodeStructV_flat {v : DV} (h : PromFlat zs qs v) (hv : v = .struct v.fields) (b : Bytes) :
    SameFlat zs qs (decodeStructV c names (qs.map fun q => intoPlace zs q (decs q)) b v)
      (decodeStruct c names (qs.map decs) b (.struct (flatten zs qs v))) := by
  unfold decodeStructV decodeStruct
  split
  · exact .ok _ _ h
  · cases b with
    | nil => exact inputErr_flat h
    | cons ch t =>
      simp only []
      split
      · exact inputErr_flat h
      · rw [← hv]
        exact structLoopV_flat _ true v _ h

/-! ### Without embedded fields -/

theorem structLoopV_plain {c : DCfg} {names : List Bytes} {decs : List Dec} {decs' : List Dec} {input : Bytes}
    (h : ∀ i : Nat, decs'[i]? = decs[i]?.map fun d b p => (d b (p.field i)).map (p.setField i)) : ∀ (n : Nat) (first : Bool) (fs : List DV) (b : Bytes),
    structLoopV c names decs' input n first (.struct fs) b = structLoopD c names decs input n first fs b
  | 0, _, _, _ => rfl
  | n + 1, first, fs, b => by
    rw [structLoopV, structLoopD]
    simp only []
    split
    · rfl
    · generalize memberKey _ first (skipSpaces b) = mk
      rcases mk with x | ⟨r, e⟩ | ⟨kv, b'⟩
      · rfl
      · rfl
      · simp only []
        generalize pickField c names _ = pf
        cases pf with
        | none =>
          simp only []
          split
          · rfl
          · generalize parseValue b' = pv
            cases pv with
            | fail r e => rfl
            | ok x r => exact structLoopV_plain h n false fs _
        | some i =>
          simp only [h i]
          cases hd : decs[i]? with
          | none => rfl
          | some d =>
            simp only [Option.map_some, DV.field, DV.setField, DV.fields]
            cases d b' (fs.getD i (.user none)) with
            | crash x => rfl
            | err x r e => rfl
            | ok x r => exact structLoopV_plain h n false _ _

theorem decodeStructV_plain {c : DCfg} {names : List Bytes} {decs : List Dec} {decs' : List Dec}
    (h : ∀ i : Nat, decs'[i]? = decs[i]?.map fun d b p => (d b (p.field i)).map (p.setField i)) : decodeStructV c names decs' = decodeStruct c names decs := by
  funext b p
  unfold decodeStructV decodeStruct
  split
  · rfl
  · cases b with
    | nil => rfl
    | cons ch t =>
      simp only []
      split
      · rfl
      · rw [structLoopV_plain h]
        cases p <;> rfl

end JC

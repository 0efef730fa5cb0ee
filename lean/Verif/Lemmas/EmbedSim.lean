import Verif.Lemmas.EmbedStore
import Verif.Lemmas.DecStop
import Verif.Lemmas.DecMap
/-!
Decoding into a struct with embedded structs follows decoding into a flat struct.
-/
namespace JC
open Spec

/-- the type of the field a codec is for -/
def ECodec.ty : ECodec → Ty
  | .plain t => t
  | .embPtr _ _ _ cd => cd.ty

theorem Place.ty {fs : List EF} {o : Nat} {cd : ECodec} {p : List Nat} {t : Ty} (h : Place fs o cd p t) : cd.ty = t := by
  induction h with
  | leaf => rfl
  | val _ _ _ _ _ _ _ _ _ ih => exact ih
  | ptr _ _ _ _ _ _ _ _ _ _ ih => exact ih

/-- the promoted fields -/
def promoted (fs : List EF) : List Promoted := (fieldsE fs).map fun f => (f.sf.name, f.sf.path, f.codec.ty)

theorem promoted_names (fs : List EF) : (promoted fs).map (·.1) = (fieldsE fs).map (·.sf.name) := by
  simp [promoted, List.map_map, Function.comp_def]

theorem promoted_get {fs : List EF} {i : Nat} {nm : Bytes} {p : List Nat} {t : Ty} (h : (promoted fs)[i]? = some (nm, p, t)) :
    ∃ f, (fieldsE fs)[i]? = some f ∧ f.sf.name = nm ∧ f.sf.path = p ∧ Place fs f.off f.codec p t := by
  simp only [promoted, List.getElem?_map, Option.map_eq_some_iff, Prod.mk.injEq] at h
  obtain ⟨f, hf, h1, h2, h3⟩ := h
  obtain ⟨t', ht⟩ := fieldsE_located fs f (List.mem_of_getElem? hf)
  refine ⟨f, hf, h1, h2, ?_⟩
  rw [← h2, ← h3, ht.ty]; exact ht

theorem promoted_of {fs : List EF} {i : Nat} {f : EField} (hf : (fieldsE fs)[i]? = some f) :
    (promoted fs)[i]? = some (f.sf.name, f.sf.path, f.codec.ty) := by
  simp [promoted, hf]

theorem promoted_inj {fs : List EF} {i j : Nat} {a b : Promoted} (hi : (promoted fs)[i]? = some a) (hj : (promoted fs)[j]? = some b) (h : a.2.1 = b.2.1) : i = j := by
  obtain ⟨n1, p1, t1⟩ := a
  obtain ⟨n2, p2, t2⟩ := b
  obtain ⟨f, hf, _, hp, _⟩ := promoted_get hi
  obtain ⟨g, hg, _, hq, _⟩ := promoted_get hj
  simp only at h
  have h1 : ((fieldsE fs).map (·.sf.path))[i]? = some p1 := by simp [hf, hp]
  have h2 : ((fieldsE fs).map (·.sf.path))[j]? = some p2 := by simp [hg, hq]
  subst h
  have l1 := (List.getElem?_eq_some_iff.1 h1).1
  have l2 := (List.getElem?_eq_some_iff.1 h2).1
  exact (List.getElem_inj (h₀ := l1) (h₁ := l2) (fieldsE_nodup fs)).1 (by
    rw [(List.getElem?_eq_some_iff.1 h1).2, (List.getElem?_eq_some_iff.1 h2).2])

/-- `Views fs vs xs`: `xs` are the values of the promoted fields. -/
def Views (fs : List EF) (vs : List EV) (xs : List DV) : Prop :=
  xs.length = (promoted fs).length ∧ ∀ (i : Nat) (a : Promoted), (promoted fs)[i]? = some a → ∃ x, xs[i]? = some x ∧ Reads fs vs a.2.1 x

/-- no promoted field is barred -/
def AllOpen (fs : List EF) (vs : List EV) : Prop := ∀ a ∈ promoted fs, ¬ Barred fs vs a.2.1

theorem views_set {fs : List EF} {vs ws : List EV} {xs : List DV} {i : Nat} {a : Promoted} {x : DV} (hs : ShapeL fs vs) (hv : Views fs vs xs)
    (ha : (promoted fs)[i]? = some a) (h : Stores fs a.2.1 x vs ws) : Views fs ws (xs.set i x) := by
  refine ⟨by simpa using hv.1, ?_⟩
  intro j b hb
  obtain ⟨y, hy, hr⟩ := hv.2 j b hb
  by_cases hij : i = j
  · subst hij
    rw [ha] at hb; injection hb with hb; subst hb
    have := (List.getElem?_eq_some_iff.1 hy).1
    exact ⟨x, by simp [this], reads_self h hs⟩
  · exact ⟨y, by rw [List.getElem?_set_ne hij]; exact hy, reads_other h (fun e => hij (promoted_inj ha hb e.symm)) hr⟩

theorem open_set {fs : List EF} {vs ws : List EV} {p : List Nat} {x : DV} (ho : AllOpen fs vs) (h : Stores fs p x vs ws) : AllOpen fs ws :=
  fun a ha hb => ho a ha (barred_other h hb)

/-- the same outcome -/
inductive Same (fs : List EF) (vs : List EV) : CRes → DRes → Prop
  | ok (ws : List EV) (xs : List DV) (r : Bytes) : ShapeL fs ws → GrowsL fs vs ws → Views fs ws xs → Same fs vs (.ok (memL ws) r) (.ok (.struct xs) r)
  | err (ws : List EV) (xs : List DV) (r : Bytes) (e : Err) : ShapeL fs ws → GrowsL fs vs ws → Views fs ws xs →
      Same fs vs (.err (memL ws) r e) (.err (.struct xs) r e)
  | crash (c : Crash) : Same fs vs (.crash c) (.crash c)

theorem Same.mono {fs : List EF} {vs us : List EV} {a : CRes} {b : DRes} (hg : GrowsL fs vs us) (h : Same fs us a b) : Same fs vs a b := by
  cases h with
  | ok ws xs r h1 h2 h3 => exact .ok ws xs r h1 (growsL_trans hg h2) h3
  | err ws xs r e h1 h2 h3 => exact .err ws xs r e h1 (growsL_trans hg h2) h3
  | crash c => exact .crash c

section
variable {c : DCfg} {N : Nat} {fs : List EF} {decs : List Dec} {input : Bytes}

/-- the key that was read -/
def keyRead : DV → Bytes
  | .string s => s
  | _ => []

theorem structLoopD_succ' {names : List Bytes} {n : Nat} {xs : List DV} {first : Bool} {b : Bytes} :
    structLoopD c names decs input (n + 1) first xs b =
      if (skipSpaces b).head? = some 0x7d then .ok (.struct xs) (skipSpaces b).tail
      else match memberKey fieldKey first (skipSpaces b) with
        | .inl c => .crash c
        | .inr (.inl (r, e)) => .err (.struct xs) r e
        | .inr (.inr (kv, b)) => structField c names decs input n xs (keyRead kv) b := by
  rw [structLoopD_succ]; rfl

theorem structLoopE_succ {flds : List EField} {n : Nat} {first : Bool} {m : List Cell} {b : Bytes} :
    structLoopE c N flds input (n + 1) first m b =
      if (skipSpaces b).head? = some 0x7d then .ok m (skipSpaces b).tail
      else match memberKey fieldKey first (skipSpaces b) with
        | .inl c => .crash c
        | .inr (.inl (r, e)) => .err m r e
        | .inr (.inr (kv, b)) =>
          match pickField c (flds.map (·.sf.name)) (keyRead kv) with
          | none =>
            if c.disallowUnknown then .err m b (.other 2)
            else match parseValue b with
              | .fail r e => .err m r e
              | .ok _ r => structLoopE c N flds input n false m r
          | some i =>
            match flds[i]? with
            | none => .crash .panic
            | some f =>
              match f.codec.decode c N b m f.off with
              | .crash c => .crash c
              | .err m _ e =>
                match parseValue input with
                | .fail r e2 => .err m r e2
                | .ok _ r => .err m r e
              | .ok m r => structLoopE c N flds input n false m r := by
  rw [structLoopE]; rfl

theorem loop_same (hd : ∀ i : Nat, decs[i]? = (promoted fs)[i]?.map fun a => decN c N a.2.2) :
    ∀ (n : Nat) (first : Bool) (vs : List EV) (xs : List DV) (b : Bytes), ShapeL fs vs → Views fs vs xs → AllOpen fs vs →
      Same fs vs (structLoopE c N (fieldsE fs) input n first (memL vs) b) (structLoopD c ((promoted fs).map (·.1)) decs input n first xs b) := by
  intro n
  induction n with
  | zero => intro first vs xs b _ _ _; exact .crash _
  | succ n ih =>
    intro first vs xs b hs hv ho
    rw [structLoopE_succ, structLoopD_succ']
    split
    · exact .ok vs xs _ hs (growsL_refl hs) hv
    · cases memberKey fieldKey first (skipSpaces b) with
      | inl q => exact .crash q
      | inr k =>
        cases k with
        | inl re => exact .err vs xs _ _ hs (growsL_refl hs) hv
        | inr kb =>
          obtain ⟨kv, b⟩ := kb
          simp only [structField]
          generalize keyRead kv = key
          rw [← promoted_names]
          cases hp : pickField c ((promoted fs).map (·.1)) key with
          | none =>
            simp only []
            split
            · exact .err vs xs _ _ hs (growsL_refl hs) hv
            · cases parseValue b with
              | fail r e => exact .err vs xs _ _ hs (growsL_refl hs) hv
              | ok v r => exact ih false vs xs r hs hv ho
          | some i =>
            simp only [hd i]
            cases hf : (fieldsE fs)[i]? with
            | none => simp only [promoted, List.getElem?_map, hf, Option.map_none]; exact .crash _
            | some f =>
              have ha := promoted_of hf
              obtain ⟨f', hf', _, _, hloc⟩ := promoted_get ha
              rw [hf] at hf'; injection hf' with hf'; subst hf'
              obtain ⟨v, hr, hcase⟩ := decode_loc c N hloc hs
              obtain ⟨x, hx, hrx⟩ := hv.2 i _ ha
              have hxv := reads_unique hrx hr
              subst hxv
              have hget : xs.getD i (.user none) = x := by rw [List.getD_eq_getElem?_getD, hx]; rfl
              rcases hcase with ⟨st, hst, hdec⟩ | ⟨hb, _⟩
              · simp only [ha, Option.map_some, hget, hdec]
                cases decN c N f.codec.ty b x with
                | crash q => exact .crash q
                | err y r e =>
                  have hy := stores_shape (hst y) hs
                  simp only [DRes.into]
                  cases parseValue input with
                  | fail r e2 => exact .err (st y) _ _ _ hy.1 hy.2 (views_set hs hv ha (hst y))
                  | ok _ r => exact .err (st y) _ _ _ hy.1 hy.2 (views_set hs hv ha (hst y))
                | ok y r =>
                  have hy := stores_shape (hst y) hs
                  simp only [DRes.into]
                  exact (ih false (st y) (xs.set i y) r hy.1 (views_set hs hv ha (hst y)) (open_set ho (hst y))).mono hy.2
              · exact absurd hb (ho _ (List.mem_of_getElem? ha))

theorem struct_same (hd : ∀ i : Nat, decs[i]? = (promoted fs)[i]?.map fun a => decN c N a.2.2) {vs : List EV} {xs : List DV} (b : Bytes)
    (hs : ShapeL fs vs) (hv : Views fs vs xs) (ho : AllOpen fs vs) :
    Same fs vs (decodeStructE c N (fieldsE fs) b (memL vs)) (decodeStruct c ((promoted fs).map (·.1)) decs b (.struct xs)) := by
  unfold decodeStructE decodeStruct
  split
  · exact .ok vs xs _ hs (growsL_refl hs) hv
  · cases b with
    | nil => exact .err vs xs _ _ hs (growsL_refl hs) hv
    | cons ch t =>
      simp only []
      split
      · exact .err vs xs _ _ hs (growsL_refl hs) hv
      · exact loop_same hd _ _ _ _ _ hs hv ho

/-- an outcome in which memory has kept its shape -/
inductive KeptE (fs : List EF) (vs : List EV) : CRes → Prop
  | ok (ws : List EV) (r : Bytes) : ShapeL fs ws → GrowsL fs vs ws → KeptE fs vs (.ok (memL ws) r)
  | err (ws : List EV) (r : Bytes) (e : Err) : ShapeL fs ws → GrowsL fs vs ws → KeptE fs vs (.err (memL ws) r e)
  | crash (c : Crash) : KeptE fs vs (.crash c)

theorem KeptE.mono {fs : List EF} {vs us : List EV} {a : CRes} (hg : GrowsL fs vs us) (h : KeptE fs us a) : KeptE fs vs a := by
  cases h with
  | ok ws r h1 h2 => exact .ok ws r h1 (growsL_trans hg h2)
  | err ws r e h1 h2 => exact .err ws r e h1 (growsL_trans hg h2)
  | crash c => exact .crash c

theorem loop_kept : ∀ (n : Nat) (first : Bool) (vs : List EV) (b : Bytes), ShapeL fs vs →
    KeptE fs vs (structLoopE c N (fieldsE fs) input n first (memL vs) b) := by
  intro n
  induction n with
  | zero => intro first vs b _; exact .crash _
  | succ n ih =>
    intro first vs b hs
    have same : ∀ r e, KeptE fs vs (.err (memL vs) r e) := fun r e => .err vs r e hs (growsL_refl hs)
    rw [structLoopE_succ]
    split
    · exact .ok vs _ hs (growsL_refl hs)
    · cases memberKey fieldKey first (skipSpaces b) with
      | inl q => exact .crash q
      | inr k =>
        cases k with
        | inl re => exact same _ _
        | inr kb =>
          obtain ⟨kv, b⟩ := kb
          simp only []
          split
          · split
            · exact same _ _
            · cases parseValue b with
              | fail r e => exact same _ _
              | ok v r => exact ih false vs r hs
          · split
            · exact .crash _
            · rename_i f hf
              obtain ⟨f', hf', _, _, hloc⟩ := promoted_get (promoted_of hf)
              rw [hf] at hf'; injection hf' with hf'; subst hf'
              obtain ⟨v, _, hcase⟩ := decode_loc c N hloc hs
              rcases hcase with ⟨st, hst, hdec⟩ | ⟨hb, ws, h1, h2, _, hdec⟩
              · rw [hdec]
                cases decN c N f.codec.ty b v with
                | crash q => exact .crash q
                | err y r e =>
                  have hy := stores_shape (hst y) hs
                  simp only [DRes.into]
                  cases parseValue input with
                  | fail r e2 => exact .err (st y) _ _ hy.1 hy.2
                  | ok _ r => exact .err (st y) _ _ hy.1 hy.2
                | ok y r =>
                  have hy := stores_shape (hst y) hs
                  simp only [DRes.into]
                  exact (ih false (st y) r hy.1).mono hy.2
              · rw [hdec]
                simp only []
                cases parseValue input with
                | fail r e2 => exact .err ws _ _ h1 h2
                | ok _ r => exact .err ws _ _ h1 h2

theorem struct_kept {vs : List EV} (b : Bytes) (hs : ShapeL fs vs) : KeptE fs vs (decodeStructE c N (fieldsE fs) b (memL vs)) := by
  unfold decodeStructE
  split
  · exact .ok vs _ hs (growsL_refl hs)
  · cases b with
    | nil => exact .err vs _ _ hs (growsL_refl hs)
    | cons ch t =>
      simp only []
      split
      · exact .err vs _ _ hs (growsL_refl hs)
      · exact loop_kept _ _ _ _ hs

end

end JC

import Verif.Lemmas.Sort
import Verif.Spec.Reorder
import Verif.Spec.Says
import Verif.Props.Encode
/-!
Properties C27 (map order) and C41 (`omitempty`).
-/
namespace JC.Props
open JC Spec

theorem encS_map (c : Cfg) : ∀ es, encS c es = es.map fun e => (e.1, enc c e.2)
  | [] => rfl
  | (k, v) :: es => by rw [encS, encS_map c es]; rfl
theorem encE_map (c : Cfg) : ∀ es, encE c es = es.map fun e => (e.1, enc c e.2)
  | [] => rfl
  | (k, v) :: es => by rw [encE, encE_map c es]; rfl
theorem encL_map (c : Cfg) : ∀ es, encL c es = es.map (enc c)
  | [] => rfl
  | v :: es => by rw [encL, encL_map c es]; rfl
theorem encF_map (c : Cfg) : ∀ es, encF c es = es.map fun e => (e.1, isEmpty e.2, enc c e.2)
  | [] => rfl
  | (k, v) :: es => by rw [encF, encF_map c es]; rfl

theorem reorder_isEmpty {a b : GV} (h : Reorder a b) : isEmpty a = isEmpty b := by
  induction h with
  | refl => rfl
  | trans _ _ _ _ _ h1 h2 => rw [h1, h2]
  | mapSI es es' p _ => simp only [isEmpty, p.length_eq]
  | mapRaw es es' p _ => simp only [isEmpty, p.length_eq]
  | map es es' p _ => simp only [isEmpty, p.length_eq]
  | inQuoted a b _ ih => simp only [isEmpty, ih]
  | inSlice | inArray | inMap | inMapSI => simp [isEmpty]
  | inStruct | inPtr | inIface | inEmb => rfl

/-- **C27** With `SortMapKeys` the result does not depend on the iteration order of any map
inside the value. -/
theorem C27_deterministic {c : Cfg} (hs : c.sortMapKeys = true) {a b : GV} (h : Reorder a b) : enc c a = enc c b := by
  induction h with
  | refl => rfl
  | trans _ _ _ _ _ h1 h2 => rw [h1, h2]
  | mapSI es es' p hn =>
    simp only [enc, encodeMapSI, hs, if_true]
    funext b d
    have hsort : sortBy (fun e => e.1) (encS c es) = sortBy (fun e => e.1) (encS c es') := by
      refine sortBy_perm_eq _ ?_ ?_
      · rw [encS_map, encS_map]; exact p.map _
      · rw [encS_map, List.map_map]; exact hn
    simp only [strMapSorted, hsort]
  | mapRaw es es' p hn =>
    simp only [enc, encodeMapRaw, hs, if_true]
    funext b d
    have hsort : sortBy (fun e => e.1) (es.map fun e => (e.1, encodeRawMessage c e.2)) =
        sortBy (fun e => e.1) (es'.map fun e => (e.1, encodeRawMessage c e.2)) := by
      refine sortBy_perm_eq _ (p.map _) ?_
      rw [List.map_map]; exact hn
    simp only [strMapSorted, hsort]
  | map es es' p hn =>
    simp only [enc]
    have hp : (encE c es).Perm (encE c es') := by rw [encE_map, encE_map]; exact p.map _
    have hany : (encE c es).any (fun e => e.1.uncallable) = (encE c es').any (fun e => e.1.uncallable) := by
      rw [Bool.eq_iff_iff, List.any_eq_true, List.any_eq_true]
      exact ⟨fun ⟨x, h1, h2⟩ => ⟨x, hp.mem_iff.1 h1, h2⟩, fun ⟨x, h1, h2⟩ => ⟨x, hp.mem_iff.2 h1, h2⟩⟩
    have hsort : sortBy (fun e => e.1.sortText) (encE c es) = sortBy (fun e => e.1.sortText) (encE c es') := by
      refine sortBy_perm_eq _ hp ?_
      rw [encE_map, List.map_map]; exact hn
    funext b d
    simp only [encodeMap, hs, if_true, hany, hsort, hp.length_eq]
  | inSlice l r a b _ ih => simp only [enc, encL_map, List.map_append, List.map_cons, ih]
  | inArray l r a b _ ih => simp only [enc, encL_map, List.map_append, List.map_cons, ih]
  | inMap l r k a b _ ih => simp only [enc, encE_map, List.map_append, List.map_cons, ih]
  | inMapSI l r k a b _ ih => simp only [enc, encS_map, List.map_append, List.map_cons, ih]
  | inStruct l r m a b h ih => simp only [enc, encF_map, List.map_append, List.map_cons, ih, reorder_isEmpty h]
  | inPtr a b _ ih => simp only [enc, ih]
  | inIface z a b _ ih => simp only [enc, ih]
  | inEmb z a b _ ih => simp only [enc, ih]
  | inQuoted a b _ ih => simp only [enc, ih]

/-- **C27** Distinct integer keys have distinct texts, so their maps satisfy the condition of `Reorder.map`. -/
theorem C27_int_texts {z w : Int} (h : fmtInt z = fmtInt w) : z = w := by
  have hv := fun n => fmtNat_val n
  have hm : ∀ n r, fmtNat n ≠ 0x2d :: r := by
    intro n r e
    have := (hv n).2 0x2d (by rw [e]; simp)
    exact absurd this (by decide)
  unfold fmtInt at h
  have h1 := (hv z.natAbs).1
  have h2 := (hv w.natAbs).1
  split at h <;> split at h
  · simp only [List.cons.injEq, true_and] at h
    rw [h, h2] at h1; omega
  · exact absurd h.symm (hm _ _)
  · exact absurd h (hm _ _)
  · rw [h, h2] at h1; omega

/-- **C27** Keys that are nil interfaces, or of a type without `MarshalText`, cannot be compared: with
`SortMapKeys` a map of two or more entries with such a key is not written, the call panics. -/
theorem C27_fails_nil_key {c : Cfg} (hs : c.sortMapKeys = true) {es : List (MKey × GV)} (hl : 2 ≤ es.length) {v : GV}
    (h : (.text .isNil, v) ∈ es ∨ (.text .absent, v) ∈ es) (b : Bytes) (d : Int) : enc c (.map es) b d = .panic := by
  simp only [enc, encodeMap]
  rw [if_pos]
  refine ⟨hs, by rw [encE_map, List.length_map]; exact hl, ?_⟩
  rw [encE_map, List.any_map, List.any_eq_true]
  rcases h with h | h
  · exact ⟨_, h, rfl⟩
  · exact ⟨_, h, rfl⟩

/-- A single entry is not compared, and without `SortMapKeys` nothing is. -/
example : enc {} (.map [(.text .isNil, .int 1), (.int 2, .int 3)]) [] 0 = .panic ∧
    enc {} (.map [(.text .isNil, .int 1)]) [] 0 = .done (bs! "{null:1}") 0 none ∧
    enc { sortMapKeys := false } (.map [(.text .isNil, .int 1), (.int 2, .int 3)]) [] 0 = .done (bs! "{null:1,\"2\":3}") 0 none := by
  decide +kernel

/-- **C27** (partial) fails for `TextMarshaler` keys with equal texts: the order of entries shows. -/
theorem C27_fails_text_keys : enc {} (.map [(.text (.ok (bs! "k")), .int 1), (.text (.ok (bs! "k")), .int 2)]) [] 0 =
      .done (bs! "{\"k\":1,\"k\":2}") 0 none ∧
    enc {} (.map [(.text (.ok (bs! "k")), .int 2), (.text (.ok (bs! "k")), .int 1)]) [] 0 =
      .done (bs! "{\"k\":2,\"k\":1}") 0 none := by decide +kernel

/-- **C27** Members of a `map[string]interface{}` are written in increasing order of their keys. -/
theorem C27_sorted {c : Cfg} (hs : c.sortMapKeys = true) {es : List (Bytes × GV)} (hn : (es.map (·.1)).Nodup)
    (h : Clean c (.mapSI es)) {b out : Bytes} {n : Nat} {d : Int} (ho : enc c (.mapSI es) b n = .done out d none) :
    ∃ ms : List (Bytes × Doc), (ms.map (·.1)).Perm (es.map (·.1)) ∧ (ms.map (·.1)).Pairwise (· < ·) ∧
      out = b ++ render (styleOf c) n (.obj (ms.map fun m => (.key, quote c.escapeHTML m.1, m.2))) := by
  obtain ⟨x, hm, _, e, _⟩ := clean_success h ho
  simp only [meaning, hs, if_true] at hm
  have hsm : meanS c es = es.map fun e => (e.1, meaning c e.2) := by
    clear hm ho h hn e
    induction es with
    | nil => rfl
    | cons e es ih => rw [meanS, ih]; rfl
  have hk : (sortBy (fun e => e.1) (meanS c es)).map (·.1) = sortBy id (es.map (·.1)) := by
    have := sortBy_map (fun e : Bytes × Meaning => e.1) id (meanS c es)
    rw [hsm, List.map_map] at this
    rw [hsm]; exact this.symm
  have hnd : (sortBy id (es.map (·.1))).Nodup := (sortBy_perm id _).nodup_iff.2 hn
  have hlt : (sortBy id (es.map (·.1))).Pairwise (· < ·) := by
    have h1 := sortBy_sorted id (es.map (·.1))
    generalize sortBy id (es.map (·.1)) = l at *
    clear hk
    induction l with
    | nil => exact .nil
    | cons k l ih =>
      rw [List.nodup_cons] at hnd
      have h1 := List.pairwise_cons.1 h1
      refine List.pairwise_cons.2 ⟨?_, ih hnd.2 h1.2⟩
      intro y hy
      rcases blt_total k y with h | h | h
      · exact h
      · subst h; exact absurd hy hnd.1
      · exact absurd h (h1.1 y hy)
  have key : ∀ (l : List (Bytes × Meaning)) xs,
      seqMembers (l.map fun e => (.ok .key (quote c.escapeHTML e.1), e.2)) = .ok xs →
      ∃ ms : List (Bytes × Doc), ms.map (·.1) = l.map (·.1) ∧ xs = ms.map fun m => (.key, quote c.escapeHTML m.1, m.2) := by
    intro l
    induction l with
    | nil => intro xs h; simp only [List.map_nil, seqMembers] at h; cases h; exact ⟨[], rfl, rfl⟩
    | cons e l ih =>
      intro xs h
      obtain ⟨k, m⟩ := e
      cases m with
      | err e => simp only [List.map_cons, seqMembers] at h; cases h
      | wild => simp only [List.map_cons, seqMembers] at h; cases h
      | doc y =>
        simp only [List.map_cons, seqMembers] at h
        split at h <;> cases h
        rename_i ys hy
        obtain ⟨ms, h1, h2⟩ := ih ys hy
        exact ⟨(k, y) :: ms, by rw [List.map_cons, List.map_cons, h1], by rw [List.map_cons, h2]⟩
  generalize hL : seqMembers ((sortBy (fun e => e.1) (meanS c es)).map fun e => (.ok .key (quote c.escapeHTML e.1), e.2)) = r at hm
  cases r with
  | err e => simp only [MeaningL.toObj, innerErr] at hm; split at hm <;> cases hm
  | wild => cases hm
  | ok xs =>
    cases hm
    obtain ⟨ms, h1, h2⟩ := key _ _ hL
    refine ⟨ms, ?_, ?_, ?_⟩
    · rw [h1, hk]; exact sortBy_perm id _
    · rw [h1, hk]; exact hlt
    · rw [e, h2]

example : enc {} (.mapSI [(bs! "b", .int 1), (bs! "", .int 2), (bs! "B", .mapSI [(bs! "y", .nil), (bs! "x", .nil)])]) [] 0 =
    .done (bs! "{\"\":2,\"B\":{\"x\":null,\"y\":null},\"b\":1}") 0 none ∧
    enc { sortMapKeys := false } (.mapSI [(bs! "b", .int 1), (bs! "", .int 2)]) [] 0 = .done (bs! "{\"b\":1,\"\":2}") 0 none := by
  decide +kernel

example : enc {} (.map [(.int 2, .nil), (.int 10, .nil), (.int (-1), .nil)]) [] 0 = .done (bs! "{\"-1\":null,\"10\":null,\"2\":null}") 0 none := by
  decide +kernel

/-! ### C41 -/

/-- **C41** (partial: see `OwnMemory`) The code's test for emptiness. -/
theorem C41_empty_partial : ∀ v, OwnMemory v → (isEmpty v = true ↔ GoEmpty v)
  | .nil, _ | .ptrNil, _ | .sliceNil, _ | .mapNil, _ | .bytesNil, _ | .rawNil, _ => by simp [isEmpty, GoEmpty]
  | .bool _, _ | .int _, _ | .uint _, _ | .number _, _ | .string _, _ | .bytes _, _ | .raw _, _ => by simp [isEmpty, GoEmpty]
  | .slice _, _ | .array _, _ | .map _, _ | .mapSI _, _ | .mapRaw _, _ => by simp [isEmpty, GoEmpty]
  | .float .nan, _ | .float .inf, _ => by simp [isEmpty, GoEmpty]
  | .float (.fin _ _ _), _ => by simp [isEmpty, GoEmpty]
  | .time _ _, _ | .struct _, _ | .ptr _, _ | .unsupported, _ => by simp [isEmpty, GoEmpty]
  | .iface _ _, h => by simp only [OwnMemory] at h; subst h; simp [isEmpty, GoEmpty]
  | .jsonM _ _, _ | .textM _ _, _ => by simp [isEmpty, GoEmpty]
  | .quoted v, h => by simp only [isEmpty, GoEmpty]; exact C41_empty_partial v h
  | .emb _ _, h | .embNil _, h => absurd h id

/-- **C41** fails: a field promoted through a non-nil embedded pointer is written though empty, -/
theorem C41_fails_embedded : GoEmpty (.emb (.int 0) false) ∧
    enc {} (.struct [(⟨bs! "A", true⟩, .emb (.int 0) false)]) [] 0 = .done (bs! "{\"A\":0}") 0 none :=
  ⟨rfl, by decide +kernel⟩

/-- ... and an interface holding a nil pointer is not nil, yet omitted. -/
theorem C41_fails_interface : ¬ GoEmpty (.iface .ptrNil true) ∧
    enc {} (.struct [(⟨bs! "A", true⟩, .iface .ptrNil true)]) [] 0 = .done (bs! "{}") 0 none :=
  ⟨id, by decide +kernel⟩

/-- The fields that are members: not omitted, not behind a nil embedded pointer. -/
def present (fs : List (FMeta × GV)) : List (FMeta × GV) :=
  fs.filter fun f => !(f.1.omitempty && isEmpty f.2) && !isRollback f.2

theorem fields_present (c : Cfg) : ∀ (fs : List (FMeta × GV)) (any : Bool) xs, CleanF c any fs →
    seqFields c.escapeHTML any (meanF c fs) = .ok xs →
    ∃ ds : List Doc, ds.length = (present fs).length ∧
      xs = List.zipWith (fun f d => (.key, quote c.escapeHTML f.1.name, d)) (present fs) ds := by
  intro fs
  induction fs with
  | nil => intro any xs _ h; simp only [meanF, seqFields] at h; cases h; exact ⟨[], rfl, rfl⟩
  | cons f fs ih =>
    obtain ⟨m, v⟩ := f
    intro any xs hc h
    simp only [meanF, seqFields] at h
    simp only [CleanF] at hc
    by_cases ho : m.omitempty = true ∧ isEmpty v = true
    · rw [if_pos ho] at h hc
      have : present ((m, v) :: fs) = present fs := by simp [present, ho]
      rw [this]; exact ih any xs hc h
    · rw [if_neg ho] at h hc
      by_cases hr : isRollback v = true
      · rw [if_pos hr] at hc
        obtain ⟨rfl, hc⟩ := hc
        simp only [isRollback_meaning c v hr, if_true, Bool.false_eq_true, if_false] at h
        have : present ((m, v) :: fs) = present fs := by simp [present, hr]
        rw [this]; exact ih _ xs hc h
      · rw [if_neg hr] at hc
        have hp : present ((m, v) :: fs) = (m, v) :: present fs := by
          simp only [present, List.filter_cons]
          rw [if_pos]
          simp only [Bool.and_eq_true, Bool.not_eq_true', Bool.and_eq_false_iff]
          refine ⟨?_, by simpa using hr⟩
          by_cases h1 : m.omitempty = true
          · right; cases hi : isEmpty v with
            | true => exact absurd ⟨h1, hi⟩ ho
            | false => rfl
          · left; simpa using h1
        have hf := clean_fine c v hc.1
        generalize meaning c v = mv at h hf
        cases mv with
        | wild => cases h
        | err e =>
          simp only [] at h
          split at h
          · rename_i he; subst he; exact absurd rfl hf
          · cases h
        | doc x =>
          simp only [] at h
          split at h <;> cases h
          rename_i ys hy
          obtain ⟨ds, h1, h2⟩ := ih true ys hc.2 hy
          refine ⟨x :: ds, by rw [hp]; simp [h1], ?_⟩
          rw [hp, h2]; rfl

/-- **C41** (partial: clean values) The members written for a struct are exactly its present fields, in order. -/
theorem C41_members_partial {c : Cfg} {fs : List (FMeta × GV)} (h : Clean c (.struct fs)) {b out : Bytes} {n : Nat} {d : Int}
    (ho : enc c (.struct fs) b n = .done out d none) : ∃ ds : List Doc, ds.length = (present fs).length ∧
      out = b ++ render (styleOf c) n (if present fs = [] then .bare (!fs.isEmpty) else
        .obj (List.zipWith (fun f d => (.key, quote c.escapeHTML f.1.name, d)) (present fs) ds)) := by
  obtain ⟨x, hm, _, e, _⟩ := clean_success h ho
  simp only [meaning] at hm
  generalize hL : seqFields c.escapeHTML false (meanF c fs) = r at hm
  cases r with
  | err e => simp only [MeaningL.toStruct, innerErr] at hm; split at hm <;> cases hm
  | wild => cases hm
  | ok xs =>
    obtain ⟨ds, h1, h2⟩ := fields_present c fs false xs h hL
    refine ⟨ds, h1, ?_⟩
    rw [e]
    by_cases hp : present fs = []
    · rw [if_pos hp]
      rw [hp] at h2
      subst h2
      cases hm; rfl
    · rw [if_neg hp]
      subst h2
      cases hpf : present fs with
      | nil => exact absurd hpf hp
      | cons f r =>
        cases ds with
        | nil => rw [hpf] at h1; simp at h1
        | cons d ds => rw [hpf] at hm; cases hm; rfl

example : enc {} (.struct [(⟨bs! "a", true⟩, .int 0), (⟨bs! "b", false⟩, .int 0), (⟨bs! "c", true⟩, .slice []), (⟨bs! "d", true⟩, .slice [.nil]),
    (⟨bs! "e", true⟩, .struct [])]) [] 0 = .done (bs! "{\"b\":0,\"d\":[null],\"e\":{}}") 0 none := by decide +kernel

end JC.Props

import Verif.Props.Decode
import Verif.Spec.Fields
/-!
Property C42: which field a member of an object goes to.
-/
namespace JC.Props
open JC Spec

/-- ASCII text -/
def Ascii (s : Bytes) : Prop := ∀ c ∈ s, c < 0x80

/-! ### folding -/

theorem lower_same (a b : UInt8) : lowerByte a = lowerByte b ↔ SameLetter a b := by
  unfold lowerByte SameLetter
  have ha := a.toNat_lt
  have hb := b.toNat_lt
  split <;> split <;> simp only [UInt8.le_iff_toNat_le, ← UInt8.toNat_inj, UInt8.toNat_add, UInt8.reduceToNat, Nat.reducePow] at * <;> omega

theorem map_lower_iff : ∀ s t : Bytes, s.map lowerByte = t.map lowerByte ↔ EqFold s t
  | [], [] => by simp [EqFold.nil]
  | [], _ :: _ => by simp; intro h; cases h
  | _ :: _, [] => by simp; intro h; cases h
  | a :: s, b :: t => by
    simp only [List.map_cons, List.cons.injEq, lower_same, map_lower_iff s t]
    constructor
    · rintro ⟨h1, h2⟩; exact .cons a b s t h1 h2
    · intro h; cases h with | cons _ _ _ _ h1 h2 => exact ⟨h1, h2⟩

theorem fold_iff {c : DCfg} {nm k : Bytes} (hn : Ascii nm) (hk : Ascii k) :
    (stringsToLower c.lib nm == toLowerKey c.lib k) = true ↔ EqFold nm k := by
  have h1 : nm.all (· < 0x80) = true := by simpa [Ascii] using hn
  have h2 : asciiValid k = true := by
    rw [C07_ascii]; exact hk
  rw [beq_iff_eq, stringsToLower, if_pos h1, toLowerKey, if_pos h2, map_lower_iff]

/-! ### searching -/

theorem lastIdx_none {α : Type} {p : α → Bool} {xs : List α} : lastIdx p xs = none ↔ ∀ x ∈ xs, p x = false := by
  induction xs with
  | nil => simp [lastIdx]
  | cons x xs ih =>
    unfold lastIdx
    cases h : lastIdx p xs with
    | some k =>
      have : ¬ ∀ x ∈ xs, p x = false := by rw [← ih, h]; simp
      simp only [reduceCtorEq, List.mem_cons, forall_eq_or_imp, false_iff, not_and]
      exact fun _ => this
    | none => simpa using fun _ => ih.1 h

theorem lastIdx_some {α : Type} {p : α → Bool} : ∀ {xs : List α} {i : Nat}, lastIdx p xs = some i ↔
    (∃ x, xs[i]? = some x ∧ p x = true) ∧ ∀ j x, i < j → xs[j]? = some x → p x = false
  | [], i => by simp [lastIdx]
  | x :: xs, i => by
    unfold lastIdx
    cases h : lastIdx p xs with
    | some k =>
      have hk := (lastIdx_some (p := p) (xs := xs) (i := k)).1 h
      simp only [Option.some.injEq]
      constructor
      · rintro rfl
        refine ⟨by simpa using hk.1, ?_⟩
        intro j y hj hy
        obtain ⟨j, rfl⟩ : ∃ m, j = m + 1 := ⟨j - 1, by omega⟩
        exact hk.2 j y (by omega) (by simpa using hy)
      · rintro ⟨⟨y, hy, hp⟩, hl⟩
        cases i with
        | zero =>
          obtain ⟨z, hz, hpz⟩ := hk.1
          have := hl (k + 1) z (by omega) (by simpa using hz)
          rw [this] at hpz; cases hpz
        | succ i =>
          have : lastIdx p xs = some i := lastIdx_some.2 ⟨⟨y, by simpa using hy, hp⟩, fun j x hj hx => hl (j + 1) x (by omega) (by simpa using hx)⟩
          rw [h] at this; injection this with this; rw [this]
    | none =>
      have hn := lastIdx_none.1 h
      simp only []
      constructor
      · intro e
        split at e
        · rename_i hx
          injection e with e; subst e
          refine ⟨⟨x, rfl, hx⟩, ?_⟩
          intro j y hj hy
          obtain ⟨j, rfl⟩ : ∃ m, j = m + 1 := ⟨j - 1, by omega⟩
          rw [List.getElem?_cons_succ] at hy
          exact hn y (List.mem_of_getElem? hy)
        · simp at e
      · rintro ⟨⟨y, hy, hp⟩, _⟩
        cases i with
        | zero =>
          injection hy with hy; subst hy; rw [if_pos hp]
        | succ i =>
          rw [List.getElem?_cons_succ] at hy
          rw [hn y (List.mem_of_getElem? hy)] at hp; cases hp

theorem firstIdx_some {α : Type} {p : α → Bool} : ∀ {xs : List α} {i : Nat}, firstIdx p xs = some i ↔
    (∃ x, xs[i]? = some x ∧ p x = true) ∧ ∀ j x, j < i → xs[j]? = some x → p x = false
  | [], i => by simp [firstIdx]
  | x :: xs, i => by
    unfold firstIdx
    by_cases hx : p x = true
    · rw [if_pos hx]
      constructor
      · intro e; injection e with e; subst e
        exact ⟨⟨x, rfl, hx⟩, fun j y hj => absurd hj (by omega)⟩
      · rintro ⟨_, h⟩
        cases i with
        | zero => rfl
        | succ i => have := h 0 x (by omega) rfl; rw [this] at hx; cases hx
    · rw [if_neg hx]
      cases i with
      | zero =>
        simp only [Option.map_eq_some_iff, Nat.add_eq_zero_iff]
        constructor
        · rintro ⟨_, _, _, h⟩; simp at h
        · rintro ⟨⟨y, hy, hp⟩, _⟩
          injection hy with hy; subst hy; exact absurd hp hx
      | succ i =>
        simp only [Option.map_eq_some_iff, Nat.add_right_cancel_iff, exists_eq_right, firstIdx_some]
        constructor
        · rintro ⟨h1, h2⟩
          refine ⟨by simpa using h1, ?_⟩
          intro j y hj hy
          cases j with
          | zero => injection hy with hy; subst hy; simpa using hx
          | succ j => exact h2 j y (by omega) (by simpa using hy)
        · rintro ⟨h1, h2⟩
          exact ⟨by simpa using h1, fun j y hj hy => h2 (j + 1) y (by omega) (by simpa using hy)⟩

theorem firstIdx_none {α : Type} {p : α → Bool} {xs : List α} : firstIdx p xs = none ↔ ∀ x ∈ xs, p x = false := by
  induction xs with
  | nil => simp [firstIdx]
  | cons x xs ih =>
    unfold firstIdx
    by_cases hx : p x = true <;> simp [hx, ih]

theorem pick_iff {c : DCfg} {names : List Bytes} {k : Bytes} (h : c.noFold = true ∨ ((∀ nm ∈ names, Ascii nm) ∧ Ascii k)) (i : Nat) :
    pickField c names k = some i ↔ Selects (!c.noFold) names k i := by
  unfold pickField Selects
  have hf : ∀ (nm : Bytes) (j : Nat), c.noFold = false → names[j]? = some nm →
      ((stringsToLower c.lib nm == toLowerKey c.lib k) = true ↔ EqFold nm k) := by
    intro nm j hc hj
    rcases h with h | ⟨h1, h2⟩
    · rw [hc] at h; cases h
    · exact fold_iff (h1 nm (List.mem_of_getElem? hj)) h2
  cases hl : lastIdx (fun n => n == k) names with
  | some m =>
    have hm := lastIdx_some.1 hl
    obtain ⟨⟨x, hx, hxk⟩, hlast⟩ := hm
    rw [beq_iff_eq] at hxk; subst hxk
    simp only [Option.some.injEq]
    constructor
    · rintro rfl
      exact .inl ⟨hx, fun j hj e => by simpa using hlast j _ hj e⟩
    · rintro (⟨h1, h2⟩ | ⟨h1, _⟩)
      · rcases Nat.lt_trichotomy m i with hlt | rfl | hgt
        · simpa using hlast i _ hlt h1
        · rfl
        · exact absurd hx (h2 m hgt)
      · exact absurd (List.mem_of_getElem? hx) h1
  | none =>
    have hn := lastIdx_none.1 hl
    have hk : k ∉ names := fun hk => by simpa using hn k hk
    have hi : names[i]? ≠ some k := fun e => hk (List.mem_of_getElem? e)
    simp only [hi, false_and, false_or]
    cases hc : c.noFold with
    | true => simp
    | false =>
      simp only [Bool.not_false, Bool.false_eq_true, if_false, firstIdx_some]
      constructor
      · rintro ⟨⟨x, hx, hp⟩, hl⟩
        refine ⟨hk, trivial, ⟨x, hx, (hf x i hc hx).1 hp⟩, ?_⟩
        intro j nm hj hnm he
        have := hl j nm hj hnm
        rw [(hf nm j hc hnm).2 he] at this; cases this
      · rintro ⟨_, _, ⟨x, hx, hp⟩, hl⟩
        refine ⟨⟨x, hx, (hf x i hc hx).2 hp⟩, ?_⟩
        intro j nm hj hnm
        cases e : (stringsToLower c.lib nm == toLowerKey c.lib k) with
        | false => rfl
        | true => exact absurd ((hf nm j hc hnm).1 e) (hl j nm hj hnm)

/-! ### decoding -/

mutual
theorem jsonOk_derives : ∀ j : Json, JsonOk j → ∃ b, Derives (.value j) b
  | .null, _ => ⟨_, .null⟩
  | .tru, _ => ⟨_, .tru⟩
  | .fls, _ => ⟨_, .fls⟩
  | .num s, h => ⟨s, .num s (by rw [JsonOk] at h; exact h)⟩
  | .str s, h => ⟨s, .str s (jsonOk_str h)⟩
  | .arr [], _ => ⟨_, .arrNil [] ws_nil⟩
  | .arr (x :: xs), h => by
    obtain ⟨b, hb⟩ := elemsOk_derives (x :: xs) (by simp) (jsonOk_elems h)
    exact ⟨_, .arr _ b hb⟩
  | .obj [], _ => ⟨_, .objNil [] ws_nil⟩
  | .obj (m :: ms), h => by
    obtain ⟨b, hb⟩ := membersOk_derives (m :: ms) (by simp) (jsonOk_members h)
    exact ⟨_, .obj _ b hb⟩
theorem elemsOk_derives : ∀ xs : List Json, xs ≠ [] → (∀ x ∈ xs, JsonOk x) → ∃ b, Derives (.elems xs) b
  | [x], _, h => by
    obtain ⟨b, hb⟩ := jsonOk_derives x (h x (by simp))
    exact ⟨_, .elemOne [] [] x b ws_nil ws_nil hb⟩
  | x :: y :: xs, _, h => by
    obtain ⟨b, hb⟩ := jsonOk_derives x (h x (by simp))
    obtain ⟨b', hb'⟩ := elemsOk_derives (y :: xs) (by simp) (fun z hz => h z (by simp [hz]))
    exact ⟨_, .elemCons [] [] x b _ b' ws_nil ws_nil hb hb'⟩
theorem membersOk_derives : ∀ ms : List (Bytes × Json), ms ≠ [] → (∀ m ∈ ms, JString m.1 ∧ JsonOk m.2) → ∃ b, Derives (.members ms) b
  | [(k, x)], _, h => by
    obtain ⟨b, hb⟩ := jsonOk_derives x (h (k, x) (by simp)).2
    exact ⟨_, .memOne [] [] [] [] k x b ws_nil ws_nil ws_nil ws_nil (h (k, x) (by simp)).1 hb⟩
  | (k, x) :: y :: xs, _, h => by
    obtain ⟨b, hb⟩ := jsonOk_derives x (h (k, x) (by simp)).2
    obtain ⟨b', hb'⟩ := membersOk_derives (y :: xs) (by simp) (fun z hz => h z (by simp [hz]))
    exact ⟨_, .memCons [] [] [] [] k x b _ b' ws_nil ws_nil ws_nil ws_nil (h (k, x) (by simp)).1 hb hb'⟩
end

theorem jsonOk_text {j : Json} (h : JsonOk j) : ∃ b, JText j b := by
  obtain ⟨b, hb⟩ := jsonOk_derives j h
  exact ⟨b, [], b, [], by simp, ws_nil, ws_nil, hb⟩

/-- decoding a text of a document -/
theorem unmarshal_tree {c : DCfg} (hl : LibOk c.lib) {n : Nat} {t : Ty} (ht : t.tree) {j : Json} {b : Bytes} (hj : JText j b) {p : DV}
    (hp : Held Ty.tree p n) (x : DV) : unmarshal c n t b p = .done x none ↔ decJN c n t j p = some x := by
  obtain ⟨f, g⟩ := unmarshal_of_ref (decN_ref hl n t ht (b.length + 1)) hj (by omega) hp
  constructor
  · intro h
    cases e : decJN c n t j p with
    | none => obtain ⟨v, e, k⟩ := g e; rw [h] at k; injection k with _ k; cases k
    | some y => have := f y e; rw [h] at this; injection this with this; rw [this]
  · exact f x

theorem decJF_get {c : DCfg} {dyn : Ty → Dec} {dynJ : Ty → JDec} : ∀ (fs : List (Bytes × Ty)) (i : Nat),
    (decJF c dyn dynJ fs)[i]? = fs[i]?.map fun f => decJ c dyn dynJ f.2
  | [], i => by simp [decJF]
  | (nm, t) :: fs, 0 => by simp [decJF]
  | (nm, t) :: fs, i + 1 => by simpa [decJF] using decJF_get fs i

theorem decJN_struct {c : DCfg} {n : Nat} {fs : List (Bytes × Ty)} : ∃ gs : List JDec,
    (∀ i : Nat, gs[i]? = fs[i]?.map fun f => decJN c n f.2) ∧ decJN c n (.struct fs) = structTyJ c (fs.map (·.1)) gs := by
  cases n with
  | zero => exact ⟨_, decJF_get fs, by simp only [decJN, decJ]⟩
  | succ n => exact ⟨_, decJF_get fs, by simp only [decJN, decJ]⟩

theorem treeF_get : ∀ {fs : List (Bytes × Ty)}, treeF fs → ∀ {i : Nat} {f : Bytes × Ty}, fs[i]? = some f → f.2.tree
  | (_, t) :: fs, h, 0, f, e => by injection e with e; subst e; exact h.1
  | (_, t) :: fs, h, i + 1, f, e => treeF_get (fs := fs) h.2 (i := i) (by simpa using e)

theorem decJN_pres {c : DCfg} (hl : LibOk c.lib) {n : Nat} {t : Ty} (ht : t.tree) {j : Json} {b : Bytes} (hj : JText j b) {p x : DV}
    (hp : Held Ty.tree p n) (h : decJN c n t j p = some x) : Held Ty.tree x n := by
  obtain ⟨w1, v, w2, rfl, h1, h2, hv⟩ := hj
  exact ((decN_ref hl n t ht (v.length + 1) j v hv (by omega) w2 (follow_of_numStop (numStop_ws h2)) p hp).1 x h).1

theorem heldL_set {Q : Ty → Prop} {n : Nat} {x : DV} (hx : Held Q x n) {ps : List DV} (h : HeldL Q ps n) (i : Nat) : HeldL Q (ps.set i x) n := by
  rw [heldL_iff] at *
  intro y hy
  rcases List.mem_or_eq_of_mem_set hy with h' | rfl
  · exact h y h'
  · exact hx

theorem members_iff {c : DCfg} (hl : LibOk c.lib) {n : Nat} {fs : List (Bytes × Ty)} (ht : treeF fs) {gs : List JDec}
    (hg : ∀ i : Nat, gs[i]? = fs[i]?.map fun f => decJN c n f.2) : ∀ (ms : List (Bytes × Json)),
    (∀ m ∈ ms, JString m.1 ∧ JsonOk m.2) → (c.noFold = true ∨ ((∀ f ∈ fs, Ascii f.1) ∧ ∀ m ∈ ms, ∀ k, KeyMeans m.1 k → Ascii k)) →
    ∀ (ps qs : List DV), ps.length = fs.length → HeldL Ty.tree ps n →
    (structJ c (fs.map (·.1)) gs ms ps = some qs ↔ Members c n fs ms ps qs)
  | [], _, _, ps, qs, _, _ => by
    simp only [structJ, Option.some.injEq]
    constructor
    · rintro rfl; exact .nil _
    · intro h; cases h; rfl
  | (raw, j) :: ms, ho, ha, ps, qs, hlen, hp => by
    obtain ⟨hs, hjo⟩ := ho (raw, j) (by simp)
    have hkm := keyMeans_unq hs
    have hsel : ∀ i, pickField c (fs.map (·.1)) (unq raw) = some i ↔ Selects (!c.noFold) (fs.map (·.1)) (unq raw) i := by
      refine fun i => pick_iff ?_ i
      rcases ha with h | ⟨h1, h2⟩
      · exact .inl h
      · refine .inr ⟨?_, h2 (raw, j) (by simp) _ ((hkm _).2 rfl)⟩
        intro nm hnm
        obtain ⟨f, hf, rfl⟩ := List.mem_map.1 hnm
        exact h1 f hf
    have ho' : ∀ m ∈ ms, JString m.1 ∧ JsonOk m.2 := fun m hm => ho m (by simp [hm])
    have ha' : c.noFold = true ∨ ((∀ f ∈ fs, Ascii f.1) ∧ ∀ m ∈ ms, ∀ k, KeyMeans m.1 k → Ascii k) :=
      ha.imp id fun h => ⟨h.1, fun m hm => h.2 m (by simp [hm])⟩
    obtain ⟨b, hb⟩ := jsonOk_text hjo
    rw [structJ]
    cases hpk : pickField c (fs.map (·.1)) (unq raw) with
    | none =>
      simp only []
      have hno : ∀ i, ¬ Selects (!c.noFold) (fs.map (·.1)) (unq raw) i := by
        intro i hi; rw [(hsel i).2 hi] at hpk; cases hpk
      cases hd : c.disallowUnknown with
      | true =>
        simp only [if_true]
        constructor
        · intro h; cases h
        · intro h
          cases h with
          | skip _ _ _ _ _ _ _ _ h => rw [hd] at h; cases h
          | field _ k i _ _ _ _ _ _ _ _ _ hk hs =>
            rw [(hkm k).1 hk] at hs; exact absurd hs (hno i)
      | false =>
        simp only [Bool.false_eq_true, if_false]
        rw [members_iff hl ht hg ms ho' ha' ps qs hlen hp]
        constructor
        · exact fun h => .skip raw _ j ms ps qs ((hkm _).2 rfl) hno hd h
        · intro h
          cases h with
          | skip _ _ _ _ _ _ _ _ _ h => exact h
          | field _ k i _ _ _ _ _ _ _ _ _ hk hs =>
            rw [(hkm k).1 hk] at hs; exact absurd hs (hno i)
    | some i =>
      simp only []
      have hi := (hsel i).1 hpk
      have hun : ∀ i', Selects (!c.noFold) (fs.map (·.1)) (unq raw) i' → i' = i := by
        intro i' h'; rw [(hsel i').2 h'] at hpk; injection hpk
      have hilt : i < fs.length := by
        have := pickField_lt hpk; simpa using this
      obtain ⟨⟨nm, t⟩, hft⟩ : ∃ f, fs[i]? = some f := ⟨_, List.getElem?_eq_getElem hilt⟩
      obtain ⟨p, hpi⟩ : ∃ p, ps[i]? = some p := ⟨_, List.getElem?_eq_getElem (by omega)⟩
      have htt : t.tree := treeF_get ht hft
      have hph : Held Ty.tree p n := heldL_iff.1 hp p (List.mem_of_getElem? hpi)
      have hgd : ps.getD i (.user none) = p := by rw [List.getD_eq_getElem?_getD, hpi]; rfl
      rw [hg i, hft, hgd]
      simp only [Option.map_some]
      cases hx : decJN c n t j p with
      | none =>
        simp only []
        constructor
        · intro h; cases h
        · intro h
          cases h with
          | skip _ k _ _ _ _ hk hno => rw [(hkm k).1 hk] at hno; exact absurd hi (hno i)
          | field _ k i' nm' t' p' q' _ b' _ _ _ hk hs hf' hp' hj' hu _ =>
            rw [(hkm k).1 hk] at hs
            obtain rfl := hun i' hs
            rw [hft] at hf'; injection hf' with hf'; injection hf' with _ hf'; subst hf'
            rw [hpi] at hp'; injection hp' with hp'; subst hp'
            rw [(unmarshal_tree hl htt hj' hph q').1 hu] at hx; cases hx
      | some x =>
        simp only []
        have hxh := decJN_pres hl htt hb hph hx
        rw [members_iff hl ht hg ms ho' ha' (ps.set i x) qs (by simpa using hlen) (heldL_set hxh hp i)]
        constructor
        · exact fun h => .field raw _ i nm t p x j b ms ps qs ((hkm _).2 rfl) hi hft hpi hb ((unmarshal_tree hl htt hb hph x).2 hx) h
        · intro h
          cases h with
          | skip _ k _ _ _ _ hk hno => rw [(hkm k).1 hk] at hno; exact absurd hi (hno i)
          | field _ k i' nm' t' p' q' _ b' _ _ _ hk hs hf' hp' hj' hu hms =>
            rw [(hkm k).1 hk] at hs
            obtain rfl := hun i' hs
            rw [hft] at hf'; injection hf' with hf'; injection hf' with _ hf'; subst hf'
            rw [hpi] at hp'; injection hp' with hp'; subst hp'
            rw [(unmarshal_tree hl htt hj' hph q').1 hu] at hx
            injection hx with hx; subst hx; exact hms

/-! ### C42 -/

/-- **C42** as stated, for the choice of the field. It fails when names or keys are
not ASCII. -/
def C42_statement : Prop := ∀ (c : DCfg) (names : List Bytes) (k : Bytes) (i : Nat),
  pickField c names k = some i ↔ Selects (!c.noFold) names k i

/-- **C42** (partial) The field chosen for a key. Missing: names and keys that are
not ASCII when case is ignored, where the claim is false. -/
theorem C42_selects_partial {c : DCfg} {names : List Bytes} {k : Bytes} (h : c.noFold = true ∨ ((∀ nm ∈ names, Ascii nm) ∧ Ascii k)) (i : Nat) :
    pickField c names k = some i ↔ Selects (!c.noFold) names k i := pick_iff h i

/-- **C42** (partial) A key that equals a field name selects that field, ASCII or not. -/
theorem C42_exact_partial (c : DCfg) {names : List Bytes} (hn : names.Nodup) {k : Bytes} {i : Nat} (hi : names[i]? = some k) :
    pickField c names k = some i := by
  unfold pickField
  have : lastIdx (fun n => n == k) names = some i := by
    refine lastIdx_some.2 ⟨⟨k, hi, by simp⟩, ?_⟩
    intro j x hj hx
    rw [beq_eq_false_iff_ne]
    rintro rfl
    have h1 := (List.getElem?_eq_some_iff.1 hi).1
    have h2 := (List.getElem?_eq_some_iff.1 hx).1
    have := (List.getElem_inj (h₀ := h1) (h₁ := h2) hn).1 (by
      rw [(List.getElem?_eq_some_iff.1 hi).2, (List.getElem?_eq_some_iff.1 hx).2])
    omega
  rw [this]

/-- **C42** (partial) Decoding an object into a struct: exactly when `Members` says so
does it succeed, and then with those contents. So each member goes to the field
its key selects and has the effect `Unmarshal` would have on that field alone,
and other members are skipped, or rejected under `DisallowUnknownFields`.
Missing: non-ASCII names and keys when case is ignored, and raw messages and
`Unmarshaler`s as fields, which see the text. -/
theorem C42_struct_partial {c : DCfg} (hl : LibOk c.lib) {n : Nat} {fs : List (Bytes × Ty)} (ht : treeF fs) {ms : List (Bytes × Json)} {b : Bytes}
    (hj : JText (.obj ms) b) (ha : c.noFold = true ∨ ((∀ f ∈ fs, Ascii f.1) ∧ ∀ m ∈ ms, ∀ k, KeyMeans m.1 k → Ascii k))
    {ps : List DV} (hlen : ps.length = fs.length) (hp : HeldL Ty.tree ps n) (v : DV) :
    unmarshal c n (.struct fs) b (.struct ps) = .done v none ↔ ∃ qs, v = .struct qs ∧ Members c n fs ms ps qs := by
  obtain ⟨gs, hg, e⟩ := decJN_struct (c := c) (n := n) (fs := fs)
  rw [unmarshal_tree hl (t := .struct fs) (by simpa only [Ty.tree] using ht) hj (by simpa only [Held] using hp) v, e]
  simp only [structTyJ, Option.map_eq_some_iff]
  constructor
  · rintro ⟨qs, h, rfl⟩
    exact ⟨qs, rfl, (members_iff hl ht hg ms (jsonOk_members (jtext_ok hj)) ha ps qs hlen hp).1 h⟩
  · rintro ⟨qs, rfl, h⟩
    exact ⟨qs, (members_iff hl ht hg ms (jsonOk_members (jtext_ok hj)) ha ps qs hlen hp).2 h, rfl⟩

/-- Fields `a`, `A`, `b`: the key `A` goes to the second, `B` to the third, `c` is
skipped, or an error under `DisallowUnknownFields`; the last `a` wins. -/
example : unmarshal { lib := noLib } 0 (.struct [(bs! "a", .bool), (bs! "A", .bool), (bs! "b", .bool)])
      (bs! "{\"A\":true,\"B\":true,\"c\":[1],\"a\":true,\"a\":false}") (.struct [.bool false, .bool false, .bool false]) =
      .done (.struct [.bool false, .bool true, .bool true]) none ∧
    unmarshal { lib := noLib, noFold := true } 0 (.struct [(bs! "a", .bool)]) (bs! "{\"A\":true}") (.struct [.bool false]) =
      .done (.struct [.bool false]) none ∧
    unmarshal { lib := noLib, disallowUnknown := true } 0 (.struct [(bs! "a", .bool)]) (bs! "{\"b\":true}") (.struct [.bool false]) =
      .done (.struct [.bool false]) (some .syntax) := ⟨rfl, rfl, rfl⟩

/-- Unicode's case folding of the letters `e` with acute and `a`, and lower case of
a string of lower case letters. -/
def accentLib : Lib := { noLib with simpleFold := fun r => if r = 0xe9 then 0xc9 else if r = 0xc9 then 0xe9 else if r = 0x61 then 0x41 else if r = 0x41 then 0x61 else r }

/-- **C42** fails outside ASCII: the key `éA` does not select the field `éa`, since
`appendToLower` (`/repo/parse.go:714-721`) turns the lower case letter `é` into its
upper case, unlike `strings.ToLower` for the field name. -/
theorem C42_fails_unicode : ¬ C42_statement := by
  intro h
  have := (h { lib := accentLib } [[0xc3, 0xa9, 0x61]] [0xc3, 0xa9, 0x41] 0).2
    (.inr ⟨by decide, rfl, ⟨_, rfl, .cons _ _ _ _ (.inl rfl) (.cons _ _ _ _ (.inl rfl) (.cons _ _ _ _ (.inr (.inr (by decide))) .nil))⟩,
      fun j nm hj => absurd hj (by omega)⟩)
  revert this
  decide +kernel

end JC.Props

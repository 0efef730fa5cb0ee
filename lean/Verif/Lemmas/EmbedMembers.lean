import Verif.Lemmas.EmbedSim
import Verif.Props.Struct
/-!
Decoding the members of an object into a struct with embedded structs.
-/
namespace JC
open Spec Props

theorem stores_unique {fs : List EF} {p : List Nat} {x : DV} {vs ws : List EV} (h : Stores fs p x vs ws) : ∀ {us : List EV}, Stores fs p x vs us → ws = us := by
  induction h with
  | leaf fs vs i nm g t x h =>
    intro us h'
    cases h' with
    | leaf => rfl
    | val _ _ _ _ _ _ _ _ _ _ hs => cases hs
    | ptr _ _ _ _ _ _ _ _ _ _ _ hs => cases hs
    | nil _ _ _ _ _ _ _ _ _ hs => cases hs
  | val fs vs i sub us us' p x h hv _ ih =>
    intro zs h'
    cases h' with
    | leaf _ _ _ _ _ _ _ h' => rw [h] at h'; injection h' with h'; cases h'
    | val _ _ _ _ _ _ _ _ h' hv' hs =>
      rw [h] at h'; injection h' with h'; injection h' with h'; subst h'
      rw [hv] at hv'; injection hv' with hv'; injection hv' with hv'; subst hv'
      rw [ih hs]
    | ptr _ _ _ _ _ _ _ _ _ h' => rw [h] at h'; injection h' with h'; cases h'
    | nil _ _ _ _ _ _ _ h' => rw [h] at h'; injection h' with h'; cases h'
  | ptr fs vs i u sub us us' p x h hv _ ih =>
    intro zs h'
    cases h' with
    | leaf _ _ _ _ _ _ _ h' => rw [h] at h'; injection h' with h'; cases h'
    | val _ _ _ _ _ _ _ _ h' => rw [h] at h'; injection h' with h'; cases h'
    | ptr _ _ _ _ _ _ _ _ _ h' hv' hs =>
      rw [h] at h'; injection h' with h'; injection h' with _ h'; subst h'
      rw [hv] at hv'; injection hv' with hv'; injection hv' with hv'; subst hv'
      rw [ih hs]
    | nil _ _ _ _ _ _ _ h' hv' => rw [hv] at hv'; injection hv' with hv'; cases hv'
  | nil fs vs i sub us' p x h hv _ ih =>
    intro zs h'
    cases h' with
    | leaf _ _ _ _ _ _ _ h' => rw [h] at h'; injection h' with h'; cases h'
    | val _ _ _ _ _ _ _ _ h' => rw [h] at h'; injection h' with h'; cases h'
    | ptr _ _ _ _ _ _ _ _ _ h' hv' => rw [hv] at hv'; injection hv' with hv'; cases hv'
    | nil _ _ _ _ _ _ _ h' hv' hs =>
      rw [h] at h'; injection h' with h'; injection h' with _ h'; subst h'
      rw [ih hs]

/-- `MembersE` in terms of the model's choice of a field and of decoding a document -/
inductive MJ (c : DCfg) (n : Nat) (fs : List EF) : List (Bytes × Json) → List EV → List EV → Prop
  | nil (vs : List EV) : MJ c n fs [] vs vs
  | skip (raw : Bytes) (j : Json) (ms : List (Bytes × Json)) (vs ws : List EV) :
      pickField c ((promoted fs).map (·.1)) (unq raw) = none → c.disallowUnknown = false → MJ c n fs ms vs ws → MJ c n fs ((raw, j) :: ms) vs ws
  | field (raw : Bytes) (i : Nat) (nm : Bytes) (p : List Nat) (t : Ty) (v x : DV) (j : Json) (ms : List (Bytes × Json)) (vs us ws : List EV) :
      pickField c ((promoted fs).map (·.1)) (unq raw) = some i → (promoted fs)[i]? = some (nm, p, t) → Reads fs vs p v →
      decJN c n t j v = some x → Stores fs p x vs us → MJ c n fs ms us ws → MJ c n fs ((raw, j) :: ms) vs ws

theorem reads_exists {fs : List EF} {p : List Nat} {t : Ty} (h : TypeAt fs p t) : ∀ {vs : List EV}, ShapeL fs vs → ∃ v, Reads fs vs p v := by
  induction h with
  | leaf fs i nm g t h =>
    intro vs hs
    obtain ⟨v, hv, hsv⟩ := shapeL_get hs h
    cases v with
    | leaf v => exact ⟨v, .leaf fs vs i nm g t v h hv⟩
    | val | nil | ptr => simp [Shape] at hsv
  | val fs i sub p t h _ ih =>
    intro vs hs
    obtain ⟨v, hv, hsv⟩ := shapeL_get hs h
    cases v with
    | val us =>
      obtain ⟨v, hr⟩ := ih (by simpa only [Shape] using hsv)
      exact ⟨v, .val fs vs i sub us p v h hv hr⟩
    | leaf | nil | ptr => simp [Shape] at hsv
  | ptr fs i u sub p t h ht ih =>
    intro vs hs
    obtain ⟨v, hv, hsv⟩ := shapeL_get hs h
    cases v with
    | nil => exact ⟨_, .nil fs vs i u sub p t h hv ht⟩
    | ptr us =>
      obtain ⟨v, hr⟩ := ih (by simpa only [Shape] using hsv)
      exact ⟨v, .ptr fs vs i u sub us p v h hv hr⟩
    | leaf | val => simp [Shape] at hsv

/-- what the promoted fields hold can be decoded into -/
def HeldE (n : Nat) (fs : List EF) (vs : List EV) : Prop := ∀ a ∈ promoted fs, ∀ x, Reads fs vs a.2.1 x → Held Ty.tree x n

theorem heldE_set {n : Nat} {fs : List EF} {vs ws : List EV} {i : Nat} {a : Promoted} {x : DV} (hs : ShapeL fs vs) (hh : HeldE n fs vs)
    (h : Stores fs a.2.1 x vs ws) (hx : Held Ty.tree x n) : HeldE n fs ws := by
  intro b hb y hy
  by_cases e : b.2.1 = a.2.1
  · rw [e] at hy
    rw [reads_unique hy (reads_self h hs)]; exact hx
  · obtain ⟨f, hf⟩ := List.getElem?_of_mem hb
    obtain ⟨f, _, _, _, hpl⟩ := promoted_get (nm := b.1) (p := b.2.1) (t := b.2.2) hf
    obtain ⟨z, hz⟩ := reads_exists hpl.typeAt hs
    rw [reads_unique hy (reads_other h e hz)]
    exact hh b hb z hz

section
variable {c : DCfg} {N : Nat} {fs : List EF} {input : Bytes}

def structFieldE (c : DCfg) (N : Nat) (flds : List EField) (input : Bytes) (n : Nat) (m : List Cell) (k b : Bytes) : CRes :=
  match pickField c (flds.map (·.sf.name)) k with
  | none =>
    if c.disallowUnknown then .err m b (.other 2)
    else match parseValue b with
      | .fail r e => .err m r e
      | .ok _ r => structLoopE c N flds input n false m r
  | some i =>
    match flds[i]? with
    | none => .crash .panic
    | some f =>
      match f.codec.decode c N b m f.off with
      | .crash c => .crash c
      | .err m _ e =>
        match parseValue input with
        | .fail r e2 => .err m r e2
        | .ok _ r => .err m r e
      | .ok m r => structLoopE c N flds input n false m r

def structMemberE (c : DCfg) (N : Nat) (flds : List EField) (input : Bytes) (n : Nat) (m : List Cell) (b : Bytes) : CRes :=
  match memberKey fieldKey true b with
  | .inl c => .crash c
  | .inr (.inl (r, e)) => .err m r e
  | .inr (.inr (kv, b)) => structFieldE c N flds input n m (keyRead kv) b

variable {flds : List EField} {n : Nat} {m : List Cell}

theorem loopE_succ {first : Bool} {b : Bytes} :
    structLoopE c N flds input (n + 1) first m b =
      if (skipSpaces b).head? = some 0x7d then .ok m (skipSpaces b).tail
      else match memberKey fieldKey first (skipSpaces b) with
        | .inl c => .crash c
        | .inr (.inl (r, e)) => .err m r e
        | .inr (.inr (kv, b)) => structFieldE c N flds input n m (keyRead kv) b := by
  rw [structLoopE_succ]; rfl

theorem loopE_close {first : Bool} {b r : Bytes} (h : skipSpaces b = 0x7d :: r) :
    structLoopE c N flds input (n + 1) first m b = .ok m r := by
  rw [loopE_succ, h]; simp

theorem loopE_comma {b t : Bytes} (h : skipSpaces b = 0x2c :: t) :
    structLoopE c N flds input (n + 1) false m b = structMemberE c N flds input n m (skipSpaces t) := by
  rw [loopE_succ, structMemberE, h, memberKey_comma]
  rw [if_neg (by simp)]

theorem loopE_first {b : Bytes} (h : (skipSpaces b).head? ≠ some 0x7d) :
    structLoopE c N flds input (n + 1) true m b = structMemberE c N flds input n m (skipSpaces b) := by
  rw [loopE_succ, structMemberE, if_neg h]

theorem loopE_skip {first : Bool} {b b' : Bytes} (h : skipSpaces b = skipSpaces b') :
    structLoopE c N flds input n first m b = structLoopE c N flds input n first m b' := by
  cases n with
  | zero => rfl
  | succ n => rw [loopE_succ, loopE_succ, h]

theorem memberE_ok {k w T : Bytes} (hk : JString k) (hw : Ws w) :
    structMemberE c N flds input n m (k ++ (w ++ 0x3a :: T)) = structFieldE c N flds input n m (unq k) (skipSpaces T) := by
  obtain ⟨nn, e⟩ := unquote_ok hk (w ++ 0x3a :: T)
  have : fieldKey (k ++ (w ++ 0x3a :: T)) = .ok (.string (unq k)) (w ++ 0x3a :: T) := by
    unfold fieldKey; rw [e]
  rw [structMemberE, memberKey_ok hk hw this]
  rfl

/-- one member, then the rest of the loop -/
theorem member_step (hl : LibOk c.lib) (ht : ∀ a ∈ promoted fs, a.2.2.tree) {raw : Bytes} {j : Json} {ms : List (Bytes × Json)} {vs : List EV}
    (hs : ShapeL fs vs) (hh : HeldE N fs vs) {w1 w2 w3 b T : Bytes} (hw1 : Ws w1) (hk : JString raw) (hw2 : Ws w2) (hw3 : Ws w3)
    (hj : Derives (.value j) b) (hT : NumStop T) :
    (∃ us, ShapeL fs us ∧ HeldE N fs us ∧ (∀ ws, MJ c N fs ((raw, j) :: ms) vs ws ↔ MJ c N fs ms us ws) ∧
      structMemberE c N (fieldsE fs) input n (memL vs) (skipSpaces (w1 ++ (raw ++ (w2 ++ 0x3a :: (w3 ++ (b ++ T)))))) =
        structLoopE c N (fieldsE fs) input n false (memL us) T) ∨
    ((∀ ws, ¬ MJ c N fs ((raw, j) :: ms) vs ws) ∧ ∀ m r', structMemberE c N (fieldsE fs) input n (memL vs)
      (skipSpaces (w1 ++ (raw ++ (w2 ++ 0x3a :: (w3 ++ (b ++ T)))))) ≠ .ok m r') := by
  rw [skipSpaces_ws_append hw1, jstring_skip hk, memberE_ok hk hw2, skip_ws_value hw3 hj]
  simp only [structFieldE, ← promoted_names]
  cases hp : pickField c ((promoted fs).map (·.1)) (unq raw) with
  | none =>
    cases hd : c.disallowUnknown with
    | true =>
      right
      refine ⟨fun ws h => ?_, by simp⟩
      cases h with
      | skip _ _ _ _ _ _ h => rw [hd] at h; cases h
      | field _ _ _ _ _ _ _ _ _ _ _ _ h => rw [hp] at h; cases h
    | false =>
      left
      rw [parseValue_complete hj (follow_of_numStop hT)]
      refine ⟨vs, hs, hh, fun ws => ⟨fun h => ?_, fun h => .skip raw j ms vs ws hp hd h⟩, rfl⟩
      cases h with
      | skip _ _ _ _ _ _ _ h => exact h
      | field _ _ _ _ _ _ _ _ _ _ _ _ h => rw [hp] at h; cases h
  | some i =>
    have hlt : i < (promoted fs).length := by have := pickField_lt hp; simpa using this
    obtain ⟨⟨nm, p, t⟩, ha⟩ : ∃ a, (promoted fs)[i]? = some a := ⟨_, List.getElem?_eq_getElem hlt⟩
    obtain ⟨f, hf, _, _, hpl⟩ := promoted_get ha
    obtain ⟨v, hr, hcase⟩ := decode_loc c N hpl hs
    have htt := ht _ (List.mem_of_getElem? ha)
    have hv := hh _ (List.mem_of_getElem? ha) v hr
    obtain ⟨h1, h2⟩ := decN_ref hl N t htt (b.length + 1) j b hj (by omega) T (follow_of_numStop hT) v hv
    simp only [hf]
    -- what a derivation must look like
    have inv : ∀ ws, MJ c N fs ((raw, j) :: ms) vs ws → ∃ x us, decJN c N t j v = some x ∧ Stores fs p x vs us ∧ MJ c N fs ms us ws := by
      intro ws h
      cases h with
      | skip _ _ _ _ _ h => rw [hp] at h; cases h
      | field _ i' nm' p' t' v' x' _ _ _ us _ hp' ha' hr' hx' hst' hm' =>
        rw [hp] at hp'; injection hp' with hp'; subst hp'
        rw [ha] at ha'; injection ha' with ha'; injection ha' with _ ha'; injection ha' with e1 e2; subst e1 e2
        rw [reads_unique hr' hr] at hx'
        exact ⟨x', us, hx', hst', hm'⟩
    rcases hcase with ⟨st, hst, hdec⟩ | ⟨hb, ws0, _, _, _, hdec⟩
    · rw [hdec]
      cases hx : decJN c N t j v with
      | some x =>
        obtain ⟨hxh, r', e, hrr⟩ := h1 x hx
        left
        refine ⟨st x, (stores_shape (hst x) hs).1, heldE_set (i := i) (a := (nm, p, t)) hs hh (hst x) hxh, fun ws => ⟨fun h => ?_, fun h => ?_⟩, ?_⟩
        · obtain ⟨x', us, hx', hst', hm'⟩ := inv ws h
          rw [hx] at hx'; injection hx' with hx'; subst hx'
          rw [stores_unique (hst x) hst']; exact hm'
        · exact .field raw i nm p t v x j ms vs (st x) ws hp ha hr hx (hst x) h
        · rw [e]
          exact loopE_skip (skip_or hrr)
      | none =>
        right
        refine ⟨fun ws h => ?_, ?_⟩
        · obtain ⟨x', us, hx', _⟩ := inv ws h
          rw [hx] at hx'; cases hx'
        · intro m r'
          cases hd : decN c N t (b ++ T) v with
          | crash q => simp [DRes.into]
          | err y r e => simp only [DRes.into]; split <;> simp
          | ok y r => exact absurd hd (h2 hx _ _)
    · rw [hdec]
      right
      refine ⟨fun ws h => ?_, ?_⟩
      · obtain ⟨x', us, _, hst', _⟩ := inv ws h
        exact stores_open hst' hb
      · intro m r'
        simp only []
        split <;> simp

theorem members_E (hl : LibOk c.lib) (ht : ∀ a ∈ promoted fs, a.2.2.tree) :
    ∀ (ms : List (Bytes × Json)) (u : Bytes), Derives (.members ms) u → ∀ (vs : List EV) (n : Nat) (r : Bytes), u.length < n →
      ShapeL fs vs → HeldE N fs vs → ∀ (m : List Cell) (r' : Bytes),
      structMemberE c N (fieldsE fs) input n (memL vs) (skipSpaces (u ++ 0x7d :: r)) = .ok m r' ↔ r' = r ∧ ∃ ws, m = memL ws ∧ MJ c N fs ms vs ws := by
  intro ms
  induction ms with
  | nil => intro u h; cases h
  | cons kj ms ih =>
    intro u h vs n r hn hs hh m r'
    obtain ⟨raw, j⟩ := kj
    obtain ⟨n, rfl⟩ : ∃ k, n = k + 1 := ⟨n - 1, by omega⟩
    cases h with
    | memOne w1 w2 w3 w4 _ _ b hw1 hw2 hw3 hw4 hk hj =>
      have e : w1 ++ raw ++ w2 ++ 0x3a :: (w3 ++ b ++ w4) ++ 0x7d :: r =
          w1 ++ (raw ++ (w2 ++ 0x3a :: (w3 ++ (b ++ (w4 ++ 0x7d :: r))))) := by simp
      rw [e]
      rcases member_step (ms := []) (input := input) (n := n + 1) hl ht hs hh hw1 hk hw2 hw3 hj (numStop_ws_cons hw4 (by simp) : NumStop (w4 ++ 0x7d :: r)) with
        ⟨us, hus, hhu, hm, es⟩ | ⟨hm, es⟩
      · rw [es, loopE_close (skip_ws_cons hw4 (by decide) r)]
        simp only [CRes.ok.injEq, hm]
        constructor
        · rintro ⟨rfl, rfl⟩; exact ⟨rfl, us, rfl, .nil _⟩
        · rintro ⟨rfl, ws, rfl, h⟩; cases h; exact ⟨rfl, rfl⟩
      · constructor
        · intro h; exact absurd h (es m r')
        · rintro ⟨_, ws, _, h⟩; exact absurd h (hm ws)
    | memCons w1 w2 w3 w4 _ _ b _ bs hw1 hw2 hw3 hw4 hk hj hbs =>
      have e : w1 ++ raw ++ w2 ++ 0x3a :: (w3 ++ b ++ w4 ++ 0x2c :: bs) ++ 0x7d :: r =
          w1 ++ (raw ++ (w2 ++ 0x3a :: (w3 ++ (b ++ (w4 ++ 0x2c :: (bs ++ 0x7d :: r)))))) := by simp
      simp only [List.length_append, List.length_cons] at hn
      rw [e]
      rcases member_step (ms := ms) (input := input) (n := n + 1) hl ht hs hh hw1 hk hw2 hw3 hj
          (numStop_ws_cons hw4 (by simp) : NumStop (w4 ++ 0x2c :: (bs ++ 0x7d :: r))) with
        ⟨us, hus, hhu, hm, es⟩ | ⟨hm, es⟩
      · rw [es, loopE_comma (skip_ws_cons hw4 (by decide) _), ih bs hbs us n r (by omega) hus hhu]
        simp only [hm]
      · constructor
        · intro h; exact absurd h (es m r')
        · rintro ⟨_, ws, _, h⟩; exact absurd h (hm ws)

/-- an object as a whole -/
theorem object_E (hl : LibOk c.lib) (ht : ∀ a ∈ promoted fs, a.2.2.tree) {ms : List (Bytes × Json)} {v : Bytes} (hj : Derives (.value (.obj ms)) v) {vs : List EV} (r : Bytes)
    (hs : ShapeL fs vs) (hh : HeldE N fs vs) (m : List Cell) (r' : Bytes) :
    decodeStructE c N (fieldsE fs) (v ++ r) (memL vs) = .ok m r' ↔ r' = r ∧ ∃ ws, m = memL ws ∧ MJ c N fs ms vs ws := by
  have hnp := hasNull_value hj r
  have open_ : ∀ u, v = 0x7b :: (u ++ [0x7d]) → decodeStructE c N (fieldsE fs) (v ++ r) (memL vs) =
      structLoopE c N (fieldsE fs) (v ++ r) ((v ++ r).length + 1) true (memL vs) (u ++ 0x7d :: r) := by
    intro u e
    unfold decodeStructE
    rw [hnp]
    simp only [isNullJ, Bool.false_eq_true, if_false]
    rw [e]
    simp only [List.cons_append, List.append_assoc, List.nil_append]
    rw [if_neg (by simp; omega)]
  cases hj with
  | objNil w hw =>
    rw [open_ w rfl, loopE_close (skip_ws_cons hw (by decide) r)]
    simp only [CRes.ok.injEq]
    constructor
    · rintro ⟨rfl, rfl⟩; exact ⟨rfl, vs, rfl, .nil _⟩
    · rintro ⟨rfl, ws, rfl, h⟩; cases h; exact ⟨rfl, rfl⟩
  | obj ms b hb =>
    obtain ⟨t, eh⟩ := derives_members_head hb (0x7d :: r)
    rw [open_ b rfl, loopE_first (by rw [eh]; simp)]
    exact members_E hl ht ms b hb vs _ r (by simp; omega) hs hh m r'

end

theorem mj_iff {c : DCfg} (hl : LibOk c.lib) {n : Nat} {fs : List EF} (ht : ∀ a ∈ promoted fs, a.2.2.tree) : ∀ (ms : List (Bytes × Json)),
    (∀ m ∈ ms, JString m.1 ∧ JsonOk m.2) → (c.noFold = true ∨ ((∀ a ∈ promoted fs, Ascii a.1) ∧ ∀ m ∈ ms, ∀ k, KeyMeans m.1 k → Ascii k)) →
    ∀ (vs ws : List EV), ShapeL fs vs → HeldE n fs vs → (MJ c n fs ms vs ws ↔ MembersE c n fs (promoted fs) ms vs ws)
  | [], _, _, vs, ws, _, _ => by
    constructor <;> intro h <;> cases h <;> constructor
  | (raw, j) :: ms, ho, ha, vs, ws, hs, hh => by
    obtain ⟨hstr, hjo⟩ := ho (raw, j) (by simp)
    have hkm := keyMeans_unq hstr
    have hsel : ∀ i, pickField c ((promoted fs).map (·.1)) (unq raw) = some i ↔ Selects (!c.noFold) ((promoted fs).map (·.1)) (unq raw) i := by
      refine fun i => pick_iff ?_ i
      rcases ha with h | ⟨h1, h2⟩
      · exact .inl h
      · refine .inr ⟨?_, h2 (raw, j) (by simp) _ ((hkm _).2 rfl)⟩
        intro nm hnm
        obtain ⟨f, hf, rfl⟩ := List.mem_map.1 hnm
        exact h1 f hf
    have ho' : ∀ m ∈ ms, JString m.1 ∧ JsonOk m.2 := fun m hm => ho m (by simp [hm])
    have ha' : c.noFold = true ∨ ((∀ a ∈ promoted fs, Ascii a.1) ∧ ∀ m ∈ ms, ∀ k, KeyMeans m.1 k → Ascii k) :=
      ha.imp id fun h => ⟨h.1, fun m hm => h.2 m (by simp [hm])⟩
    obtain ⟨b, hb⟩ := jsonOk_text hjo
    have ih := mj_iff (n := n) hl ht ms ho' ha'
    constructor
    · intro h
      cases h with
      | skip _ _ _ _ _ hp hd h =>
        refine .skip raw _ j ms vs ws ((hkm _).2 rfl) ?_ hd ((ih vs ws hs hh).1 h)
        intro i hi; rw [(hsel i).2 hi] at hp; cases hp
      | field _ i nm p t v x _ _ _ us _ hp hpr hr hx hst hm =>
        have hmem := List.mem_of_getElem? hpr
        have hv := hh _ hmem v hr
        have hxh := decJN_pres hl (ht _ hmem) hb hv hx
        exact .field raw _ i nm p t v x j b ms vs us ws ((hkm _).2 rfl) ((hsel i).1 hp) hpr hr hb ((unmarshal_tree hl (ht _ hmem) hb hv x).2 hx) hst
          ((ih us ws (stores_shape hst hs).1 (heldE_set (i := i) (a := (nm, p, t)) hs hh hst hxh)).1 hm)
    · intro h
      cases h with
      | skip _ k _ _ _ _ hk hno hd h =>
        rw [(hkm k).1 hk] at hno
        refine .skip raw j ms vs ws ?_ hd ((ih vs ws hs hh).2 h)
        cases hp : pickField c ((promoted fs).map (·.1)) (unq raw) with
        | none => rfl
        | some i => exact absurd ((hsel i).1 hp) (hno i)
      | field _ k i nm p t v x _ b' _ _ us _ hk hse hpr hr hb' hu hst hm =>
        rw [(hkm k).1 hk] at hse
        have hmem := List.mem_of_getElem? hpr
        have hv := hh _ hmem v hr
        have hx := (unmarshal_tree hl (ht _ hmem) hb' hv x).1 hu
        have hxh := decJN_pres hl (ht _ hmem) hb hv hx
        exact .field raw i nm p t v x j ms vs us ws ((hsel i).2 hse) hpr hr hx hst
          ((ih us ws (stores_shape hst hs).1 (heldE_set (i := i) (a := (nm, p, t)) hs hh hst hxh)).2 hm)

end JC

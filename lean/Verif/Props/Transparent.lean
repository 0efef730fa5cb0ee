import Verif.Lemmas.TransparentZero
import Verif.Lemmas.TransparentEnc
import Verif.Props.RunEncE
/-!
Property C87: embedding is transparent. `Unmarshal` into and `Marshal` of a variable of a type with embedded structs do what they do with a variable of the type
that has the promoted fields as its own; what is written comes back.
-/
namespace JC.Props
open JC Spec

/-- The full statement: what `Marshal` writes of any variable of a declared type is read by `Unmarshal` into a zero variable of the type so that all its
members hold what they held. -/
def C87_statement : Prop := ∀ c w d word letter env count rank tree mem t dep depth cf k l v u, GoEnvP env → Named env → GoType t → ClosedP env count t →
  Layered env.decls count rank → Unfolds letter env.decls tree → (∀ id a, Contains env t id a → MembersOf (tree id) (mem id)) → SizedP env dep → Sized (flatEnv env mem) depth →
  (∀ id, ∀ f ∈ (env id).fields, NoJsonU env.ty f.type) → NoJsonU env.ty t → cf.clrs = none → WsLayout cf → LibOk c.lib →
  Flat w env mem (fun id => zeroS w env dep (.ref id)) (reading w env.ty t) v u →
  IsVar c (flatDecls w env mem) (flatOmits d env mem) (flatEnv env mem) depth t u →
  ∃ out, appendP cf w d word letter env count t v [] l = .done out l none ∧ ∀ n, braces out < n → ∃ v',
    unmarshalV c w letter env count (fun t => zeroS w env dep (reading w env.ty t)) (fun id => zeroS w env dep (.ref id)) n k t out (zeroS w env dep (reading w env.ty t)) =
      .done v' none ∧ Flat w env mem (fun id => zeroS w env dep (.ref id)) (reading w env.ty t) v' (clip u)

section
variable {c : DCfg} {w : Decls} {d : MDecls} {word : GT → Bool → Bool} {letter : Nat → Bool} {env : PEnv} {count : Nat} {rank : Nat → Nat} {tree : Nat → List SItem}
  {mem : Nat → List (Bytes × List Nat)} {t : GT} {dep depth : Nat}

/-- The paths of the members lead to fields. -/
theorem members_reach (hc : ClosedP env count t) (hl : Layered env.decls count rank) (hp : ∀ id, ∀ f ∈ env.decls id, Plain letter f) (hu : Unfolds letter env.decls tree)
    {id : Nat} (hid : id < count) (ht : Tame (tree id)) (hm : MembersOf (tree id) (mem id))
    (hr : ∃ ss, (codecP letter env count t).2 id = some (some ss) ∧ ∀ s ∈ ss, ∃ k f, Reaches env id s.sf.path k f s.via) :
    ∀ m ∈ mem id, ∃ k f via, Reaches env id m.2 k f via := by
  intro m hmm
  obtain ⟨ss, h1, h2⟩ := hr
  have htab := codecP_table hc hl hp hu hid h1
  have hmem := members_eq hid hl hp hu ht hm
  rw [← htab, List.map_map] at hmem
  rw [hmem, List.mem_map] at hmm
  obtain ⟨s, hs, rfl⟩ := hmm
  obtain ⟨k, f, hre⟩ := h2 s hs
  exact ⟨k, f, s.via, hre⟩

theorem reach_dec (ho : Ordinary letter env count rank tree t) (hm : ∀ id a, Contains env t id a → MembersOf (tree id) (mem id)) :
    ∀ id a, Contains env t id a → ∀ m ∈ mem id, ∃ k f via, Reaches env id m.2 k f via := by
  intro id a hcon
  have hr := C79_dec_partial (letter := letter) ho.go ho.named ho.type ho.closed ho.fair
  obtain ⟨ss, h1, h2⟩ := hr.2 id a hcon
  refine members_reach ho.closed ho.layered ho.plain ho.unfolds (contains_lt ho.closed hcon) (ho.tame id a hcon) (hm id a hcon) ⟨ss, h1, fun s hs => ?_⟩
  obtain ⟨k, f, hre, _⟩ := h2 s hs
  exact ⟨k, f, hre⟩

theorem reach_enc (ho : OrdinaryEnc letter env count rank tree t) (hm : ∀ id a, Contains env t id a → MembersOf (tree id) (mem id)) :
    ∀ id a, Contains env t id a → ∀ m ∈ mem id, ∃ k f via, Reaches env id m.2 k f via := by
  intro id a hcon
  have hr := C79_enc_partial (letter := letter) ho.go ho.named ho.type ho.closed ho.fair ho.oneWay
  obtain ⟨ss, h1, h2⟩ := hr.2 id a hcon
  refine members_reach ho.closed ho.layered ho.plain ho.unfolds (contains_lt ho.closed hcon) (ho.tame id a hcon) (hm id a hcon) ⟨ss, h1, fun s hs => ?_⟩
  obtain ⟨k, f, hre, _⟩ := h2 s hs
  exact ⟨k, f, hre⟩

theorem refs_reading {id : Nat} : ∀ (t : GT) (a : Bool), id ∈ (reading w env.ty t).refs → ∃ a', (id, a') ∈ ctx t a := by
  have hb : ∀ {m : Meths} {t : GT} {s : NTy}, id ∈ (byMethod w m t s).refs → id ∈ s.refs := by
    intro m t s h
    unfold byMethod at h
    repeat' split at h
    all_goals first | exact h | simp [NTy.refs] at h
  intro t
  induction t with
  | special s => intro a h; simp [reading, NTy.refs] at h
  | basic k m => intro a h; rw [reading] at h; have := hb h; simp [NTy.refs] at this
  | ifc m => intro a h; simp [reading, NTy.refs] at h
  | array n e m ih => intro a h; rw [reading] at h; have := hb h; simp only [NTy.refs] at this; exact ih a this
  | slice e m ih =>
    intro a h; rw [reading] at h; have := hb h
    split at this
    · simp [NTy.refs] at this
    · exact ih true this
  | map k e m ih =>
    intro a h; rw [reading] at h; have := hb h
    repeat' split at this
    · simp [NTy.refs] at this
    · simp [NTy.refs] at this
    · exact ih false this
    · simp [NTy.refs] at this
  | ptr e ih => intro a h; rw [reading] at h; exact ih true h
  | struct id' => intro a h; rw [reading] at h; have := hb h; simp [NTy.refs] at this; subst this; exact ⟨a, by simp [ctx]⟩
  | other m => intro a h; rw [reading] at h; have := hb h; simp [NTy.refs] at this

theorem refs_field {id : Nat} {f : GT × Bool} (a : Bool) (h : id ∈ (fieldReading w env.ty f).refs) : ∃ a', (id, a') ∈ ctx f.1 a := by
  unfold fieldReading at h
  split at h
  · split at h
    · simp [NTy.refs] at h
    · simp [NTy.refs] at h
    · exact refs_reading f.1 a h
  · exact refs_reading f.1 a h

/-- A place and the field it has. -/
theorem place_reaches {id k : Nat} {p : List Nat} {f : PField} {via : List Bool} (h : Reaches env id p k f via) {q : Spec.Place} (hq : place env id p = some q) : q.field = f := by
  obtain ⟨q', h1, h2, _⟩ := atPath_place (zs := fun _ => .ptrNil) (dec := fun _ _ _ => .crash .panic) h
  rw [hq] at h1
  cases h1
  exact h2

/-- The struct types that a variable can contain are as `FlatOk` asks. -/
theorem flatOk_of (hre : ∀ id a, Contains env t id a → ∀ m ∈ mem id, ∃ k f via, Reaches env id m.2 k f via) (hm : ∀ id a, Contains env t id a → MembersOf (tree id) (mem id))
    (hopen : ∀ id a, Contains env t id a → ∀ q ∈ places env mem id, OpenWay q.way) : FlatOk w env mem fun id => ∃ a, Contains env t id a := by
  refine ⟨?_, ?_, ?_, ?_⟩
  · rintro id ⟨a, hcon⟩ m hmm
    obtain ⟨k, f, via, h⟩ := hre id a hcon m hmm
    obtain ⟨q, hq, _⟩ := atPath_place (zs := fun _ => .ptrNil) (dec := fun _ _ _ => .crash .panic) h
    exact ⟨q, hq⟩
  · rintro id ⟨a, hcon⟩
    have hpw := (hm id a hcon).1
    have hall := hre id a hcon
    unfold places
    revert hpw hall
    generalize mem id = l
    intro hpw hall
    have main : ∀ l : List (Bytes × List Nat), (l.map (·.2)).Pairwise Before → (∀ m ∈ l, ∃ k f via, Reaches env id m.2 k f via) →
        (l.filterMap fun m => place env id m.2).Pairwise fun q q' => ApartW q.way q.idx q'.way q'.idx ∧ ApartW q'.way q'.idx q.way q.idx := by
      intro l
      induction l with
      | nil => intro _ _; simp
      | cons m l ih =>
        intro hp hr
        have hp' := List.pairwise_cons.1 hp
        have ih' := ih hp'.2 fun m hm => hr m (List.mem_cons_of_mem _ hm)
        cases hq : place env id m.2 with
        | none => simpa [List.filterMap_cons, hq] using ih'
        | some q =>
          simp only [List.filterMap_cons, hq]
          refine List.pairwise_cons.2 ⟨?_, ih'⟩
          intro q' hq'
          obtain ⟨m', hm', hpl⟩ := List.mem_filterMap.1 hq'
          obtain ⟨_, _, _, r1⟩ := hr m (by simp)
          obtain ⟨_, _, _, r2⟩ := hr m' (List.mem_cons_of_mem _ hm')
          have hb := hp'.1 m'.2 (List.mem_map.2 ⟨m', hm', rfl⟩)
          have hne : m.2 ≠ m'.2 := fun e => C40_before_irrefl _ (e ▸ hb)
          exact ⟨place_apart r1 r2 hne hq hpl, place_apart r2 r1 (Ne.symm hne) hpl hq⟩
    have := List.pairwise_iff_getElem.1 (main l hpw hall)
    intro i j q q' hij hi hj
    obtain ⟨l1, g1⟩ := List.getElem?_eq_some_iff.1 hi
    obtain ⟨l2, g2⟩ := List.getElem?_eq_some_iff.1 hj
    rcases Nat.lt_or_gt_of_ne hij with h | h
    · have := (this i j l1 l2 h).1
      rwa [g1, g2] at this
    · have := (this j i l2 l1 h).2
      rwa [g1, g2] at this
  · rintro id ⟨a, hcon⟩
    exact hopen id a hcon
  · rintro id ⟨a, hcon⟩ q hq id' hid'
    obtain ⟨m, hmm, hpl⟩ := List.mem_filterMap.1 hq
    obtain ⟨k, f, via, hr⟩ := hre id a hcon m hmm
    obtain ⟨hf, hs, _⟩ := reaches_field hr
    have hk := reaches_contains hr a hcon
    rw [place_reaches hr hpl] at hid'
    obtain ⟨a', ha'⟩ := refs_field (f := option f) _ hid'
    exact ⟨a', .field hk hf hs ha'⟩

/-! ### The flat types are ordinary too -/

theorem place_owner {count : Nat} (hc : ∀ id, id < count → ∀ f ∈ (env id).fields, ∀ x ∈ ctx f.type false, x.1 < count) : ∀ (p : List Nat) {id : Nat} {q : Spec.Place}, id < count →
    place env id p = some q → ∃ k, k < count ∧ q.field ∈ (env k).fields
  | [], _, _, _, h => by simp [place] at h
  | [i], id, q, hid, h => by
    simp only [place, Option.map_eq_some_iff] at h
    obtain ⟨f, hf, rfl⟩ := h
    exact ⟨id, hid, List.mem_of_getElem? hf⟩
  | i :: j :: p, id, q, hid, h => by
    simp only [place] at h
    split at h
    · cases h
    · rename_i f hf
      split at h
      · cases h
      · rename_i id' ptr he
        rw [Option.map_eq_some_iff] at h
        obtain ⟨q0, h0, rfl⟩ := h
        have hx := embeds_mem he false
        exact place_owner (q := q0) hc (j :: p) (hc id hid f (List.mem_of_getElem? hf) _ hx) h0

theorem place_member : ∀ (p : List Nat) {id : Nat} {q : Spec.Place}, place env id p = some q → ∃ k, q.field ∈ (env k).fields
  | [], _, _, h => by simp [place] at h
  | [i], id, q, h => by
    simp only [place, Option.map_eq_some_iff] at h
    obtain ⟨f, hf, rfl⟩ := h
    exact ⟨id, List.mem_of_getElem? hf⟩
  | i :: j :: p, id, q, h => by
    simp only [place] at h
    split at h
    · cases h
    · split at h
      · cases h
      · rw [Option.map_eq_some_iff] at h
        obtain ⟨q0, h0, rfl⟩ := h
        exact place_member (q := q0) (j :: p) h0

theorem flat_goEnv (h : GoEnvP env) : GoEnv (flatEnv env mem) := by
  intro id
  refine ⟨(h id).1, ?_⟩
  intro f hf
  obtain ⟨q, hq, rfl⟩ := List.mem_map.1 hf
  obtain ⟨m, _, hpl⟩ := List.mem_filterMap.1 hq
  obtain ⟨k, hk⟩ := place_member _ hpl
  exact (h k).2 _ hk

theorem flat_closed (h : ClosedP env count t) : Closed (flatEnv env mem) count t := by
  refine ⟨h.1, ?_⟩
  intro id hid f hf x hx
  obtain ⟨q, hq, rfl⟩ := List.mem_map.1 hf
  obtain ⟨m, _, hpl⟩ := List.mem_filterMap.1 hq
  obtain ⟨k, hk, hf⟩ := place_owner h.2 _ hid hpl
  exact h.2 k hk _ hf x hx

theorem flat_names : HasNames (flatDecls w env mem) (flatEnv env mem) := by
  intro id
  simp only [flatDecls, flatEnv, places, List.length_map]
  generalize mem id = l
  induction l with
  | nil => rfl
  | cons m l ih =>
    cases hq : place env id m.2 <;> simp [hq, ih]

theorem reaches_treats {id k : Nat} {p : List Nat} {f : PField} {via : List Bool} (h : Reaches env id p k f via) : ∀ {a : Bool}, Treats env t id a → Treats env t k a := by
  induction h with
  | here _ _ _ _ _ _ => intro a h; exact h
  | there id i f id' ptr p k g via hf hs he _ ih => intro a h; exact ih (.embed h (List.mem_of_getElem? hf) hs he)

/-- What a flat struct can contain. -/
theorem meets_flat (hre : ∀ id a, Contains env t id a → ∀ m ∈ mem id, ∃ k f via, Reaches env id m.2 k f via) {id : Nat} {a : Bool} (h : Meets (flatEnv env mem) t id a) :
    (∃ a', Contains env t id a') ∧ Treats env t id a := by
  induction h with
  | root h => exact ⟨⟨_, .root h⟩, .root h⟩
  | @field id id' a a' f _ hf hx ih =>
    obtain ⟨⟨b, hcon⟩, htr⟩ := ih
    obtain ⟨q, hq, rfl⟩ := List.mem_map.1 hf
    obtain ⟨m, hm, hpl⟩ := List.mem_filterMap.1 hq
    obtain ⟨k, f, via, hr⟩ := hre id b hcon m hm
    rw [place_reaches hr hpl] at hx
    obtain ⟨hfm, hs, he⟩ := reaches_field hr
    refine ⟨?_, .field (reaches_treats hr htr) hfm hs he hx⟩
    obtain ⟨c, hx'⟩ := ctx_mem hx (b || !via.isEmpty)
    exact ⟨c, .field (reaches_contains hr b hcon) hfm hs hx'⟩

/-- A field of a flat struct. -/
theorem flat_field (hre : ∀ id a, Contains env t id a → ∀ m ∈ mem id, ∃ k f via, Reaches env id m.2 k f via) {id : Nat} {a : Bool} (h : Meets (flatEnv env mem) t id a)
    {f : GT × Bool} (hf : f ∈ (flatEnv env mem id).fields) :
    ∃ k g, f = option g ∧ g ∈ (env k).fields ∧ Shown g ∧ embeds g = none ∧ (∃ b, Contains env t k b) ∧ ∀ a, Treats env t id a → Treats env t k a := by
  obtain ⟨⟨b, hcon⟩, htr⟩ := meets_flat hre h
  obtain ⟨q, hq, rfl⟩ := List.mem_map.1 hf
  obtain ⟨m, hm, hpl⟩ := List.mem_filterMap.1 hq
  obtain ⟨k, g, via, hr⟩ := hre id b hcon m hm
  obtain ⟨hfm, hs, he⟩ := reaches_field hr
  exact ⟨k, g, by rw [place_reaches hr hpl], hfm, hs, he, ⟨_, reaches_contains hr b hcon⟩, fun a h => reaches_treats hr h⟩

theorem flat_fairDec (hre : ∀ id a, Contains env t id a → ∀ m ∈ mem id, ∃ k f via, Reaches env id m.2 k f via) (h : AllFairDecP env t) : AllFairDec (flatEnv env mem) t := by
  refine ⟨h.1, ?_⟩
  intro id a hmt f hf
  obtain ⟨k, g, rfl, h1, h2, h3, ⟨b, h4⟩, _⟩ := flat_field hre hmt hf
  exact h.2 k b h4 g h1 h2 h3

theorem flat_keys (hre : ∀ id a, Contains env t id a → ∀ m ∈ mem id, ∃ k f via, Reaches env id m.2 k f via) (h : NoDurKeysP env t) : AllNoDurKeys (flatEnv env mem) t := by
  refine ⟨h.1, ?_⟩
  intro id a hmt f hf
  obtain ⟨k, g, rfl, h1, h2, h3, ⟨b, h4⟩, _⟩ := flat_field hre hmt hf
  exact h.2 k b h4 g h1 h2 h3

theorem fairEnc_flat : ∀ t : GT, FairEnc env.ty t → FairEnc (flatEnv env mem) t
  | .special _, _ => trivial
  | .ifc _, _ => trivial
  | .basic _ _, h => h
  | .other _, h => h
  | .array _ e _, h => ⟨h.1, fairEnc_flat e h.2⟩
  | .slice e _, h => ⟨h.1, fairEnc_flat e h.2⟩
  | .map _ e _, h => ⟨h.1, h.2.1, fairEnc_flat e h.2.2⟩
  | .ptr e, h => fairEnc_flat e h
  | .struct _, h => h

theorem flat_fairEnc (hre : ∀ id a, Contains env t id a → ∀ m ∈ mem id, ∃ k f via, Reaches env id m.2 k f via) (h : AllFairEncP env t) : AllFairEnc (flatEnv env mem) t := by
  refine ⟨fairEnc_flat t h.1, ?_⟩
  intro id a hmt f hf
  obtain ⟨k, g, rfl, h1, h2, h3, ⟨b, h4⟩, _⟩ := flat_field hre hmt hf
  have := h.2 k b h4 g h1 h2 h3
  exact ⟨fairEnc_flat _ this.1, this.2⟩

theorem goEnc_flat : ∀ (t : GT) (a : Bool), goEnc (flatEnv env mem) t a = goEnc env.ty t a
  | .special _, _ => rfl
  | .ifc _, _ => rfl
  | .basic _ _, _ => rfl
  | .other _, _ => rfl
  | .array _ e _, a => by simp only [goEnc, goEnc_flat e]
  | .slice e _, a => by simp only [goEnc, goEnc_flat e]
  | .map _ e _, a => by simp only [goEnc, goEnc_flat e]
  | .ptr e, a => by simp only [goEnc, goEnc_flat e, goPtrMeths_flat]
  | .struct _, _ => rfl

theorem flat_oneWay (hre : ∀ id a, Contains env t id a → ∀ m ∈ mem id, ∃ k f via, Reaches env id m.2 k f via) (h : OneWayP env t) : OneWay (flatEnv env mem) t := by
  have hf : ∀ a g, goFieldEnc (flatEnv env mem) a (option g) = goFieldEnc env.ty a (option g) := by
    intro a g
    simp only [goFieldEnc, goEnc_flat]
  intro id a a' h1 h2 f hfm
  obtain ⟨k, g, rfl, h3, h4, h5, ⟨b, h6⟩, h7⟩ := flat_field hre h1 hfm
  rw [hf, hf, ← h k b a h6 (h7 a (meets_flat hre h1).2) g h3 h4 h5, ← h k b a' h6 (h7 a' (meets_flat hre h2).2) g h3 h4 h5]

theorem noJsonU_flat : ∀ t : GT, NoJsonU env.ty t → NoJsonU (flatEnv env mem) t
  | .special _, h => h
  | .ifc _, _ => trivial
  | .basic _ _, h => h
  | .other _, h => h
  | .array _ e _, h => ⟨h.1, noJsonU_flat e h.2⟩
  | .slice e _, h => ⟨h.1, noJsonU_flat e h.2⟩
  | .map _ e _, h => ⟨h.1, noJsonU_flat e h.2⟩
  | .ptr e, h => noJsonU_flat e h
  | .struct _, h => h

/-! ### The theorems -/

/-- **C87** (partial: no pointers to unexported types are embedded on the way to a promoted field; field options as in C85) `Unmarshal` into a variable of a type
with embedded structs does to it what it does to a variable of the type that has the promoted fields as its own: the same errors, and
what the fields hold afterwards is the same.
Missing from the full statement: embedded pointers to unexported types, which cannot be set (`C87_fails_unexported`). -/
theorem C87_decode_partial (ho : Ordinary letter env count rank tree t) (hm : ∀ id a, Contains env t id a → MembersOf (tree id) (mem id))
    (hopen : ∀ id a, Contains env t id a → ∀ q ∈ places env mem id, OpenWay q.way) (hs : SizedP env dep) (hf : Sized (flatEnv env mem) depth)
    (n k : Nat) (b : Bytes) {v u : DV} (h : Flat w env mem (fun id => zeroS w env dep (.ref id)) (reading w env.ty t) v u) :
    SameEnd (Flat w env mem (fun id => zeroS w env dep (.ref id)) (reading w env.ty t))
      (unmarshalV c w letter env count (fun t => zeroS w env dep (reading w env.ty t)) (fun id => zeroS w env dep (.ref id)) n k t b v)
      (unmarshalG c (flatDecls w env mem) (flatEnv env mem) count
        (fun t => zeroR (envReading (flatDecls w env mem) (flatEnv env mem)) depth (reading (flatDecls w env mem) (flatEnv env mem) t)) n k t b u) := by
  have hre := reach_dec ho hm
  have hok : FlatOk w env mem fun id => ∃ a, Contains env t id a := flatOk_of hre hm hopen
  have hz := flat_zero (depth := depth) hok (fun id ⟨a, hc⟩ => hre id a hc) hs hf
  rw [C82_reading_partial (flat_goEnv ho.go) ho.type (flat_closed ho.closed) (flat_fairDec hre ho.fair) (flat_keys hre ho.keys) flat_names, reading_flat,
    C85_unmarshal_partial (z := zeroS w env dep) ho hm (fun _ => zeroS_base _)]
  have hP : ∀ id ∈ (reading w env.ty t).refs, ∃ a, Contains env t id a := by
    intro id hid
    obtain ⟨a, ha⟩ := refs_reading t false hid
    exact ⟨a, .root ha⟩
  have hal := alike_decWith (c := c) (dyn := dynN c k) hz (alike_structS (c := c) (dyn := dynN c k) hok hz n) _ hP (skipSpaces b) v u h
  unfold unmarshalS unmarshalR parseInto
  rw [dynN_decNR, decR]
  revert hal
  generalize decWith c (dynN c k) (structS c (dynN c k) w env mem (zeroS w env dep) n) _ _ (skipSpaces b) v = x
  generalize decWith c (dynN c k) (structR c (dynN c k) _ depth n) _ _ (skipSpaces b) u = y
  intro hal
  cases hal with
  | ok r h => exact ⟨rfl, h⟩
  | err r e h => exact ⟨rfl, h⟩
  | crash x => exact rfl

/-- A zero variable holds zero fields. -/
theorem C87_zero (ho : Ordinary letter env count rank tree t) (hm : ∀ id a, Contains env t id a → MembersOf (tree id) (mem id))
    (hopen : ∀ id a, Contains env t id a → ∀ q ∈ places env mem id, OpenWay q.way) (hs : SizedP env dep) (hf : Sized (flatEnv env mem) depth) :
    Flat w env mem (fun id => zeroS w env dep (.ref id)) (reading w env.ty t) (zeroS w env dep (reading w env.ty t))
      (zeroR (envReading (flatDecls w env mem) (flatEnv env mem)) depth (reading (flatDecls w env mem) (flatEnv env mem) t)) := by
  have hre := reach_dec ho hm
  have hok : FlatOk w env mem fun id => ∃ a, Contains env t id a := flatOk_of hre hm hopen
  rw [reading_flat]
  refine flat_zero (depth := depth) hok (fun id ⟨a, hc⟩ => hre id a hc) hs hf _ ?_
  intro id hid
  obtain ⟨a, ha⟩ := refs_reading t false hid
  exact ⟨a, .root ha⟩

/-- **C87** (partial: no promoted field is behind a nil pointer; types without methods that write) `Marshal` of a variable of a type with embedded structs writes
what it writes for a variable of the type that has the promoted fields as its own.
Missing from the full statement: fields behind nil pointers, which `encoding/json` leaves out and this package leaves out with a comma too many (`C86_fails_comma`). -/
theorem C87_encode_partial (ho : OrdinaryEnc letter env count rank tree t) (hm : ∀ id a, Contains env t id a → MembersOf (tree id) (mem id)) (cf : Cfg) {zs : Nat → DV} {v u : DV}
    (hs : Settled env mem t v) (h : Flat w env mem zs (reading w env.ty t) v u) (hu : IsVar c (flatDecls w env mem) (flatOmits d env mem) (flatEnv env mem) depth t u) :
    appendP cf w d word letter env count t v = appendG cf (flatDecls w env mem) (flatOmits d env mem) (flatEnv env mem) count t u := by
  have hre := reach_enc ho hm
  rw [C83_view_partial (flat_goEnv ho.go) ho.type (flat_closed ho.closed) (flat_fairEnc hre ho.fair) (flat_oneWay hre ho.oneWay) (flat_keys hre ho.keys),
    C86_settled_partial ho hm cf v hs, viewS, flat_view hu v _ false false h hs (Nat.le_refl _)]

/-- **C87** (partial, as above; no raw messages or `Unmarshaler`s) What `Marshal` writes of a variable of a type with embedded structs, `Unmarshal` reads into a zero
variable of the type so that all promoted fields hold what they held. -/
theorem C87_roundtrip_partial (ho : Ordinary letter env count rank tree t) (hoe : OrdinaryEnc letter env count rank tree t)
    (hm : ∀ id a, Contains env t id a → MembersOf (tree id) (mem id))
    (hopen : ∀ id a, Contains env t id a → ∀ q ∈ places env mem id, OpenWay q.way) (hs : SizedP env dep) (hf : Sized (flatEnv env mem) depth)
    (hj : ∀ id, ∀ f ∈ (env id).fields, NoJsonU env.ty f.type) (ht : NoJsonU env.ty t) (cf : Cfg) (hcl : cf.clrs = none) (hw : WsLayout cf) (hl : LibOk c.lib) (k l : Nat)
    {v u : DV} (hv : Settled env mem t v) (h : Flat w env mem (fun id => zeroS w env dep (.ref id)) (reading w env.ty t) v u)
    (hu : IsVar c (flatDecls w env mem) (flatOmits d env mem) (flatEnv env mem) depth t u) :
    ∃ out, appendP cf w d word letter env count t v [] l = .done out l none ∧ ∀ n, braces out < n → ∃ v',
      unmarshalV c w letter env count (fun t => zeroS w env dep (reading w env.ty t)) (fun id => zeroS w env dep (.ref id)) n k t out (zeroS w env dep (reading w env.ty t)) =
        .done v' none ∧ Flat w env mem (fun id => zeroS w env dep (.ref id)) (reading w env.ty t) v' (clip u) := by
  have hre := reach_enc hoe hm
  have hj' : ∀ id, ∀ f ∈ (flatEnv env mem id).fields, NoJsonU (flatEnv env mem) f.1 := by
    intro id f hf
    obtain ⟨q, hq, rfl⟩ := List.mem_map.1 hf
    obtain ⟨m, _, hpl⟩ := List.mem_filterMap.1 hq
    obtain ⟨k, hk⟩ := place_member _ hpl
    exact noJsonU_flat _ (hj k _ hk)
  obtain ⟨out, h1, h2⟩ := C83_roundtrip_partial (flat_goEnv ho.go) ho.type (flat_closed ho.closed) (flat_fairEnc hre hoe.fair) (flat_oneWay hre hoe.oneWay)
    (flat_fairDec hre ho.fair) (flat_keys hre ho.keys) flat_names hf hj' (noJsonU_flat t ht) cf hcl hw hl k l hu
  refine ⟨out, ?_, ?_⟩
  · rw [C87_encode_partial hoe hm cf hv h hu, h1]
  · intro n hn
    have hd := C87_decode_partial (c := c) ho hm hopen hs hf n k out (C87_zero (w := w) ho hm hopen hs hf)
    rw [h2 n hn] at hd
    revert hd
    cases unmarshalV c w letter env count (fun t => zeroS w env dep (reading w env.ty t)) (fun id => zeroS w env dep (.ref id)) n k t out (zeroS w env dep (reading w env.ty t)) with
    | crash x => intro hd; exact hd.elim
    | done v' e => rintro ⟨rfl, hd⟩; exact ⟨v', rfl, hd⟩

/-- What a variable of the flat type holds is determined. -/
theorem C87_flat_unique {zs : Nat → DV} {t : NTy} {v u u' : DV} (h : Flat w env mem zs t v u) : Flat w env mem zs t v u' → u = u' := by
  have lists : ∀ {R : DV → DV → Prop} {xs us us' : List DV}, xs.length = us.length → xs.length = us'.length →
      (∀ (i : Nat) (x u : DV), xs[i]? = some x → us[i]? = some u → ∀ u', R x u' → u = u') → (∀ (i : Nat) (x u : DV), xs[i]? = some x → us'[i]? = some u → R x u) → us = us' := by
    intro R xs us us' h1 h2 h3 h4
    refine List.ext_getElem (by omega) ?_
    intro i g1 g2
    exact h3 i (xs[i]'(by omega)) us[i] (List.getElem?_eq_getElem _) (List.getElem?_eq_getElem _) _
      (h4 i (xs[i]'(by omega)) us'[i] (List.getElem?_eq_getElem _) (List.getElem?_eq_getElem _))
  induction h generalizing u' with
  | base v => intro h; cases h; rfl
  | sliceNil => intro h; cases h; rfl
  | slice h1 _ h3 _ ih1 ih2 =>
    intro h
    cases h with
    | slice g1 g2 g3 g4 =>
      rw [lists h1 g1 (fun i x u hx hu u' h => ih1 i x u hx hu h) g2, lists h3 g3 (fun i x u hx hu u' h => ih2 i x u hx hu h) g4]
  | array h1 _ ih =>
    intro h
    cases h with
    | array g1 g2 => rw [lists h1 g1 (fun i x u hx hu u' h => ih i x u hx hu h) g2]
  | mapNil => intro h; cases h; rfl
  | @map k t xs us h1 _ ih =>
    intro h
    cases h with
    | @map _ _ _ us' g1 g2 =>
      have l1 := congrArg List.length h1
      have l2 := congrArg List.length g1
      simp only [List.length_map] at l1 l2
      congr 1
      refine List.ext_getElem (by omega) ?_
      intro i i1 i2
      have e1 := ih i (xs[i]'(by omega)) us[i] (List.getElem?_eq_getElem _) (List.getElem?_eq_getElem _)
        (g2 i (xs[i]'(by omega)) us'[i] (List.getElem?_eq_getElem _) (List.getElem?_eq_getElem _))
      have e2 : (us.map (·.1))[i]? = (us'.map (·.1))[i]? := by rw [← h1, ← g1]
      simp [List.getElem?_eq_getElem i1, List.getElem?_eq_getElem i2] at e2
      exact Prod.ext e2 e1
  | ptrNil => intro h; cases h; rfl
  | ptr _ ih =>
    intro h
    cases h with
    | ptr h => rw [ih h]
  | @struct id xs us _ h2 _ ih =>
    intro h
    cases h with
    | @struct _ _ us' _ g2 g3 =>
      congr 1
      refine List.ext_getElem (by omega) ?_
      intro i i1 i2
      exact ih i ((places env mem id)[i]'(by omega)) us[i] (List.getElem?_eq_getElem _) (List.getElem?_eq_getElem _)
        (g3 i ((places env mem id)[i]'(by omega)) us'[i] (List.getElem?_eq_getElem _) (List.getElem?_eq_getElem _))

end

/-! ### Concrete types -/

/-- `type P struct { N bool; *Q; E; O []P }`, `type Q struct { M, N bool }`, `type E struct { X bool ",omitempty" }` -/
def meetEnv : PEnv
  | 0 => ⟨[{ goName := bs! "N", type := .basic .bool {} }, { goName := bs! "Q", anonymous := true, type := .ptr (.struct 1) },
      { goName := bs! "E", anonymous := true, type := .struct 2 }, { goName := bs! "O", type := .slice (.struct 0) {} }], {}⟩
  | 1 => ⟨[{ goName := bs! "M", type := .basic .bool {} }, { goName := bs! "N", type := .basic .bool {} }], {}⟩
  | 2 => ⟨[{ goName := bs! "X", tag := bs! ",omitempty", type := .basic .bool {} }], {}⟩
  | _ => ⟨[], {}⟩

def meetTree : Nat → List SItem
  | 0 => [.direct (bs! "N") false, .embed [.direct (bs! "M") false, .direct (bs! "N") false], .embed [.direct (bs! "X") false], .direct (bs! "O") false]
  | 1 => [.direct (bs! "M") false, .direct (bs! "N") false]
  | 2 => [.direct (bs! "X") false]
  | _ => []

def meetMem (id : Nat) : List (Bytes × List Nat) := (structFields asciiLetter meetEnv.decls 3 id).map fun s => (s.name, s.path)

theorem meet_ordinary : Ordinary asciiLetter meetEnv 3 (fun id => 2 - id) meetTree (.struct 0) := by
  refine ⟨?_, ?_, trivial, ⟨?_, ?_⟩, ⟨trivial, ?_⟩, ⟨trivial, ?_⟩, ⟨?_, ?_, ?_⟩, ?_, ?_, ?_⟩
  · rintro (_ | _ | _ | id) <;> simp [meetEnv, GoType, Declarable, MethsLe]
  · rintro (_ | _ | _ | id) <;> simp [meetEnv]
  · simp [ctx]
  · rintro (_ | _ | _ | id) <;> simp [meetEnv, ctx]
  · rintro (_ | _ | _ | id) a _ <;> simp [meetEnv, FairDec]
  · rintro (_ | _ | _ | id) a _ <;> simp [meetEnv, NoDurKeys]
  · rintro (_ | _ | _ | id) <;> simp [PEnv.decls, meetEnv, PField.decl, GT.isTime, GT.fkind, GT.structs, FKind.refs]
  · rintro (_ | _ | _ | id) <;> simp [PEnv.decls, meetEnv, PField.decl, GT.isTime, GT.fkind, GT.structs]
  · rintro (_ | _ | _ | id) <;> simp [PEnv.decls, meetEnv, PField.decl, GT.isTime, GT.fkind, GT.structs, FKind.refs]
  · rintro (_ | _ | _ | id) <;> simp [PEnv.decls, meetEnv, PField.decl, GT.isTime, GT.fkind, GT.structs, Plain, tagText]
  · rintro (_ | _ | _ | id) <;> simp [PEnv.decls, meetEnv, meetTree, PField.decl, GT.isTime, GT.fkind, GT.structs, goItem, noTag, splitComma, GoodName, tagText]
  · rintro (_ | _ | _ | id) a _ <;> unfold Tame Hides
    · decide +kernel
    · decide +kernel
    · decide +kernel
    · simp [meetTree, cands, candL]

theorem meet_ordinaryEnc : OrdinaryEnc asciiLetter meetEnv 3 (fun id => 2 - id) meetTree (.struct 0) := by
  obtain ⟨h1, h2, h3, h4, h5, h6, h7, h8, h9, h10⟩ := meet_ordinary
  refine ⟨h1, h2, h3, h4, ⟨?_, ?_⟩, ?_, h6, h7, h8, h9, h10⟩
  · simp [FairEnc, Unmixed, meetEnv, PEnv.ty]
  · rintro (_ | _ | _ | id) a _ <;> simp [meetEnv, FairEnc, FairQuote, Unmixed, option_eq, PField.quoted, splitComma, PEnv.ty]
  · rintro (_ | _ | _ | id) a a' _ _ <;> simp [meetEnv, option_eq, PField.quoted, splitComma, goFieldEnc, goEnc, goChoose, Shown, embeds, tagText]

theorem meet_members : ∀ id a, Contains meetEnv (.struct 0) id a → MembersOf (meetTree id) (meetMem id) := fun _ _ h =>
  members_of (contains_lt meet_ordinary.closed h) meet_ordinary.layered meet_ordinary.plain meet_ordinary.unfolds (meet_ordinary.tame _ _ h)

theorem meet_mem : meetMem 0 = [(bs! "N", [0]), (bs! "M", [1, 0]), (bs! "X", [2, 0]), (bs! "O", [3])] ∧ meetMem 1 = [(bs! "M", [0]), (bs! "N", [1])] ∧
    meetMem 2 = [(bs! "X", [0])] := by decide +kernel

def meetN : PField := { goName := bs! "N", type := .basic .bool {} }
def meetM : PField := { goName := bs! "M", type := .basic .bool {} }
def meetX : PField := { goName := bs! "X", tag := bs! ",omitempty", type := .basic .bool {} }
def meetO : PField := { goName := bs! "O", type := .slice (.struct 0) {} }

/-- The flat type is `type P struct { N, M bool; X bool ",omitempty"; O []P }`. -/
theorem meet_places : places meetEnv meetMem 0 = [⟨[], 0, meetN⟩, ⟨[.ptr 1 false 1], 0, meetM⟩, ⟨[.struct 2], 0, meetX⟩, ⟨[], 3, meetO⟩] ∧
    places meetEnv meetMem 1 = [⟨[], 0, meetM⟩, ⟨[], 1, meetN⟩] ∧ places meetEnv meetMem 2 = [⟨[], 0, meetX⟩] := by
  unfold places
  rw [meet_mem.1, meet_mem.2.1, meet_mem.2.2]
  exact ⟨rfl, rfl, rfl⟩

theorem meet_none (id : Nat) : places meetEnv meetMem (id + 3) = [] := by
  unfold places
  rw [List.filterMap_eq_nil_iff]
  rintro ⟨_, p⟩ _
  rcases p with _ | ⟨i, _ | ⟨j, p⟩⟩ <;> simp [place, meetEnv]

theorem meet_flat : (flatEnv meetEnv meetMem 0).fields = [(.basic .bool {}, false), (.basic .bool {}, false), (.basic .bool {}, false), (.slice (.struct 0) {}, false)] ∧
    (flatEnv meetEnv meetMem 1).fields = [(.basic .bool {}, false), (.basic .bool {}, false)] ∧ (flatEnv meetEnv meetMem 2).fields = [(.basic .bool {}, false)] := by
  unfold flatEnv
  simp only [meet_places, List.map_cons, List.map_nil, option_eq]
  exact ⟨rfl, rfl, rfl⟩

theorem meet_open : ∀ id a, Contains meetEnv (.struct 0) id a → ∀ q ∈ places meetEnv meetMem id, OpenWay q.way := by
  rintro (_ | _ | _ | id) a _ q hq
  · rw [meet_places.1] at hq
    simp only [List.mem_cons, List.not_mem_nil, or_false] at hq
    rcases hq with rfl | rfl | rfl | rfl <;> simp [OpenWay]
  · rw [meet_places.2.1] at hq
    simp only [List.mem_cons, List.not_mem_nil, or_false] at hq
    rcases hq with rfl | rfl <;> simp [OpenWay]
  · rw [meet_places.2.2] at hq
    simp only [List.mem_cons, List.not_mem_nil, or_false] at hq
    subst hq; simp [OpenWay]
  · rw [meet_none] at hq; cases hq

theorem meet_sizedP : SizedP meetEnv 2 := by
  refine ⟨fun id => if id = 0 then 1 else 0, fun id => by simp only []; split <;> omega, ?_⟩
  rintro (_ | _ | _ | id) <;> simp [meetEnv, insideOf]

theorem meet_sized : Sized (flatEnv meetEnv meetMem) 1 := by
  refine ⟨fun _ => 0, fun _ => Nat.one_pos, ?_⟩
  rintro (_ | _ | _ | id) f hf
  · rw [meet_flat.1] at hf
    simp only [List.mem_cons, List.not_mem_nil, or_false] at hf
    rcases hf with rfl | rfl | rfl | rfl <;> simp [insideOf]
  · rw [meet_flat.2.1] at hf
    simp only [List.mem_cons, List.not_mem_nil, or_false] at hf
    rcases hf with rfl | rfl <;> simp [insideOf]
  · rw [meet_flat.2.2] at hf
    simp only [List.mem_cons, List.not_mem_nil, or_false] at hf
    subst hf; simp [insideOf]
  · simp [flatEnv, meet_none] at hf

theorem meet_json : (∀ id, ∀ f ∈ (meetEnv id).fields, NoJsonU meetEnv.ty f.type) ∧ NoJsonU meetEnv.ty (.struct 0) := by
  constructor
  · rintro (_ | _ | _ | id) <;> simp [meetEnv, NoJsonU, PEnv.ty]
  · simp [meetEnv, NoJsonU, PEnv.ty]

/-- What a zeroed `Q` holds. -/
def meetZs (id : Nat) : DV := zeroS demoDecls meetEnv 2 (.ref id)

theorem meet_zs : meetZs 1 = .struct [.bool false, .bool false] := by with_unfolding_all rfl

theorem meet_read : fieldReading demoDecls meetEnv.ty (option meetN) = .base .bool ∧ fieldReading demoDecls meetEnv.ty (option meetM) = .base .bool ∧
    fieldReading demoDecls meetEnv.ty (option meetX) = .base .bool ∧ fieldReading demoDecls meetEnv.ty (option meetO) = .slice (.ref 0) := by
  simp only [option_eq]
  exact ⟨rfl, rfl, rfl, rfl⟩

/-- The fields of a `P`. -/
theorem meet_field {ks us : DV} (n m m' x : Bool) {q : DV} (hq : q = .ptr (.struct [.bool m, .bool m']) ∨ q = .ptrNil ∧ m = false)
    (h : Flat demoDecls meetEnv meetMem meetZs (.slice (.ref 0)) ks us) :
    Flat demoDecls meetEnv meetMem meetZs (.ref 0) (.struct [.bool n, q, .struct [.bool x], ks]) (.struct [.bool n, .bool m, .bool x, us]) := by
  refine .struct ?_ (by rw [meet_places.1]; rfl) ?_
  · intro p hp
    rw [meet_places.1] at hp
    simp only [List.mem_cons, List.not_mem_nil, or_false] at hp
    rcases hp with rfl | rfl | rfl | rfl <;> rcases hq with rfl | ⟨rfl, rfl⟩ <;> simp [HasField, DV.field, DV.fields, meet_zs]
  · intro i p u hp hu
    rw [meet_places.1] at hp
    rcases i with _ | _ | _ | _ | i
    · cases hp; cases hu; rw [meet_read.1]; exact .base _
    · cases hp; cases hu; rw [meet_read.2.1]
      rcases hq with rfl | ⟨rfl, rfl⟩
      · exact .base _
      · simp only [look, DV.field, DV.fields, meet_zs]; exact .base _
    · cases hp; cases hu; rw [meet_read.2.2.1]; exact .base _
    · cases hp; cases hu; rw [meet_read.2.2.2]; exact h
    · simp at hp

theorem meet_isVar {us : DV} (n m x : Bool) (h : IsVar { lib := noLib } (flatDecls demoDecls meetEnv meetMem) (flatOmits mapMeths meetEnv meetMem) (flatEnv meetEnv meetMem) 1
    (.slice (.struct 0) {}) us) :
    IsVar { lib := noLib } (flatDecls demoDecls meetEnv meetMem) (flatOmits mapMeths meetEnv meetMem) (flatEnv meetEnv meetMem) 1 (.struct 0)
      (.struct [.bool n, .bool m, .bool x, us]) := by
  have names : (flatDecls demoDecls meetEnv meetMem).names 0 = [bs! "N", bs! "M", bs! "X", bs! "O"] := by
    simp only [flatDecls, meet_mem.1]; rfl
  refine .struct rfl ?_ ?_ ?_ ?_ ?_ ?_ ?_
  · rw [names]; decide
  · rw [names]
    intro n hn
    simp only [List.mem_cons, List.not_mem_nil, or_false] at hn
    rcases hn with rfl | rfl | rfl | rfl
    · exact ascii_coerced (s := bs! "N") (by decide)
    · exact ascii_coerced (s := bs! "M") (by decide)
    · exact ascii_coerced (s := bs! "X") (by decide)
    · exact ascii_coerced (s := bs! "O") (by decide)
  · rw [meet_flat.1]; rfl
  · rw [meet_flat.1]; simp only [flatOmits, meet_places.1]; rfl
  · rw [meet_flat.1]
    intro f hf
    simp only [List.mem_cons, List.not_mem_nil, or_false] at hf
    rcases hf with rfl | rfl | rfl | rfl <;> simp [PlainQuote]
  · rw [meet_flat.1]
    rintro (_ | _ | _ | _ | i) f y h1 h2
    · cases h1; cases h2; exact .leaf (ty := .bool) rfl ⟨_, rfl⟩ trivial
    · cases h1; cases h2; exact .leaf (ty := .bool) rfl ⟨_, rfl⟩ trivial
    · cases h1; cases h2; exact .leaf (ty := .bool) rfl ⟨_, rfl⟩ trivial
    · cases h1; cases h2; exact h
    · simp at h1
  · rw [meet_flat.1]
    rintro (_ | _ | _ | _ | i) f y h1 h2 h3 h4
    · cases h1; cases h2; simp [isEmptyDV] at h4; subst h4; rfl
    · cases h1; cases h2; simp [isEmptyDV] at h4; subst h4; rfl
    · cases h1; cases h2; simp [isEmptyDV] at h4; subst h4; rfl
    · simp [flatOmits, meet_places.1, meetO, HasOption] at h3
    · simp at h1

theorem meet_settled {ks : DV} (n m m' x : Bool) (h : Settled meetEnv meetMem (.slice (.struct 0) {}) ks) :
    Settled meetEnv meetMem (.struct 0) (.struct [.bool n, .ptr (.struct [.bool m, .bool m']), .struct [.bool x], ks]) := by
  refine .struct ?_ ?_
  · intro e he q hq
    rw [meet_mem.1] at he
    simp only [List.mem_cons, List.not_mem_nil, or_false] at he
    rcases he with rfl | rfl | rfl | rfl <;> (simp [place, meetEnv, embeds, tagText] at hq; subst hq; simp [found, DV.fields, far, HasOption])
  · intro e he q y hq hy
    rw [meet_mem.1] at he
    simp only [List.mem_cons, List.not_mem_nil, or_false] at he
    rcases he with rfl | rfl | rfl | rfl <;>
      (simp [place, meetEnv, embeds, tagText] at hq; subst hq; simp [found, DV.fields] at hy; subst hy)
    · exact .flat rfl
    · exact .flat rfl
    · exact .flat rfl
    · exact h

/-- Concrete case: the variable, and what the flat one holds. -/
def meetVar : DV := .struct [.bool true, .ptr (.struct [.bool false, .bool true]), .struct [.bool false],
  .slice [.struct [.bool false, .ptr (.struct [.bool true, .bool false]), .struct [.bool true], .sliceNil]] []]
def meetFlat : DV := .struct [.bool true, .bool false, .bool false, .slice [.struct [.bool false, .bool true, .bool true, .sliceNil]] []]

theorem meetVar_flat : Flat demoDecls meetEnv meetMem meetZs (.ref 0) meetVar meetFlat := by
  refine meet_field _ _ _ _ (.inl rfl) (.slice rfl ?_ rfl (by simp))
  rintro (_ | i) x u h1 h2
  · cases h1; cases h2; exact meet_field _ _ _ _ (.inl rfl) .sliceNil
  · simp at h1

theorem meetVar_settled : Settled meetEnv meetMem (.struct 0) meetVar := by
  refine meet_settled _ _ _ _ (.slice ?_)
  intro x hx
  rw [List.mem_singleton.1 hx]
  exact meet_settled _ _ _ _ (.flat rfl)

theorem meetFlat_isVar : IsVar { lib := noLib } (flatDecls demoDecls meetEnv meetMem) (flatOmits mapMeths meetEnv meetMem) (flatEnv meetEnv meetMem) 1 (.struct 0) meetFlat := by
  refine meet_isVar _ _ _ (.slice (by simp) ?_)
  intro x hx
  rw [List.mem_singleton.1 hx]
  exact meet_isVar _ _ _ (.sliceNil (by simp))

example : appendP {} demoDecls mapMeths kidsWord asciiLetter meetEnv 3 (.struct 0) meetVar [] 0 =
    .done (bs! "{\"N\":true,\"M\":false,\"O\":[{\"N\":false,\"M\":true,\"X\":true,\"O\":null}]}") 0 none := by
  with_unfolding_all rfl

/-- It is what `Marshal` writes for the flat variable, in every layout and colour. -/
example (cf : Cfg) : appendP cf demoDecls mapMeths kidsWord asciiLetter meetEnv 3 (.struct 0) meetVar =
    appendG cf (flatDecls demoDecls meetEnv meetMem) (flatOmits mapMeths meetEnv meetMem) (flatEnv meetEnv meetMem) 3 (.struct 0) meetFlat :=
  C87_encode_partial meet_ordinaryEnc meet_members cf meetVar_settled meetVar_flat meetFlat_isVar

/-- It comes back. -/
example : ∃ out, appendP {} demoDecls mapMeths kidsWord asciiLetter meetEnv 3 (.struct 0) meetVar [] 0 = .done out 0 none ∧ ∀ n, braces out < n → ∃ v',
    unmarshalV { lib := noLib } demoDecls asciiLetter meetEnv 3 (fun t => zeroS demoDecls meetEnv 2 (reading demoDecls meetEnv.ty t)) meetZs n 0 (.struct 0) out
      (zeroS demoDecls meetEnv 2 (reading demoDecls meetEnv.ty (.struct 0))) = .done v' none ∧ Flat demoDecls meetEnv meetMem meetZs (.ref 0) v' meetFlat :=
  C87_roundtrip_partial meet_ordinary meet_ordinaryEnc meet_members meet_open meet_sizedP meet_sized meet_json.1 meet_json.2 {} rfl (by intro i h; cases h) noLib_ok 0 0
    meetVar_settled meetVar_flat meetFlat_isVar

/-- Reading into a variable that holds something: the fields that the text does not mention keep it, in the embedded structs too. -/
example : (match unmarshalV { lib := noLib } demoDecls asciiLetter meetEnv 3 (fun t => zeroS demoDecls meetEnv 2 (reading demoDecls meetEnv.ty t)) meetZs 3 0 (.struct 0)
      (bs! "{\"X\":true,\"O\":[{\"M\":true}]}") meetVar with
    | .done (.struct [.bool true, .ptr (.struct [.bool false, .bool true]), .struct [.bool true],
        .slice [.struct [.bool false, .ptr (.struct [.bool true, .bool false]), .struct [.bool true], .sliceNil]] _]) none => true
    | _ => false) = true := by decide +kernel

/-! ### Where it fails -/

/-- A variable whose embedded pointer is nil. -/
def meetNil : DV := .struct [.bool true, .ptrNil, .struct [.bool false], .sliceNil]

/-- What `Marshal` writes of it is not JSON, and `Unmarshal` does not read it. (`encoding/json` leaves the field `M` out, which reads as zero.) -/
theorem C87_fails_nil :
    appendP {} demoDecls mapMeths kidsWord asciiLetter meetEnv 3 (.struct 0) meetNil [] 0 = .done (bs! "{\"N\":true,,\"O\":null}") 0 none ∧
    (match unmarshalV { lib := noLib } demoDecls asciiLetter meetEnv 3 (fun t => zeroS demoDecls meetEnv 2 (reading demoDecls meetEnv.ty t)) meetZs 2 0 (.struct 0)
      (bs! "{\"N\":true,,\"O\":null}") (zeroS demoDecls meetEnv 2 (reading demoDecls meetEnv.ty (.struct 0))) with
    | .done _ (some .syntax) => true
    | _ => false) = true := by
  refine ⟨by with_unfolding_all rfl, by decide +kernel⟩

/-- The full statement is false. -/
theorem C87_fails : ¬ C87_statement := by
  intro h
  obtain ⟨out, h1, h2⟩ := h { lib := noLib } demoDecls mapMeths kidsWord asciiLetter meetEnv 3 (fun id => 2 - id) meetTree meetMem (.struct 0) 2 1 {} 0 0 meetNil
    (.struct [.bool true, .bool false, .bool false, .sliceNil]) meet_ordinary.go meet_ordinary.named trivial meet_ordinary.closed meet_ordinary.layered meet_ordinary.unfolds meet_members
    meet_sizedP meet_sized meet_json.1 meet_json.2 rfl (by intro i h; cases h) noLib_ok
    (meet_field _ _ false _ (.inr ⟨rfl, rfl⟩) .sliceNil) (meet_isVar _ _ _ (.sliceNil (by simp)))
  rw [C87_fails_nil.1] at h1
  injection h1 with h1
  subst h1
  obtain ⟨v', h3, _⟩ := h2 2 (by decide)
  have h4 := C87_fails_nil.2
  unfold meetZs at h4
  rw [h3] at h4
  cases h4

/-- `kidsEnv` with the promoted fields as their own. -/
def kidsFlat : TyEnv
  | 0 => ⟨[(.basic (.int .int) {}, false), (.basic .bool {}, false), (.basic .string {}, false), (.slice (.struct 0) {}, false)], {}⟩
  | _ => ⟨[], {}⟩

/-- A field behind an embedded pointer to an unexported type is not read, and that is an error; that of the flat type is. -/
theorem C87_fails_unexported : (flatEnv kidsEnv kidsMem 0) = kidsFlat 0 ∧
    (match unmarshalV { lib := noLib } demoDecls asciiLetter kidsEnv 3 (fun t => kidsZero (reading demoDecls kidsEnv.ty t)) (fun id => kidsZero (.ref id)) 3 0
      (.struct 0) (bs! "{\"A\":1,\"C\":\"x\"}") (kidsZero (.ref 0)) with
    | .done (.struct [.int 1, .ptr (.struct [.bool false, .bool false, .ptrNil]), .sliceNil]) (some (.other 3)) => true
    | _ => false) = true ∧
    (match unmarshalG { lib := noLib } { demoDecls with names := fun _ => [bs! "A", bs! "B", bs! "C", bs! "Kids"] } kidsFlat 1
        (fun t => zeroR (envReading { demoDecls with names := fun _ => [bs! "A", bs! "B", bs! "C", bs! "Kids"] } kidsFlat) 1
          (reading { demoDecls with names := fun _ => [bs! "A", bs! "B", bs! "C", bs! "Kids"] } kidsFlat t)) 3 0
      (.struct 0) (bs! "{\"A\":1,\"C\":\"x\"}") (.struct [.int 0, .bool false, .string [], .sliceNil]) with
    | .done (.struct [.int 1, .bool false, .string [0x78], .sliceNil]) none => true
    | _ => false) = true := by
  refine ⟨?_, by decide +kernel, by decide +kernel⟩
  unfold flatEnv places
  simp only [kids_places, List.filterMap_cons, option_eq]
  rfl

end JC.Props

import Verif.Spec.Codec
/-! The choice of codecs. -/
namespace JC
open Spec

/-- The codec of a type, which does not depend on `seen`. -/
def codecAt (env : TyEnv) (t : GT) (a : Bool) : Codec := (constructCodec (σ := CSeen) env (fun _ _ s => s) t a (fun _ => none)).1

/-- Structs are constructed in order. -/
def meetAll {σ : Type} (c : Nat → Bool → σ → σ) (l : List (Nat × Bool)) (seen : σ) : σ := l.foldl (fun s x => c x.1 x.2 s) seen

theorem byteElem_ctx {e : GT} {me : MSets} (h : byteElem e = some me) (a : Bool) : ctx e a = [] := by
  unfold byteElem at h
  split at h
  · rfl
  · cases h

theorem constructCodec_eq {σ : Type} (env : TyEnv) (c : Nat → Bool → σ → σ) : ∀ (t : GT) (a : Bool) (seen : σ),
    constructCodec env c t a seen = (codecAt env t a, meetAll c (ctx t a) seen) := by
  have key : ∀ (t : GT) (a : Bool) (seen : σ) (seen' : CSeen), (constructCodec env c t a seen).2 = meetAll c (ctx t a) seen ∧
      (constructCodec env c t a seen).1 = (constructCodec env (fun _ _ s => s) t a seen').1 := by
    intro t
    induction t with
    | special s => intro a s1 s2; simp [constructCodec, ctx, meetAll]
    | basic k m => intro a s1 s2; simp [constructCodec, ctx, meetAll]
    | ifc m => intro a s1 s2; simp [constructCodec, ctx, meetAll]
    | other m => intro a s1 s2; simp [constructCodec, ctx, meetAll]
    | struct id => intro a s1 s2; simp [constructCodec, ctx, meetAll]
    | array n e m ih =>
      intro a s1 s2
      simp only [constructCodec, ctx]
      exact ⟨(ih a s1 s2).1, by rw [(ih a s1 s2).2]⟩
    | slice e m ih =>
      intro a s1 s2
      simp only [constructCodec, ctx]
      cases hb : byteElem e with
      | some me => simp [byteElem_ctx hb, meetAll]
      | none =>
        simp only
        exact ⟨(ih true s1 s2).1, by rw [(ih true s1 s2).2]⟩
    | map k e m ih =>
      intro a s1 s2
      simp only [constructCodec, ctx]
      by_cases h1 : k.kind = .string ∧ e = .special .iface
      · simp only [if_pos h1]; simp [h1.2, ctx, meetAll]
      · by_cases h2 : k.kind = .string ∧ e = .special .raw
        · simp only [if_neg h1, if_pos h2]; simp [h2.2, ctx, meetAll]
        · simp only [if_neg h1, if_neg h2]
          cases hk : keyCodec k with
          | none => exact ⟨(ih false s1 s2).1, rfl⟩
          | some kc => exact ⟨(ih false s1 s2).1, by simp only [(ih false s1 s2).2]⟩
    | ptr e ih =>
      intro a s1 s2
      simp only [constructCodec, ctx]
      exact ⟨(ih true s1 s2).1, by rw [(ih true s1 s2).2]⟩
  intro t a seen
  have := key t a seen (fun _ => none)
  exact Prod.ext this.2 this.1

section
variable (env : TyEnv)

theorem codecAt_special (s : Special) (a : Bool) : codecAt env (.special s) a = (.special s, .special s) := rfl
theorem codecAt_basic (k : BasicKind) (m : MSets) (a : Bool) : codecAt env (.basic k m) a = withMethods m a (.basic k, .basic k) := rfl
theorem codecAt_ifc (m : Meths) (a : Bool) : codecAt env (.ifc m) a = withMethods ⟨m, {}⟩ a (.ifc, .ifc) := rfl
theorem codecAt_other (m : MSets) (a : Bool) : codecAt env (.other m) a = withMethods m a (.unsupported, .unsupported) := rfl
theorem codecAt_struct (id : Nat) (a : Bool) : codecAt env (.struct id) a = withMethods (env id).meths a (.struct id, .struct id) := rfl
theorem codecAt_array (n : Nat) (e : GT) (m : MSets) (a : Bool) :
    codecAt env (.array n e m) a = withMethods m a (.array n (codecAt env e a).1, .array n (codecAt env e a).2) := rfl
theorem codecAt_slice (e : GT) (m : MSets) (a : Bool) :
    codecAt env (.slice e m) a = withMethods m a (match byteElem e with
      | some me => byteSlice me
      | none => (.slice (codecAt env e true).1, .slice (codecAt env e true).2)) := by
  unfold codecAt
  simp only [constructCodec]
  cases byteElem e <;> rfl
theorem codecAt_map (k : KeyTy) (e : GT) (m : MSets) (a : Bool) :
    codecAt env (.map k e m) a = withMethods m a
      (if k.kind = .string ∧ e = .special .iface then (.mapSI, .mapSI)
       else if k.kind = .string ∧ e = .special .raw then (.mapRaw, .mapRaw)
       else match keyCodec k with
        | none => (.unsupported, .unsupported)
        | some kc => (.map kc.1 (codecAt env e false).1, .map kc.2 (codecAt env e false).2)) := by
  unfold codecAt
  simp only [constructCodec]
  split
  · rfl
  · split
    · rfl
    · cases keyCodec k <;> rfl
theorem codecAt_ptr (e : GT) (a : Bool) :
    codecAt env (.ptr e) a = withMethods ⟨goPtrMeths env e, {}⟩ a (.ptr (codecAt env e true).1, .ptr (codecAt env e true).2) := by
  unfold codecAt
  simp only [constructCodec]
  cases e with
  | special s => cases s <;> cases a <;> rfl
  | _ => rfl
end

/-- The codecs of the fields of a struct. -/
def fieldAt (env : TyEnv) (a : Bool) (f : GT × Bool) : Codec := if f.2 then stringify f.1 (codecAt env f.1 a) else codecAt env f.1 a

def fieldsCtx (fs : List (GT × Bool)) (a : Bool) : List (Nat × Bool) := fs.flatMap (fun f => ctx f.1 a)

theorem fieldCodecs_eq (env : TyEnv) (c : Nat → Bool → CSeen → CSeen) (a : Bool) : ∀ (fs : List (GT × Bool)) (seen : CSeen),
    fieldCodecs env c fs a seen = (fs.map (fieldAt env a), meetAll c (fieldsCtx fs a) seen)
  | [], seen => rfl
  | f :: fs, seen => by
    rw [fieldCodecs, constructCodec_eq, fieldCodecs_eq env c a fs]
    simp [fieldsCtx, meetAll, fieldAt, List.foldl_append]

/-! ### What `seen` holds -/

/-- Which structs are met does not depend on whether they are addressable. -/
theorem ctx_ids (t : GT) : ∀ a b : Bool, (ctx t a).map Prod.fst = (ctx t b).map Prod.fst := by
  induction t with
  | array n e m ih => intro a b; simp only [ctx]; exact ih a b
  | _ => intro a b; simp [ctx]

theorem ctx_mem {t : GT} {a : Bool} {x : Nat × Bool} (h : x ∈ ctx t a) (b : Bool) : ∃ c, (x.1, c) ∈ ctx t b := by
  have : x.1 ∈ (ctx t b).map Prod.fst := by rw [ctx_ids t b a]; exact List.mem_map_of_mem h
  obtain ⟨y, hy, e⟩ := List.mem_map.1 this
  exact ⟨y.2, by rw [← e]; exact hy⟩

/-- How many types were not met yet. -/
def missing (count : Nat) (seen : CSeen) : Nat := ((List.range count).filter (fun id => (seen id).isNone)).length

/-- Entries stay; those that are complete do not change. -/
def Grows (s s' : CSeen) : Prop := (∀ id, s id ≠ none → s' id ≠ none) ∧ (∀ id cs, s id = some (some cs) → s' id = some (some cs)) ∧ ∀ id, s id = some none → s' id = some none

theorem Grows.refl (s : CSeen) : Grows s s := ⟨fun _ h => h, fun _ _ h => h, fun _ h => h⟩
theorem Grows.trans {s t u : CSeen} (h : Grows s t) (h' : Grows t u) : Grows s u :=
  ⟨fun id hs => h'.1 id (h.1 id hs), fun id cs hs => h'.2.1 id cs (h.2.1 id cs hs), fun id hs => h'.2.2 id (h.2.2 id hs)⟩

theorem filter_length_le {α : Type} {p q : α → Bool} : ∀ (l : List α), (∀ x, q x = true → p x = true) → (l.filter q).length ≤ (l.filter p).length
  | [], _ => by simp
  | x :: l, h => by
    have ih := filter_length_le l h
    simp only [List.filter_cons]
    by_cases hq : q x = true
    · simp only [hq, h x hq, if_true, List.length_cons]; omega
    · by_cases hp : p x = true
      · simp only [hq, hp, if_true, List.length_cons, if_false, Bool.false_eq_true]; omega
      · simp only [hq, hp, if_false, Bool.false_eq_true]; exact ih

theorem Grows.missing {s s' : CSeen} (h : Grows s s') (count : Nat) : missing count s' ≤ missing count s := by
  unfold JC.missing
  apply filter_length_le
  intro id hid
  have := h.1 id
  cases hs : s id with
  | none => rfl
  | some x =>
    have h2 := this (by rw [hs]; simp)
    cases hs' : s' id with
    | none => exact absurd hs' h2
    | some y => rw [hs'] at hid; simp at hid

theorem missing_set {s : CSeen} {id count : Nat} (hid : id < count) (hs : s id = none) (x : Option (List Codec)) :
    missing count (s.set id x) < missing count s := by
  unfold missing
  have : ∀ l : List Nat, id ∈ l → (l.filter (fun i => ((s.set id x) i).isNone)).length < (l.filter (fun i => (s i).isNone)).length := by
    intro l
    induction l with
    | nil => intro h; simp at h
    | cons y l ih =>
      intro h
      have hle := filter_length_le (p := fun i => (s i).isNone) (q := fun i => ((s.set id x) i).isNone) l (by
        intro i hi
        unfold CSeen.set at hi
        split at hi
        · simp at hi
        · exact hi)
      simp only [List.filter_cons]
      by_cases hy : y = id
      · subst hy
        have e1 : ((s.set y x) y).isNone = false := by simp [CSeen.set]
        have e2 : (s y).isNone = true := by rw [hs]; rfl
        simp only [e1, e2, if_true, List.length_cons, Bool.false_eq_true, if_false]
        omega
      · have hm : id ∈ l := by
          rcases List.mem_cons.1 h with h | h
          · exact absurd h.symm hy
          · exact h
        have := ih hm
        have e1 : ((s.set id x) y).isNone = (s y).isNone := by simp [CSeen.set, hy]
        rw [e1]
        split
        · simp only [List.length_cons]; omega
        · exact this
  exact this _ (List.mem_range.2 hid)

/-- The invariant: every struct met is known, every complete struct has the codecs of one context in which it is met
and all structs in its fields are known. -/
structure Known (env : TyEnv) (P : Nat → Bool → Prop) (s : CSeen) : Prop where
  entry : ∀ id cs, s id = some (some cs) → ∃ a, P id a ∧ cs = (env id).fields.map (fieldAt env a)
  fields : ∀ id cs, s id = some (some cs) → ∀ f ∈ (env id).fields, ∀ a, ∀ x ∈ ctx f.1 a, s x.1 ≠ none

/-- A predicate that holds for the contexts of fields. -/
def Passes (env : TyEnv) (P : Nat → Bool → Prop) : Prop := ∀ id a, P id a → ∀ f ∈ (env id).fields, ∀ x ∈ ctx f.1 a, P x.1 x.2

section
variable {env : TyEnv} {P : Nat → Bool → Prop} {count : Nat}

/-- What constructing a struct does. -/
def Constructs (env : TyEnv) (P : Nat → Bool → Prop) (count n : Nat) (c : Nat → Bool → CSeen → CSeen) : Prop :=
  ∀ id a seen, P id a → missing count seen ≤ n → Known env P seen → Grows seen (c id a seen) ∧ Known env P (c id a seen) ∧ (c id a seen) id ≠ none ∧
    ∀ y, (c id a seen) y = some none → seen y = some none

theorem meetAll_constructs {n : Nat} {c : Nat → Bool → CSeen → CSeen} (hc : Constructs env P count n c) : ∀ (l : List (Nat × Bool)) (seen : CSeen),
    (∀ x ∈ l, P x.1 x.2) → missing count seen ≤ n → Known env P seen →
    Grows seen (meetAll c l seen) ∧ Known env P (meetAll c l seen) ∧ (∀ x ∈ l, (meetAll c l seen) x.1 ≠ none) ∧ ∀ y, (meetAll c l seen) y = some none → seen y = some none
  | [], seen, _, _, hk => ⟨Grows.refl _, hk, by simp, fun _ h => h⟩
  | x :: l, seen, hP, hn, hk => by
    obtain ⟨g1, k1, e1, o1⟩ := hc x.1 x.2 seen (hP x (by simp)) hn hk
    obtain ⟨g2, k2, e2, o2⟩ := meetAll_constructs hc l (c x.1 x.2 seen) (fun y hy => hP y (by simp [hy])) (Nat.le_trans (g1.missing count) hn) k1
    refine ⟨g1.trans g2, k2, ?_, fun y hy => o1 y (o2 y hy)⟩
    intro y hy
    rcases List.mem_cons.1 hy with rfl | hy
    · exact g2.1 _ e1
    · exact e2 y hy

theorem constructStruct_constructs (hP : Passes env P) (hlt : ∀ id a, P id a → id < count) : ∀ n, Constructs env P count n (constructStruct env n) := by
  intro n
  induction n with
  | zero =>
    intro id a seen hp hn hk
    rw [constructStruct]
    refine ⟨Grows.refl _, hk, ?_, fun _ h => h⟩
    intro hs
    have := missing_set (hlt id a hp) hs none
    omega
  | succ n ih =>
    intro id a seen hp hn hk
    rw [constructStruct]
    cases hs : seen id with
    | some x => exact ⟨Grows.refl _, hk, (fun h => by simp only [hs] at h; cases h), fun _ h => h⟩
    | none =>
      simp only
      rw [fieldCodecs_eq]
      have hk0 : Known env P (seen.set id none) := by
        constructor
        · intro y cs hy
          unfold CSeen.set at hy
          split at hy
          · cases hy
          · exact hk.entry y cs hy
        · intro y cs hy f hf b x hx
          have hy' : seen y = some (some cs) := by
            unfold CSeen.set at hy
            split at hy
            · cases hy
            · exact hy
          unfold CSeen.set
          split
          · simp
          · exact hk.fields y cs hy' f hf b x hx
      have hn0 : missing count (seen.set id none) ≤ n := by have := missing_set (hlt id a hp) hs none; omega
      obtain ⟨g, k, e, o⟩ := meetAll_constructs ih (fieldsCtx (env id).fields a) (seen.set id none) (by
        intro x hx
        obtain ⟨f, hf, hx⟩ := List.mem_flatMap.1 hx
        exact hP id a hp f hf x hx) hn0 hk0
      generalize meetAll (constructStruct env n) (fieldsCtx (env id).fields a) (seen.set id none) = s' at g k e o ⊢
      have hset : ∀ y, y ≠ id → (s'.set id (some ((env id).fields.map (fieldAt env a)))) y = s' y := by
        intro y hy; simp [CSeen.set, hy]
      have hid : (s'.set id (some ((env id).fields.map (fieldAt env a)))) id = some (some ((env id).fields.map (fieldAt env a))) := by simp [CSeen.set]
      have h0 : ∀ y, y ≠ id → (seen.set id none) y = seen y := by intro y hy; simp [CSeen.set, hy]
      have known : ∀ y, s' y ≠ none → (s'.set id (some ((env id).fields.map (fieldAt env a)))) y ≠ none := by
        intro y hy
        by_cases h : y = id
        · subst h; rw [hid]; simp
        · rw [hset y h]; exact hy
      refine ⟨⟨?_, ?_, ?_⟩, ⟨?_, ?_⟩, by rw [hid]; simp, ?_⟩
      · intro y hy
        by_cases h : y = id
        · subst h; rw [hid]; simp
        · rw [hset y h]; exact g.1 y (by rw [h0 y h]; exact hy)
      · intro y cs hy
        by_cases h : y = id
        · subst h; rw [hs] at hy; cases hy
        · rw [hset y h]; exact g.2.1 y cs (by rw [h0 y h]; exact hy)
      · intro y hy
        by_cases h : y = id
        · subst h; rw [hs] at hy; cases hy
        · rw [hset y h]; exact g.2.2 y (by rw [h0 y h]; exact hy)
      · intro y cs hy
        by_cases h : y = id
        · subst h; rw [hid] at hy; cases hy; exact ⟨a, hp, rfl⟩
        · rw [hset y h] at hy; exact k.entry y cs hy
      · intro y cs hy f hf b x hx
        apply known
        by_cases h : y = id
        · subst h
          obtain ⟨c, hc⟩ := ctx_mem hx a
          exact e (x.1, c) (List.mem_flatMap.2 ⟨f, hf, hc⟩)
        · rw [hset y h] at hy; exact k.fields y cs hy f hf b x hx
      · intro y hy
        by_cases h : y = id
        · subst h; rw [hid] at hy; cases hy
        · rw [hset y h] at hy; have := o y hy; rw [h0 y h] at this; exact this
end

theorem ctx_root (t : GT) : ctx t t.isPtr = ctx t false := by cases t <;> rfl

theorem meets_passes (env : TyEnv) (t : GT) : Passes env (Meets env t) := fun _ _ h _ hf _ hx => .field h hf hx

theorem meets_lt {env : TyEnv} {count : Nat} {t : GT} (hc : Closed env count t) {id : Nat} {a : Bool} (h : Meets env t id a) : id < count := by
  induction h with
  | root h => exact hc.1 _ h
  | field _ hf hx ih =>
    obtain ⟨c, hx⟩ := ctx_mem hx false
    exact hc.2 _ ih _ hf _ hx

theorem missing_le (count : Nat) (s : CSeen) : missing count s ≤ count := by
  have := List.length_filter_le (fun id => (s id).isNone) (List.range count)
  rw [List.length_range] at this
  exact this

/-- The codec of the type, and for every struct that is met the codecs of the fields in one of the contexts. -/
theorem codecOf_spec {env : TyEnv} {count : Nat} {t : GT} (hc : Closed env count t) :
    (codecOf env count t).1 = codecAt env t t.isPtr ∧
    ∀ id a, Meets env t id a → ∃ a', Meets env t id a' ∧ (codecOf env count t).2 id = some (some ((env id).fields.map (fieldAt env a'))) := by
  unfold codecOf
  rw [constructCodec_eq]
  refine ⟨rfl, ?_⟩
  have hk0 : Known env (Meets env t) (fun _ => none) := ⟨(fun _ _ h => by cases h), (fun _ _ h => by cases h)⟩
  obtain ⟨g, k, e, o⟩ := meetAll_constructs (constructStruct_constructs (meets_passes env t) (fun id a h => meets_lt hc h) count)
    (ctx t t.isPtr) (fun _ => none) (by rw [ctx_root]; exact fun x hx => .root hx) (missing_le count _) hk0
  generalize meetAll (constructStruct env count) (ctx t t.isPtr) (fun _ => none) = s at g k e o
  have full : ∀ id, s id ≠ none → ∃ cs, s id = some (some cs) := by
    intro id h
    cases hs : s id with
    | none => exact absurd hs h
    | some x =>
      cases x with
      | none => have := o id hs; cases this
      | some cs => exact ⟨cs, rfl⟩
  intro id a hm
  have : s id ≠ none := by
    induction hm with
    | root h => rw [ctx_root] at e; exact e _ h
    | field _ hf hx ih =>
      obtain ⟨cs, hs⟩ := full _ ih
      exact k.fields _ cs hs _ hf _ _ hx
  obtain ⟨cs, hs⟩ := full id this
  obtain ⟨a', ha', rfl⟩ := k.entry id cs hs
  exact ⟨a', ha', hs⟩

end JC

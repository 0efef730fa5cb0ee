import Verif.Spec.Types
import Verif.Lemmas.Codec
/-! Codecs of types that refer to themselves. -/
namespace JC
open Spec

variable {ts : Types}

theorem LeadsTo.trans {t u v : Nat} (h : LeadsTo ts t u) (h' : LeadsTo ts u v) : LeadsTo ts t v := by
  induction h with
  | refl => exact h'
  | elem t e u he _ ih => exact .elem t e v he (ih h')
  | field t fs m f u hs hf _ ih => exact .field t fs m f v hs hf (ih h')

/-! ### What success tells -/

/-- The element types end, and if the last one is a struct it was met. -/
def Handled (ts : Types) (s : CSeen) (t : Nat) : Prop :=
  Ends ts t ∧ ∀ k id fs m, elemAt ts k t = some id → ts id = .struct fs m → s id ≠ none

theorem Handled.mono {s s' : CSeen} {t : Nat} (h : Handled ts s t) (hs : ∀ id, s id ≠ none → s' id ≠ none) : Handled ts s' t :=
  ⟨h.1, fun k id fs m h1 h2 => hs id (h.2 k id fs m h1 h2)⟩

theorem handled_elem {s : CSeen} {t e : Nat} (he : (ts t).elem = some e) (h : Handled ts s e) : Handled ts s t := by
  obtain ⟨⟨n, hn⟩, h⟩ := h
  refine ⟨⟨n + 1, by simp [elemAt, he, hn]⟩, fun k id fs m hk hs => ?_⟩
  cases k with
  | zero =>
    simp only [elemAt, Option.some.injEq] at hk
    subst hk
    rw [hs] at he
    cases he
  | succ k =>
    simp only [elemAt, he, Option.bind_some] at hk
    exact h k id fs m hk hs

theorem handled_of {s : CSeen} {t e : Nat} (he : (ts t).elem = some e) (h : Handled ts s t) : Handled ts s e := by
  obtain ⟨⟨n, hn⟩, h⟩ := h
  refine ⟨?_, fun k id fs m hk hs => h (k + 1) id fs m (by simp [elemAt, he, hk]) hs⟩
  cases n with
  | zero => simp [elemAt] at hn
  | succ n => exact ⟨n, by simpa [elemAt, he] using hn⟩

theorem handled_leaf {s : CSeen} {t : Nat} (he : (ts t).elem = none) (hn : ∀ fs m, ts t = .struct fs m → s t ≠ none) : Handled ts s t := by
  refine ⟨⟨1, by simp [elemAt, he]⟩, fun k id fs m hk hs => ?_⟩
  cases k with
  | zero =>
    simp only [elemAt, Option.some.injEq] at hk
    subst hk
    exact hn fs m hs
  | succ k => simp [elemAt, he] at hk

/-- What is met is met, and the fields of what was met since are handled. -/
def Post (ts : Types) (s s' : CSeen) : Prop :=
  (∀ id, s id ≠ none → s' id ≠ none) ∧ ∀ id fs m, ts id = .struct fs m → s id = none → s' id ≠ none → ∀ f ∈ fs, Handled ts s' f.1

theorem Post.refl (s : CSeen) : Post ts s s := ⟨fun _ h => h, fun _ _ _ _ h1 h2 => absurd h1 h2⟩

theorem Post.trans {s s' s'' : CSeen} (h : Post ts s s') (h' : Post ts s' s'') : Post ts s s'' := by
  refine ⟨fun id hi => h'.1 id (h.1 id hi), fun id fs m hs h1 h2 f hf => ?_⟩
  cases h3 : s' id with
  | none => exact h'.2 id fs m hs h3 h2 f hf
  | some x => exact (h.2 id fs m hs h1 (by simp [h3]) f hf).mono h'.1

theorem fieldsT_post {c : Nat → Bool → CSeen → Option (Codec × CSeen)}
    (hc : ∀ t a s r, c t a s = some r → Handled ts r.2 t ∧ Post ts s r.2) : ∀ (fs : List (Nat × Bool)) (a : Bool) (s : CSeen) (r : List Codec × CSeen),
    fieldsT ts c fs a s = some r → (∀ f ∈ fs, Handled ts r.2 f.1) ∧ Post ts s r.2
  | [], _, s, r, h => by
    simp only [fieldsT, Option.some.injEq] at h
    subst h
    exact ⟨by simp, Post.refl _⟩
  | f :: fs, a, s, r, h => by
    simp only [fieldsT] at h
    cases h1 : c f.1 a s with
    | none => rw [h1] at h; cases h
    | some r1 =>
      rw [h1] at h
      simp only [] at h
      cases h2 : fieldsT ts c fs a r1.2 with
      | none => rw [h2] at h; cases h
      | some r2 =>
        rw [h2] at h
        simp only [Option.some.injEq] at h
        subst h
        obtain ⟨g1, p1⟩ := hc _ _ _ _ h1
        obtain ⟨g2, p2⟩ := fieldsT_post hc fs a r1.2 r2 h2
        refine ⟨fun x hx => ?_, p1.trans p2⟩
        rcases List.mem_cons.1 hx with rfl | hx
        · exact g1.mono p2.1
        · exact g2 x hx

theorem constructT_post : ∀ (n t : Nat) (a : Bool) (s : CSeen) (r : Codec × CSeen), constructT ts n t a s = some r → Handled ts r.2 t ∧ Post ts s r.2
  | 0, _, _, _, _, h => by simp [constructT] at h
  | n + 1, t, a, s, r, h => by
    have ih := constructT_post n
    have via : ∀ {e : Nat} {b : Bool} {g : Codec × CSeen → Codec}, (ts t).elem = some e → (constructT ts n e b s).map (fun r => (g r, r.2)) = some r →
        Handled ts r.2 t ∧ Post ts s r.2 := by
      intro e b g he hr
      obtain ⟨r1, h1, rfl⟩ := Option.map_eq_some_iff.1 hr
      obtain ⟨g1, p1⟩ := ih _ _ _ _ h1
      exact ⟨handled_elem he g1, p1⟩
    rw [constructT] at h
    cases hn : ts t with
    | special x =>
      rw [hn] at h; simp only [Option.some.injEq] at h; subst h
      exact ⟨handled_leaf (by rw [hn]; rfl) (by rw [hn]; intro _ _ h; cases h), Post.refl _⟩
    | basic k m =>
      rw [hn] at h; simp only [Option.some.injEq] at h; subst h
      exact ⟨handled_leaf (by rw [hn]; rfl) (by rw [hn]; intro _ _ h; cases h), Post.refl _⟩
    | ifc m =>
      rw [hn] at h; simp only [Option.some.injEq] at h; subst h
      exact ⟨handled_leaf (by rw [hn]; rfl) (by rw [hn]; intro _ _ h; cases h), Post.refl _⟩
    | other m =>
      rw [hn] at h; simp only [Option.some.injEq] at h; subst h
      exact ⟨handled_leaf (by rw [hn]; rfl) (by rw [hn]; intro _ _ h; cases h), Post.refl _⟩
    | array l e m =>
      rw [hn] at h
      exact via (g := fun r => withMethods m a (.array l r.1.1, .array l r.1.2)) (by rw [hn]; rfl) h
    | ptr e =>
      rw [hn] at h
      exact via (by rw [hn]; rfl) h
    | slice e m =>
      rw [hn] at h
      simp only [] at h
      cases hb : byteNode (ts e) with
      | none =>
        rw [hb] at h
        exact via (g := fun r => withMethods m a (.slice r.1.1, .slice r.1.2)) (by rw [hn]; rfl) h
      | some me =>
        rw [hb] at h; simp only [Option.some.injEq] at h; subst h
        have : ∃ me, ts e = .basic (.int .uint8) me := by
          revert hb; cases ts e <;> simp only [byteNode] <;> intro hb
          all_goals first | cases hb | skip
          split at hb
          · rename_i h; cases h; exact ⟨_, rfl⟩
          · cases hb
        obtain ⟨me, he⟩ := this
        exact ⟨handled_elem (e := e) (by rw [hn]; rfl) (handled_leaf (by rw [he]; rfl) (by rw [he]; intro _ _ h; cases h)), Post.refl _⟩
    | map k e m =>
      rw [hn] at h
      simp only [] at h
      split at h
      · rename_i he
        simp only [Option.some.injEq] at h; subst h
        exact ⟨handled_elem (e := e) (by rw [hn]; rfl) (handled_leaf (by rw [he.2]; rfl) (by rw [he.2]; intro _ _ h; cases h)), Post.refl _⟩
      · split at h
        · rename_i he
          simp only [Option.some.injEq] at h; subst h
          exact ⟨handled_elem (e := e) (by rw [hn]; rfl) (handled_leaf (by rw [he.2]; rfl) (by rw [he.2]; intro _ _ h; cases h)), Post.refl _⟩
        · cases hk : keyCodec k with
          | none =>
            simp only [hk] at h
            exact via (g := fun _ => withMethods m a (.unsupported, .unsupported)) (by rw [hn]; rfl) h
          | some kc =>
            simp only [hk] at h
            exact via (g := fun r => withMethods m a (.map kc.1 r.1.1, .map kc.2 r.1.2)) (by rw [hn]; rfl) h
    | struct fs m =>
      rw [hn] at h
      simp only [] at h
      cases hs : s t with
      | some x =>
        rw [hs] at h; simp only [Option.some.injEq] at h; subst h
        exact ⟨handled_leaf (by rw [hn]; rfl) (by intro _ _ _; simp [hs]), Post.refl _⟩
      | none =>
        rw [hs] at h
        simp only [] at h
        obtain ⟨r1, h1, rfl⟩ := Option.map_eq_some_iff.1 h
        obtain ⟨g1, p1⟩ := fieldsT_post ih fs a (s.set t none) r1 h1
        have up : ∀ id, r1.2 id ≠ none → (r1.2.set t (some r1.1)) id ≠ none := by
          intro id hi
          unfold CSeen.set
          split
          · simp
          · exact hi
        refine ⟨handled_leaf (by rw [hn]; rfl) (by intro _ _ _; simp [CSeen.set]), fun id hi => up id (p1.1 id ?_), fun id fs' m' hs' h1 h2 f hf => ?_⟩
        · unfold CSeen.set
          split
          · simp
          · exact hi
        · by_cases e : id = t
          · subst e
            rw [hn] at hs'
            cases hs'
            exact (g1 f hf).mono up
          · refine (p1.2 id fs' m' hs' (by simp [CSeen.set, e, h1]) ?_ f hf).mono up
            simpa [CSeen.set, e] using h2

/-- A codec was constructed, so all types that were met end. -/
theorem codecT_ends {n t : Nat} {r : Codec × CSeen} (h : codecT ts n t = some r) : ∀ u, LeadsTo ts t u → Ends ts u := by
  obtain ⟨h1, h2⟩ := constructT_post n t _ _ r h
  have : ∀ t u, LeadsTo ts t u → Handled ts r.2 t → Handled ts r.2 u := by
    intro t u hl
    induction hl with
    | refl => exact id
    | elem t e u he _ ih => exact fun h => ih (handled_of he h)
    | field t fs m f u hs hf _ ih => exact fun h => ih (h2.2 t fs m hs rfl (h.2 0 t fs m rfl hs) f hf)
  exact fun u hu => (this t u hu h1).1

/-! ### Types that end are written out -/

theorem isType_of_ends : ∀ (n t : Nat), elemAt ts n t = none → ∃ g, IsType ts t g
  | 0, t, h => by simp [elemAt] at h
  | n + 1, t, h => by
    simp only [elemAt] at h
    cases ht : ts t with
    | special s => exact ⟨_, .special t s ht⟩
    | basic k m => exact ⟨_, .basic t k m ht⟩
    | ifc m => exact ⟨_, .ifc t m ht⟩
    | other m => exact ⟨_, .other t m ht⟩
    | struct fs m => exact ⟨_, .struct t fs m ht⟩
    | array l e m =>
      obtain ⟨g, hg⟩ := isType_of_ends n e (by simpa [ht, TNode.elem] using h)
      exact ⟨_, .array t l e m g ht hg⟩
    | slice e m =>
      obtain ⟨g, hg⟩ := isType_of_ends n e (by simpa [ht, TNode.elem] using h)
      exact ⟨_, .slice t e m g ht hg⟩
    | map k e m =>
      obtain ⟨g, hg⟩ := isType_of_ends n e (by simpa [ht, TNode.elem] using h)
      exact ⟨_, .map t k e m g ht hg⟩
    | ptr e =>
      obtain ⟨g, hg⟩ := isType_of_ends n e (by simpa [ht, TNode.elem] using h)
      exact ⟨_, .ptr t e g ht hg⟩

theorem env_exists {t : Nat} (h : ∀ u, LeadsTo ts t u → Ends ts u) : ∃ env, EnvOf ts t env ∧ ∀ id, (¬ LeadsTo ts t id ∨ ∀ fs m, ts id ≠ .struct fs m) → (env id).fields = [] := by
  have one : ∀ fs : List (Nat × Bool), (∀ f ∈ fs, Ends ts f.1) → ∃ gs : List (GT × Bool), gs.length = fs.length ∧
      ∀ (i : Nat) f g, fs[i]? = some f → gs[i]? = some g → g.2 = f.2 ∧ IsType ts f.1 g.1 := by
    intro fs
    induction fs with
    | nil => exact fun _ => ⟨[], rfl, fun i f g hf => by simp at hf⟩
    | cons f fs ih =>
      intro hf
      obtain ⟨n, hn⟩ := hf f (by simp)
      obtain ⟨g, hg⟩ := isType_of_ends n f.1 hn
      obtain ⟨gs, hl, hgs⟩ := ih fun x hx => hf x (by simp [hx])
      refine ⟨(g, f.2) :: gs, by simp [hl], fun i x y hx hy => ?_⟩
      cases i with
      | zero => simp at hx hy; subst hx hy; exact ⟨rfl, hg⟩
      | succ i => exact hgs i x y (by simpa using hx) (by simpa using hy)
  have all : ∀ id, ∃ d : StructDecl, (∀ fs m, LeadsTo ts t id → ts id = .struct fs m → d.meths = m ∧ d.fields.length = fs.length ∧
      ∀ (i : Nat) f g, fs[i]? = some f → d.fields[i]? = some g → g.2 = f.2 ∧ IsType ts f.1 g.1) ∧
      ((¬ LeadsTo ts t id ∨ ∀ fs m, ts id ≠ .struct fs m) → d.fields = []) := by
    intro id
    by_cases hl : LeadsTo ts t id
    · cases hn : ts id with
      | struct fs m =>
        obtain ⟨gs, h1, h2⟩ := one fs fun f hf => h f.1 (LeadsTo.trans hl (.field id fs m f f.1 hn hf (.refl _)))
        refine ⟨⟨gs, m⟩, fun fs' m' _ he => ?_, fun h => ?_⟩
        · cases he
          exact ⟨rfl, h1, h2⟩
        · rcases h with h | h
          · exact absurd hl h
          · exact absurd rfl (h fs m)
      | _ => exact ⟨⟨[], {}⟩, fun _ _ _ he => (by cases he), fun _ => rfl⟩
    · exact ⟨⟨[], {}⟩, fun _ _ hl' => absurd hl' hl, fun _ => rfl⟩
  exact ⟨fun id => Classical.choose (all id), fun id fs m hl hs => (Classical.choose_spec (all id)).1 fs m hl hs, fun id => (Classical.choose_spec (all id)).2⟩

/-! ### Simulation -/

theorem isType_byte {e : Nat} {g : GT} (h : IsType ts e g) : byteElem g = byteNode (ts e) := by
  cases h with
  | basic _ k m h =>
    rw [h]
    cases k with
    | int i => cases i <;> rfl
    | _ => rfl
  | _ => simp_all [byteElem, byteNode]

theorem isType_special {e : Nat} {g : GT} (h : IsType ts e g) (s : Special) : g = .special s ↔ ts e = .special s := by
  cases h <;> simp_all

theorem isType_own {e : Nat} {g : GT} (h : IsType ts e g) : ownPtr g = ownNode (ts e) := by
  cases h with
  | special _ s h => rw [h]; cases s <;> rfl
  | _ => simp_all [ownPtr, ownNode]

theorem isType_scalar {e : Nat} {g : GT} (h : IsType ts e g) : scalarKind g = scalarNode (ts e) := by
  cases h with
  | special _ s h => rw [h]; cases s <;> rfl
  | basic _ k m h => rw [h]; cases k <;> rfl
  | _ => simp_all [scalarKind, scalarNode]

theorem isType_stringify {t : Nat} {g : GT} (h : IsType ts t g) (c : Codec) : stringify g c = stringifyT ts t c := by
  unfold stringify stringifyT
  have : scalarKind (derefOnce g) = scalarNode (derefNode ts (ts t)) := by
    cases h with
    | ptr _ e g ht he => rw [ht]; exact isType_scalar he
    | special _ s h => rw [h]; cases s <;> rfl
    | basic _ k m h => rw [h]; cases k <;> rfl
    | _ => simp_all [scalarKind, scalarNode, derefOnce, derefNode]
  rw [this]
  rfl

theorem constructStruct_grows (env : TyEnv) : ∀ (k id : Nat) (a : Bool) (s : CSeen), Grows s (constructStruct env k id a s)
  | 0, _, _, s => Grows.refl s
  | k + 1, id, a, s => by
    rw [constructStruct]
    cases hs : s id with
    | some x => exact Grows.refl s
    | none =>
      simp only [fieldCodecs_eq]
      have : ∀ (l : List (Nat × Bool)) (s : CSeen), Grows s (meetAll (constructStruct env k) l s) := by
        intro l
        induction l with
        | nil => exact fun s => Grows.refl s
        | cons x l ih => exact fun s => (constructStruct_grows env k x.1 x.2 s).trans (ih _)
      have g := this (fieldsCtx (env id).fields a) (s.set id none)
      generalize meetAll (constructStruct env k) (fieldsCtx (env id).fields a) (s.set id none) = s1 at g ⊢
      refine ⟨fun y hy => ?_, fun y cs hy => ?_, fun y hy => ?_⟩
      · by_cases e : y = id
        · simp [CSeen.set, e]
        · have := g.1 y (by simp [CSeen.set, e, hy])
          simpa [CSeen.set, e] using this
      · by_cases e : y = id
        · subst e; rw [hs] at hy; cases hy
        · have := g.2.1 y cs (by simp [CSeen.set, e, hy])
          simpa [CSeen.set, e] using this
      · by_cases e : y = id
        · subst e; rw [hs] at hy; cases hy
        · have := g.2.2 y (by simp [CSeen.set, e, hy])
          simpa [CSeen.set, e] using this

theorem meetAll_grows (env : TyEnv) (k : Nat) : ∀ (l : List (Nat × Bool)) (s : CSeen), Grows s (meetAll (constructStruct env k) l s)
  | [], s => Grows.refl s
  | x :: l, s => (constructStruct_grows env k x.1 x.2 s).trans (meetAll_grows env k l _)

section
variable {root count : Nat} {env : TyEnv}

/-- The statement of the simulation for one amount of fuel. -/
def Simulates (ts : Types) (root count : Nat) (env : TyEnv) (k : Nat) : Prop :=
  ∀ t g, LeadsTo ts root t → IsType ts t g → ∀ a s, missing count s ≤ k →
    ∃ N, ∀ n, N ≤ n → constructT ts n t a s = some (constructCodec env (constructStruct env k) g a s)

theorem fieldsT_sim {k : Nat} (hsim : Simulates ts root count env k) (a : Bool) : ∀ (fs : List (Nat × Bool)) (gs : List (GT × Bool)),
    gs.length = fs.length → (∀ (i : Nat) f g, fs[i]? = some f → gs[i]? = some g → g.2 = f.2 ∧ IsType ts f.1 g.1) →
    (∀ f ∈ fs, LeadsTo ts root f.1) → ∀ s, missing count s ≤ k →
    ∃ N, ∀ n, N ≤ n → fieldsT ts (constructT ts n) fs a s = some (fieldCodecs env (constructStruct env k) gs a s)
  | [], [], _, _, _, s, _ => ⟨0, fun n _ => rfl⟩
  | [], _ :: _, hl, _, _, _, _ => by simp at hl
  | _ :: _, [], hl, _, _, _, _ => by simp at hl
  | f :: fs, g :: gs, hl, h, hr, s, hm => by
    obtain ⟨h1, h2⟩ := h 0 f g rfl rfl
    obtain ⟨N, hN⟩ := hsim f.1 g.1 (hr f (by simp)) h2 a s hm
    have hm' : missing count (constructCodec env (constructStruct env k) g.1 a s).2 ≤ k := by
      rw [constructCodec_eq]
      exact Nat.le_trans ((meetAll_grows env k _ s).missing count) hm
    obtain ⟨M, hM⟩ := fieldsT_sim hsim a fs gs (by simpa using hl) (fun i x y hx hy => h (i + 1) x y (by simpa using hx) (by simpa using hy))
      (fun x hx => hr x (by simp [hx])) _ hm'
    refine ⟨N + M, fun n hn => ?_⟩
    simp only [fieldsT, hN n (by omega), hM n (by omega), fieldCodecs, h1, isType_stringify h2]

theorem simulates (henv : EnvOf ts root env) (hcount : ∀ id fs m, LeadsTo ts root id → ts id = .struct fs m → id < count) : ∀ k, Simulates ts root count env k := by
  have core : ∀ k, (∀ k', k = k' + 1 → Simulates ts root count env k') → Simulates ts root count env k := by
    intro k ihk t g hr ht
    have step : ∀ {t e : Nat}, LeadsTo ts root t → (ts t).elem = some e → LeadsTo ts root e := fun hr he => LeadsTo.trans hr (.elem _ _ _ he (.refl _))
    induction ht with
    | special t s h => exact fun a s _ => ⟨1, fun n hn => by obtain ⟨n, rfl⟩ : ∃ m, n = m + 1 := ⟨n - 1, by omega⟩; rw [constructT, h]; rfl⟩
    | basic t k m h => exact fun a s _ => ⟨1, fun n hn => by obtain ⟨n, rfl⟩ : ∃ m, n = m + 1 := ⟨n - 1, by omega⟩; rw [constructT, h]; rfl⟩
    | ifc t m h => exact fun a s _ => ⟨1, fun n hn => by obtain ⟨n, rfl⟩ : ∃ m, n = m + 1 := ⟨n - 1, by omega⟩; rw [constructT, h]; rfl⟩
    | other t m h => exact fun a s _ => ⟨1, fun n hn => by obtain ⟨n, rfl⟩ : ∃ m, n = m + 1 := ⟨n - 1, by omega⟩; rw [constructT, h]; rfl⟩
    | array t l e m g h hg ih =>
      intro a s hm
      obtain ⟨N, hN⟩ := ih (step hr (by rw [h]; rfl)) a s hm
      refine ⟨N + 1, fun n hn => ?_⟩
      obtain ⟨n, rfl⟩ : ∃ m, n = m + 1 := ⟨n - 1, by omega⟩
      rw [constructT, h]
      simp only [hN n (by omega), Option.map_some, constructCodec]
    | slice t e m g h hg ih =>
      intro a s hm
      obtain ⟨N, hN⟩ := ih (step hr (by rw [h]; rfl)) true s hm
      refine ⟨N + 1, fun n hn => ?_⟩
      obtain ⟨n, rfl⟩ : ∃ m, n = m + 1 := ⟨n - 1, by omega⟩
      rw [constructT, h]
      simp only [hN n (by omega), Option.map_some, constructCodec, isType_byte hg]
      cases byteNode (ts e) <;> rfl
    | map t k e m g h hg ih =>
      intro a s hm
      obtain ⟨N, hN⟩ := ih (step hr (by rw [h]; rfl)) false s hm
      refine ⟨N + 1, fun n hn => ?_⟩
      obtain ⟨n, rfl⟩ : ∃ m, n = m + 1 := ⟨n - 1, by omega⟩
      rw [constructT, h]
      simp only [hN n (by omega), Option.map_some, constructCodec, isType_special hg]
      split
      · rfl
      · split
        · rfl
        · cases keyCodec k <;> rfl
    | ptr t e g h hg ih =>
      intro a s hm
      have hr' := step hr (by rw [h]; rfl)
      obtain ⟨N, hN⟩ := ih hr' true s hm
      refine ⟨N + 1, fun n hn => ?_⟩
      obtain ⟨n, rfl⟩ : ∃ m, n = m + 1 := ⟨n - 1, by omega⟩
      have hp : g.ptrMeths env = (ts e).ptrMeths := by
        cases hg with
        | struct _ fs m hs => rw [hs]; simp only [GT.ptrMeths, TNode.ptrMeths, (henv e fs m hr' hs).1]
        | _ => simp_all [GT.ptrMeths, TNode.ptrMeths]
      rw [constructT, h]
      simp only [hN n (by omega), Option.map_some, constructCodec, isType_own hg, hp]
    | struct t fs m h =>
      intro a s hm
      obtain ⟨e1, e2, e3⟩ := henv t fs m hr h
      cases hs : s t with
      | some x =>
        refine ⟨1, fun n hn => ?_⟩
        obtain ⟨n, rfl⟩ : ∃ m, n = m + 1 := ⟨n - 1, by omega⟩
        rw [constructT, h]
        simp only [hs, constructCodec, e1]
        cases k with
        | zero => rfl
        | succ k => simp only [constructStruct, hs]
      | none =>
        have hlt := missing_set (hcount t fs m hr h) hs none
        obtain ⟨k', rfl⟩ : ∃ k', k = k' + 1 := ⟨k - 1, by omega⟩
        obtain ⟨N, hN⟩ := fieldsT_sim (ihk k' rfl) a fs (env t).fields e2 e3
          (fun f hf => LeadsTo.trans hr (.field t fs m f f.1 h hf (.refl _))) (s.set t none) (by omega)
        refine ⟨N + 1, fun n hn => ?_⟩
        obtain ⟨n, rfl⟩ : ∃ m, n = m + 1 := ⟨n - 1, by omega⟩
        rw [constructT, h]
        simp only [hs, hN n (by omega), Option.map_some, constructCodec, e1, constructStruct]
  intro k
  induction k with
  | zero => exact core 0 (fun k' h => by omega)
  | succ k ih => exact core (k + 1) (fun k' h => by obtain rfl : k' = k := by omega
                                                    exact ih)

end

theorem isType_ctx {t : Nat} {g : GT} (h : IsType ts t g) : ∀ a, ∀ x ∈ ctx g a, LeadsTo ts t x.1 ∧ ∃ fs m, ts x.1 = .struct fs m := by
  induction h with
  | struct t fs m h =>
    intro a x hx
    simp only [ctx, List.mem_singleton] at hx
    subst hx
    exact ⟨.refl _, fs, m, h⟩
  | array t n e m g h _ ih =>
    intro a x hx
    obtain ⟨h1, h2⟩ := ih a x (by simpa [ctx] using hx)
    exact ⟨.elem t e x.1 (by rw [h]; rfl) h1, h2⟩
  | slice t e m g h _ ih =>
    intro a x hx
    obtain ⟨h1, h2⟩ := ih true x (by simpa [ctx] using hx)
    exact ⟨.elem t e x.1 (by rw [h]; rfl) h1, h2⟩
  | map t k e m g h _ ih =>
    intro a x hx
    obtain ⟨h1, h2⟩ := ih false x (by simpa [ctx] using hx)
    exact ⟨.elem t e x.1 (by rw [h]; rfl) h1, h2⟩
  | ptr t e g h _ ih =>
    intro a x hx
    obtain ⟨h1, h2⟩ := ih true x (by simpa [ctx] using hx)
    exact ⟨.elem t e x.1 (by rw [h]; rfl) h1, h2⟩
  | _ => intro a x hx; simp [ctx] at hx

theorem isType_isPtr {t : Nat} {g : GT} (h : IsType ts t g) : (ts t).isPtr = g.isPtr := by
  cases h <;> simp_all [TNode.isPtr, GT.isPtr]

/-! ### More stack -/

theorem fieldsT_le {c c' : Nat → Bool → CSeen → Option (Codec × CSeen)} (hc : ∀ t a s r, c t a s = some r → c' t a s = some r) :
    ∀ (fs : List (Nat × Bool)) (a : Bool) (s : CSeen) (r : List Codec × CSeen), fieldsT ts c fs a s = some r → fieldsT ts c' fs a s = some r
  | [], _, _, _, h => h
  | f :: fs, a, s, r, h => by
    simp only [fieldsT] at h ⊢
    cases h1 : c f.1 a s with
    | none => rw [h1] at h; cases h
    | some r1 =>
      rw [h1] at h
      rw [hc _ _ _ _ h1]
      simp only [] at h ⊢
      cases h2 : fieldsT ts c fs a r1.2 with
      | none => rw [h2] at h; cases h
      | some r2 =>
        rw [h2] at h
        rw [fieldsT_le hc fs a r1.2 r2 h2]
        exact h

theorem constructT_succ : ∀ (n t : Nat) (a : Bool) (s : CSeen) (r : Codec × CSeen), constructT ts n t a s = some r → constructT ts (n + 1) t a s = some r
  | 0, _, _, _, _, h => by simp [constructT] at h
  | n + 1, t, a, s, r, h => by
    have ih := constructT_succ n
    have via : ∀ {e : Nat} {b : Bool} {g : Codec × CSeen → Codec × CSeen}, (constructT ts n e b s).map g = some r → (constructT ts (n + 1) e b s).map g = some r := by
      intro e b g hr
      obtain ⟨r1, h1, rfl⟩ := Option.map_eq_some_iff.1 hr
      rw [ih _ _ _ _ h1]; rfl
    rw [constructT] at h ⊢
    cases hn : ts t with
    | special x => rw [hn] at h; exact h
    | basic k m => rw [hn] at h; exact h
    | ifc m => rw [hn] at h; exact h
    | other m => rw [hn] at h; exact h
    | array l e m => rw [hn] at h; exact via h
    | ptr e => rw [hn] at h; exact via h
    | slice e m =>
      rw [hn] at h
      simp only [] at h ⊢
      cases hb : byteNode (ts e) with
      | none => rw [hb] at h; exact via h
      | some me => rw [hb] at h; exact h
    | map k e m =>
      rw [hn] at h
      simp only [] at h ⊢
      split
      · rename_i he; rw [if_pos he] at h; exact h
      · rename_i he
        rw [if_neg he] at h
        split
        · rename_i he; rw [if_pos he] at h; exact h
        · rename_i he; rw [if_neg he] at h; exact via h
    | struct fs m =>
      rw [hn] at h
      simp only [] at h ⊢
      cases hs : s t with
      | some x => rw [hs] at h; exact h
      | none =>
        rw [hs] at h
        simp only [] at h ⊢
        obtain ⟨r1, h1, rfl⟩ := Option.map_eq_some_iff.1 h
        rw [fieldsT_le ih fs a _ r1 h1]; rfl

theorem constructT_le {n m : Nat} (hm : n ≤ m) {t : Nat} {a : Bool} {s : CSeen} {r : Codec × CSeen} (h : constructT ts n t a s = some r) : constructT ts m t a s = some r := by
  induction hm with
  | refl => exact h
  | step _ ih => exact constructT_succ _ _ _ _ _ ih

end JC

import Verif.Lemmas.Promote
import Verif.Props.Codec
/-!
Property C79: the members of structs, promoted ones included, are encoded and decoded with the functions and methods that
`encoding/json` would use.
-/
namespace JC.Props
open JC Spec

/-- **C79** Full statement. Refuted by `C79_fails_embedded`; see `C79_enc_partial` and `C79_dec_partial`. -/
def C79_statement : Prop := ∀ letter env count t, GoEnvP env → Named env → GoType t → ClosedP env count t →
  RightEncP env t (codecP letter env count t) ∧ RightDecP env t (codecP letter env count t)

/-- Types and fields are fair as for C59. -/
def AllFairEncP (env : PEnv) (t : GT) : Prop :=
  FairEnc env.ty t ∧ ∀ id a, Contains env t id a → ∀ f ∈ (env id).fields, Shown f → embeds f = none → FairEnc env.ty f.type ∧ FairQuote (option f)

def AllFairDecP (env : PEnv) (t : GT) : Prop :=
  FairDec t ∧ ∀ id a, Contains env t id a → ∀ f ∈ (env id).fields, Shown f → embeds f = none → FairDec f.type

/-- A field is encoded in the same way in all places where its struct can be, also if embedded pointers count as embedded
structs. -/
def OneWayP (env : PEnv) (t : GT) : Prop :=
  ∀ id a a', Contains env t id a → Treats env t id a' → ∀ f ∈ (env id).fields, Shown f → embeds f = none →
    goFieldEnc env.ty a (option f) = goFieldEnc env.ty a' (option f)

/-- What a path leads to. -/
theorem reaches_field {env : PEnv} {id k : Nat} {p : List Nat} {f : PField} {via : List Bool} (h : Reaches env id p k f via) :
    f ∈ (env k).fields ∧ Shown f ∧ embeds f = none := by
  induction h with
  | here _ _ _ hf hs he => exact ⟨List.mem_of_getElem? hf, hs, he⟩
  | there _ _ _ _ _ _ _ _ _ _ _ _ _ ih => exact ih

/-- The struct at the end of a path is addressable if the first one is, or by a pointer on the way. -/
theorem reaches_contains {env : PEnv} {t : GT} {id k : Nat} {p : List Nat} {f : PField} {via : List Bool} (h : Reaches env id p k f via) :
    ∀ a, Contains env t id a → Contains env t k (a || !via.isEmpty) := by
  induction h with
  | here _ _ _ hf hs he => intro a hc; simpa using hc
  | there id i f id' ptr p k g via hf hs he _ ih =>
    intro a hc
    have := ih (a || ptr) (.field hc (List.mem_of_getElem? hf) hs (embeds_mem he a))
    cases ptr
    · simpa using this
    · simpa using this

section
variable {letter : Nat → Bool} {env : PEnv} {count : Nat} {t : GT}

/-- **C79** (partial: for fair types, and fields that are encoded in the same way wherever their struct is) The encoding
functions of all members of all structs are those of `encoding/json`, for promoted fields too. -/
theorem C79_enc_partial (he : GoEnvP env) (hn : Named env) (hg : GoType t) (hc : ClosedP env count t) (hf : AllFairEncP env t) (ho : OneWayP env t) :
    RightEncP env t (codecP letter env count t) := by
  obtain ⟨h1, h2⟩ := codecP_spec (letter := letter) hn hc
  refine ⟨by rw [h1, codecAt_enc t _ hg hf.1, goEnc_root], ?_⟩
  intro id a hm
  obtain ⟨ss, hs, hor⟩ := h2 id a hm
  refine ⟨ss, hs, ?_⟩
  intro s hmem
  obtain ⟨k, f, a', hr, ht, hcod⟩ := hor s hmem
  refine ⟨k, f, hr, ?_⟩
  obtain ⟨hfm, hsh, hem⟩ := reaches_field hr
  have hk := reaches_contains hr a hm
  obtain ⟨hf1, hf2⟩ := hf.2 k _ hk f hfm hsh hem
  rw [ho k _ a' hk ht f hfm hsh hem, hcod]
  rw [option_eq] at hf2 ⊢
  exact fieldAt_enc ((he k).2 f hfm) hf1 hf2 a'

/-- **C79** (partial: for fair types) The decoding functions of all members are those of `encoding/json`. -/
theorem C79_dec_partial (he : GoEnvP env) (hn : Named env) (hg : GoType t) (hc : ClosedP env count t) (hf : AllFairDecP env t) :
    RightDecP env t (codecP letter env count t) := by
  obtain ⟨h1, h2⟩ := codecP_spec (letter := letter) hn hc
  refine ⟨by rw [h1, codecAt_dec t _ hg hf.1], ?_⟩
  intro id a hm
  obtain ⟨ss, hs, hor⟩ := h2 id a hm
  refine ⟨ss, hs, ?_⟩
  intro s hmem
  obtain ⟨k, f, a', hr, ht, hcod⟩ := hor s hmem
  refine ⟨k, f, hr, ?_⟩
  obtain ⟨hfm, hsh, hem⟩ := reaches_field hr
  rw [hcod, option_eq]
  exact fieldAt_dec ((he k).2 f hfm) (hf.2 k _ (reaches_contains hr a hm) f hfm hsh hem) a'

/-- **C79** (partial: for fair types, if no field has methods with pointer receivers only) -/
theorem C79_values_partial (he : GoEnvP env) (hn : Named env) (hg : GoType t) (hc : ClosedP env count t) (hf : AllFairEncP env t)
    (hv : ∀ id a, Contains env t id a → ∀ f ∈ (env id).fields, Shown f → embeds f = none → NoPtrOnly env.ty f.type) : RightEncP env t (codecP letter env count t) := by
  apply C79_enc_partial he hn hg hc hf
  intro id a a' hm _ f hfm hsh hem
  unfold goFieldEnc
  rw [show goEnc env.ty (option f).1 a = goEnc env.ty (option f).1 a' from goEnc_same f.type a a' (hv id a hm f hfm hsh hem)]

/-- **C79** (partial: for fair types, if the value is a pointer and there are no maps) Methods with pointer receivers are used as
well, in promoted fields too. -/
theorem C79_pointers_partial {e : GT} (he : GoEnvP env) (hn : Named env) (hg : GoType (.ptr e)) (hc : ClosedP env count (.ptr e)) (hf : AllFairEncP env (.ptr e))
    (hm : NoMap e) (hv : ∀ id, ∀ f ∈ (env id).fields, Shown f → NoMap f.type) : RightEncP env (.ptr e) (codecP letter env count (.ptr e)) := by
  apply C79_enc_partial he hn hg hc hf
  have k1 : ∀ id a, Contains env (.ptr e) id a → a = true := by
    intro id a h
    induction h with
    | root h => rw [ctx] at h; exact ctx_noMap e hm _ h
    | field _ hfm hsh hx ih => subst ih; exact ctx_noMap _ (hv _ _ hfm hsh) _ hx
  have k2 : ∀ id a, Treats env (.ptr e) id a → a = true := by
    intro id a h
    induction h with
    | root h => rw [ctx] at h; exact ctx_noMap e hm _ h
    | field _ hfm hsh _ hx ih => subst ih; exact ctx_noMap _ (hv _ _ hfm hsh) _ hx
    | embed _ _ _ _ ih => exact ih
  intro id a a' h h' f _ _ _
  rw [k1 id a h, k2 id a' h']

/-- **C79** Which members there are, under which names and in which order, does not depend on codecs: they are those of C40. -/
theorem C79_members (id : Nat) : ((codecP letter env count (.struct id)).2.subs id).map (·.sf) = structFields letter env.decls count id := by
  rw [PSeen.base_subs, codecP_base]
  rfl
end

/-! ### Where the package departs from Go -/

/-- An integer type, pointers to which have `MarshalJSON`. -/
def ptrMarshaler : GT := .basic (.int .int) ⟨{}, ⟨true, false, false, false⟩⟩

/-- `type T struct { *E }`, `type E struct { X M }`. -/
def embedsPtr : PEnv
  | 0 => ⟨[{ goName := bs! "E", anonymous := true, type := .ptr (.struct 1) }], {}⟩
  | 1 => ⟨[{ goName := bs! "X", type := ptrMarshaler }], {}⟩
  | _ => ⟨[], {}⟩

theorem embedsPtr_env : GoEnvP embedsPtr ∧ Named embedsPtr ∧ ClosedP embedsPtr 2 (.struct 0) := by
  refine ⟨?_, ?_, ⟨?_, ?_⟩⟩
  · rintro (_ | _ | id) <;> simp [embedsPtr, GoType, ptrMarshaler, Declarable, MethsLe]
  · rintro (_ | _ | id) <;> simp [embedsPtr]
  · simp [ctx]
  · rintro (_ | _ | id) <;> simp [embedsPtr, ctx, ptrMarshaler]

theorem embedsPtr_table : (codecP (fun _ => true) embedsPtr 2 (.struct 0)).2 0 =
    some (some [⟨⟨bs! "X", false, [0, 0], (0, 0)⟩, [false], (.basic (.int .int), .basic (.int .int))⟩]) := by with_unfolding_all rfl

/-- In a `T` the field `X` is addressable through the pointer, so `encoding/json` calls its method; the package does not: it
treats what `*E` points to like an embedded `E` (`/repo/codec.go:569`). All types are fair, and `E` is met here only. -/
theorem C79_fails_embedded : GoEnvP embedsPtr ∧ Named embedsPtr ∧ ClosedP embedsPtr 2 (.struct 0) ∧ AllFairEncP embedsPtr (.struct 0) ∧
    (∀ a, Contains embedsPtr (.struct 0) 1 a → a = true) ∧
    ¬ RightEncP embedsPtr (.struct 0) (codecP (fun _ => true) embedsPtr 2 (.struct 0)) := by
  refine ⟨embedsPtr_env.1, embedsPtr_env.2.1, embedsPtr_env.2.2, ⟨by simp [FairEnc, Unmixed, embedsPtr, PEnv.ty], ?_⟩, ?_, ?_⟩
  · intro id _ _ f hf _ he
    rw [option_eq]
    rcases id with _ | _ | id
    · simp only [embedsPtr, List.mem_singleton] at hf
      subst hf
      exact absurd he (by decide +kernel)
    · simp only [embedsPtr, List.mem_singleton] at hf
      subst hf
      exact ⟨by simp [FairEnc, Unmixed, ptrMarshaler], by intro h; exact absurd h (by decide +kernel)⟩
    · simp [embedsPtr] at hf
  · intro a h
    cases h with
    | root h => simp [ctx] at h
    | @field id _ b _ f h hf hs hx =>
      rcases id with _ | _ | id
      · simp only [embedsPtr, List.mem_singleton] at hf
        subst hf
        simpa [ctx] using hx
      · simp only [embedsPtr, List.mem_singleton] at hf
        subst hf
        simp [ctx, ptrMarshaler] at hx
      · simp [embedsPtr] at hf
  · intro h
    obtain ⟨ss, h1, h2⟩ := h.2 0 false (.root (by simp [ctx]))
    rw [embedsPtr_table] at h1
    cases h1
    obtain ⟨k, f, hr, hc⟩ := h2 _ (List.mem_singleton.2 rfl)
    simp only at hr hc
    generalize hv : [false] = v at hr
    cases hr with
    | there _ _ g id' ptr _ _ _ _ hg hs he hr' =>
      simp only [embedsPtr, List.getElem?_cons_zero] at hg
      cases hg
      have : embeds { goName := bs! "E", anonymous := true, type := .ptr (.struct 1) } = some (1, true) := by decide +kernel
      rw [this] at he
      cases he
      cases hr' with
      | here _ _ _ hf _ _ =>
        simp only [embedsPtr, List.getElem?_cons_zero] at hf
        cases hf
        rw [option_eq] at hc
        exact absurd hc (by decide +kernel)
      | there _ _ _ _ _ _ _ _ _ _ _ _ hr'' => cases hr''

/-- The full statement is false. -/
theorem C79_fails : ¬ C79_statement := fun h =>
  C79_fails_embedded.2.2.2.2.2 (h _ _ _ _ embedsPtr_env.1 embedsPtr_env.2.1 (by simp [GoType]) embedsPtr_env.2.2).1

/-- Concrete case: `type T struct { A int; E; *F }`, `type E struct { A, B M }`, `type F struct { C int ",string"; G }`, `type G struct { B, D M }`: from
a `*T`, the members are `A`, `C` and `D`, and `D` is written with the method of `*M`. -/
def nestedEnv : PEnv
  | 0 => ⟨[{ goName := bs! "A", type := .basic (.int .int) {} }, { goName := bs! "E", anonymous := true, type := .struct 1 },
      { goName := bs! "F", anonymous := true, type := .ptr (.struct 2) }], {}⟩
  | 1 => ⟨[{ goName := bs! "A", type := ptrMarshaler }, { goName := bs! "B", type := ptrMarshaler }], {}⟩
  | 2 => ⟨[{ goName := bs! "C", tag := bs! ",string", type := .basic (.int .int) {} }, { goName := bs! "G", anonymous := true, type := .struct 3 }], {}⟩
  | 3 => ⟨[{ goName := bs! "B", type := ptrMarshaler }, { goName := bs! "D", type := ptrMarshaler }], {}⟩
  | _ => ⟨[], {}⟩

example : ((codecP (fun _ => true) nestedEnv 4 (.ptr (.struct 0))).2.subs 0).map (fun s => (s.sf.name, s.sf.path, s.via, s.codec.1)) =
    [(bs! "A", [0], [], .basic (.int .int)), (bs! "C", [2, 0], [false], .quoted (.basic (.int .int))), (bs! "D", [2, 1, 1], [false], .jsonM true)] := by with_unfolding_all rfl

end JC.Props

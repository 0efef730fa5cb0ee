import Verif.Lemmas.RunEnc
import Verif.Props.Run
/-!
Property C83: `Marshal` of variables of declared types, and `Unmarshal` of what it writes.
-/
namespace JC.Props
open JC Spec

variable {c : DCfg} {w : Decls} {d : MDecls} {env : TyEnv} {count depth : Nat} {t : GT}

/-- **C83** (partial) The function that `constructCodec` puts together for a declared type writes a variable as its methods, its
kind and the options of its fields say, following the rules of `encoding/json`.
Missing: types where the package chooses other functions (C59), `time.Duration` as a key, embedded structs. -/
theorem C83_view_partial (he : GoEnv env) (hg : GoType t) (hc : Closed env count t) (hf : AllFairEnc env t) (ho : OneWay env t) (hd : AllNoDurKeys env t)
    (cf : Cfg) (v : DV) : appendG cf w d env count t v = enc cf (view w d env v t false) := by
  have hr := C59_enc_partial he hg hc hf ho
  unfold appendG view
  simp only []
  rw [hr.1, goEnc_split, see_choose (see_kind (fun id a hm => ⟨hr.2 id a hm, hd.2 id a hm⟩) v t false hd.1 fun x hx => .root hx)]

/-- **C83** (partial: types without methods but for those of keys; strings are UTF-8, no pointer leads to nil, no raw messages) For every
declared type, recursive or not, `Marshal` writes every variable of it, and `Unmarshal` of what was written into a zero variable of the type
gives the variable back. -/
theorem C83_roundtrip_partial (he : GoEnv env) (hg : GoType t) (hc : Closed env count t) (hfe : AllFairEnc env t) (ho : OneWay env t) (hfd : AllFairDec env t)
    (hd : AllNoDurKeys env t) (hn : HasNames w env) (hr : Sized env depth) (hj : ∀ id, ∀ f ∈ (env id).fields, NoJsonU env f.1) (ht : NoJsonU env t)
    (cf : Cfg) (hcl : cf.clrs = none) (hw : WsLayout cf) (hl : LibOk c.lib) (k l : Nat) {v : DV} (h : IsVar c w d env depth t v) :
    ∃ out, appendG cf w d env count t v [] l = .done out l none ∧ ∀ n, braces out < n →
      unmarshalG c w env count (fun t => zeroR (envReading w env) depth (reading w env t)) n k t out (zeroR (envReading w env) depth (reading w env t)) =
        .done (clip v) none := by
  obtain ⟨m0, hs⟩ := holds_seen hn hr h
  rw [C83_view_partial he hg hc hfe ho hd]
  exact C82_roundtrip_partial he hg hc hfd hd hn hr cf hcl hw hl k l (treeR_reading hj ht) ⟨m0, fun m hm => hs m hm false⟩

/-- **C83** (partial: as above) Different variables of a type are written differently. -/
theorem C83_injective_partial (he : GoEnv env) (hg : GoType t) (hc : Closed env count t) (hfe : AllFairEnc env t) (ho : OneWay env t) (hfd : AllFairDec env t)
    (hd : AllNoDurKeys env t) (hn : HasNames w env) (hr : Sized env depth) (hj : ∀ id, ∀ f ∈ (env id).fields, NoJsonU env f.1) (ht : NoJsonU env t)
    (cf : Cfg) (hcl : cf.clrs = none) (hw : WsLayout cf) (hl : LibOk c.lib) (l : Nat) {v v' : DV} (h : IsVar c w d env depth t v) (h' : IsVar c w d env depth t v')
    (e : appendG cf w d env count t v [] l = appendG cf w d env count t v' [] l) : clip v = clip v' := by
  obtain ⟨out, h1, h2⟩ := C83_roundtrip_partial he hg hc hfe ho hfd hd hn hr hj ht cf hcl hw hl 0 l h
  obtain ⟨out', h1', h2'⟩ := C83_roundtrip_partial he hg hc hfe ho hfd hd hn hr hj ht cf hcl hw hl 0 l h'
  rw [e, h1'] at h1
  injection h1 with h1
  subst h1
  have := h2 _ (Nat.lt_succ_self _)
  rw [h2' _ (Nat.lt_succ_self _)] at this
  injection this with this
  exact this.symm

/-- The full statement. -/
def C83_statement : Prop := ∀ (w : Decls) (d : MDecls) (env : TyEnv) (count : Nat) (t : GT), GoEnv env → GoType t → Closed env count t →
  ∀ cf v, appendG cf w d env count t v = enc cf (view w d env v t false)

/-! ### Concrete types -/

/-- `type T struct { A bool "a,string"; M map[K]*T "m,omitempty"; P *bool "p,string" }`; `*T` has no methods, `K` is an integer with
text methods. -/
def treeKey : KeyTy := ⟨.int .int, ⟨⟨false, true, false, false⟩, ⟨false, true, false, true⟩⟩⟩
def mapEnv : TyEnv := fun _ => ⟨[(.basic .bool {}, true), (.map treeKey (.ptr (.struct 0)) {}, false)], {}⟩
def mapDecls : Decls := { demoDecls with names := fun _ => [bs! "a", bs! "m"] }
def mapMeths : MDecls where
  jsonM := fun _ _ => .ok none
  textM := fun _ _ => .absent
  omits := fun _ => [false, true]
  emptyU := fun _ _ => false

theorem map_ok : GoEnv mapEnv ∧ GoType (.struct 0) ∧ Closed mapEnv 1 (.struct 0) ∧ AllFairEnc mapEnv (.struct 0) ∧ OneWay mapEnv (.struct 0) ∧
    AllFairDec mapEnv (.struct 0) ∧ AllNoDurKeys mapEnv (.struct 0) ∧ HasNames mapDecls mapEnv ∧ Sized mapEnv 1 ∧
    (∀ id, ∀ f ∈ (mapEnv id).fields, NoJsonU mapEnv f.1) ∧ NoJsonU mapEnv (.struct 0) := by
  refine ⟨?_, trivial, ⟨?_, ?_⟩, ⟨?_, ?_⟩, ?_, ⟨trivial, ?_⟩, ⟨trivial, ?_⟩, ?_, ⟨fun _ => 0, ?_, ?_⟩, ?_, ?_⟩
  · intro id; simp [mapEnv, treeKey, GoType, Declarable, MethsLe]
  · simp [ctx]
  · intro id; simp [mapEnv, ctx]
  · simp [FairEnc, Unmixed, mapEnv]
  · intro id a _; simp [mapEnv, treeKey, FairEnc, FairQuote, Unmixed, KeyFairEnc]
  · intro id a a' _ _ f hf
    simp only [mapEnv, List.mem_cons, List.not_mem_nil, or_false] at hf
    rcases hf with rfl | rfl <;> simp [goFieldEnc, goEnc, goChoose]
  · intro id a _; simp [mapEnv, treeKey, FairDec, KeyFairDec]
  · intro id a _; simp [mapEnv, treeKey, NoDurKeys]
  · intro id; rfl
  · intro id; exact Nat.one_pos
  · intro id; simp [mapEnv, insideOf]
  · intro id; simp [mapEnv, NoJsonU]
  · simp [NoJsonU, mapEnv]

/-- Concrete case: a variable with a map of pointers to its own type. -/
def mapVar : DV := .struct [.bool true, .map [(.user (bs! "k"), .ptr (.struct [.bool false, .mapNil]))]]

theorem mapVar_holds : IsVar { lib := noLib } mapDecls mapMeths mapEnv 1 (.struct 0) mapVar := by
  have key : ∀ (b : Bool) (v : DV), IsVar { lib := noLib } mapDecls mapMeths mapEnv 1 (.map treeKey (.ptr (.struct 0)) {}) v →
      (isEmptyDV v = true → clip v = .mapNil) → IsVar { lib := noLib } mapDecls mapMeths mapEnv 1 (.struct 0) (.struct [.bool b, v]) := by
    intro b v hv he
    refine .struct rfl ?_ ?_ rfl rfl ?_ ?_ ?_
    · exact (by decide : [bs! "a", bs! "m"].Pairwise (· ≠ ·))
    · intro n hn
      rcases List.mem_cons.1 hn with rfl | hn
      · exact ascii_coerced (s := bs! "a") (by decide)
      · rw [List.mem_singleton.1 hn]; exact ascii_coerced (s := bs! "m") (by decide)
    · intro f hf
      simp only [mapEnv, List.mem_cons, List.not_mem_nil, or_false] at hf
      rcases hf with rfl | rfl <;> simp [PlainQuote]
    · rintro (_ | _ | i) f x h1 h2
      · cases h1; cases h2
        exact .leaf (ty := .bool) rfl ⟨b, rfl⟩ trivial
      · cases h1; cases h2; exact hv
      · simp [mapEnv] at h1
    · rintro (_ | _ | i) f x h1 h2 h3 h4
      · cases h3
      · cases h1; cases h2; exact he h4
      · simp [mapEnv] at h1
  refine key true _ ?_ (by simp [isEmptyDV])
  refine .map (kt := .text (mapDecls.key treeKey)) (by simp) (by simp) ?_ ?_ rfl (by simp) ?_ ?_
  · simp [KeyFairEnc, treeKey]
  · simp [KeyFairDec, treeKey]
  · intro x hx
    rw [List.mem_singleton.1 hx]
    exact ⟨bs! "k", rfl, ascii_coerced (s := bs! "k") (by decide), rfl, rfl⟩
  · intro x hx
    rw [List.mem_singleton.1 hx]
    refine .ptr rfl rfl (key false _ (.mapNil (kt := .text (mapDecls.key treeKey)) (by simp) (by simp) ?_ ?_ rfl) fun _ => rfl)
    · simp [KeyFairEnc, treeKey]
    · simp [KeyFairDec, treeKey]

example : appendG {} mapDecls mapMeths mapEnv 1 (.struct 0) mapVar [] 0 = .done (bs! "{\"a\":\"true\",\"m\":{\"k\":{\"a\":\"false\"}}}") 0 none := by
  with_unfolding_all rfl

example : ∃ out, appendG {} mapDecls mapMeths mapEnv 1 (.struct 0) mapVar [] 0 = .done out 0 none ∧ ∀ n, braces out < n →
    unmarshalG { lib := noLib } mapDecls mapEnv 1 (fun t => zeroR (envReading mapDecls mapEnv) 1 (reading mapDecls mapEnv t)) n 0 (.struct 0) out
      (.struct [.bool false, .mapNil]) = .done mapVar none := by
  obtain ⟨h1, h2, h3, h4, h5, h6, h7, h8, h9, h10, h11⟩ := map_ok
  exact C83_roundtrip_partial h1 h2 h3 h4 h5 h6 h7 h8 h9 h10 h11 {} rfl (by intro i h; cases h) noLib_ok 0 0 mapVar_holds

/-- Concrete case for methods: a slice of values whose pointers have `MarshalJSON` (they are addressable), and an array of them
(which is not). -/
example : appendG {} mapDecls { mapMeths with jsonM := fun _ _ => .ok (some (bs! "[1]")) } mapEnv 0 (.slice (.basic .bool ⟨{}, ⟨true, false, false, false⟩⟩) {})
      (.slice [.bool true, .bool false] []) [] 0 = .done (bs! "[[1],[1]]") 0 none ∧
    appendG {} mapDecls { mapMeths with jsonM := fun _ _ => .ok (some (bs! "[1]")) } mapEnv 0 (.array 1 (.basic .bool ⟨{}, ⟨true, false, false, false⟩⟩) {})
      (.array [.bool true]) [] 0 = .done (bs! "[true]") 0 none := by
  constructor <;> with_unfolding_all rfl

/-- `struct { P *bool "p,string" }` -/
def quotedPtr : TyEnv := fun _ => ⟨[(.ptr (.basic .bool {}), true)], {}⟩

/-- **C83** fails for the `string` option of pointers: nil is written in quotes. (`encoding/json` writes `null`.) -/
theorem C83_fails_quoted : GoEnv quotedPtr ∧ Closed quotedPtr 1 (.struct 0) ∧
    appendG {} { demoDecls with names := fun _ => [bs! "p"] } { mapMeths with omits := fun _ => [false] } quotedPtr 1 (.struct 0) (.struct [.ptrNil]) [] 0 =
      .done (bs! "{\"p\":\"null\"}") 0 none ∧
    enc {} (view { demoDecls with names := fun _ => [bs! "p"] } { mapMeths with omits := fun _ => [false] } quotedPtr (.struct [.ptrNil]) (.struct 0) false) [] 0 =
      .done (bs! "{\"p\":null}") 0 none := by
  refine ⟨?_, ⟨?_, ?_⟩, ?_, ?_⟩
  · intro id; simp [quotedPtr, GoType, Declarable, MethsLe]
  · simp [ctx]
  · intro id; simp [quotedPtr, ctx]
  · with_unfolding_all rfl
  · with_unfolding_all rfl

theorem C83_fails : ¬ C83_statement := by
  intro h
  obtain ⟨h1, h2, h3, h4⟩ := C83_fails_quoted
  rw [h _ _ _ _ (.struct 0) h1 trivial h2, h4] at h3
  injection h3 with h3
  revert h3
  decide

end JC.Props

import Verif.Lemmas.Run
/-!
Property C82: `Unmarshal` into a variable of a declared type.
-/
namespace JC.Props
open JC Spec

variable {c : DCfg} {w : Decls} {env : TyEnv} {count depth : Nat} {t : GT}

/-- No map in the type or in the structs it can contain has keys of type `time.Duration`. -/
def AllNoDurKeys (env : TyEnv) (t : GT) : Prop := NoDurKeys t ∧ ∀ id a, Meets env t id a → ∀ f ∈ (env id).fields, NoDurKeys f.1

theorem dynN_decNR {env : REnv} {n k : Nat} {t : NTy} : decNR c env depth n k t = decR c (dynN c k) env depth n t := by
  cases k <;> rfl

/-- **C82** (partial) The function that `constructCodec` puts together for a declared type reads documents as the type is
to be read by its methods, its kind and the options of its fields.
Missing: key types where the package chooses other functions (C81, C59), `time.Duration` as a key; embedded structs are in C85. -/
theorem C82_reading_partial (he : GoEnv env) (hg : GoType t) (hc : Closed env count t) (hf : AllFairDec env t) (hd : AllNoDurKeys env t) (hn : HasNames w env)
    (n k : Nat) (b : Bytes) (p : DV) :
    unmarshalG c w env count (fun t => zeroR (envReading w env) depth (reading w env t)) n k t b p =
      unmarshalR c (envReading w env) depth n k (reading w env t) b p := by
  have hr := C59_dec_partial he hg hc hf
  unfold unmarshalG unmarshalR
  rw [dynN_decNR, decR]
  simp only []
  rw [hr.1, run_goDec (S' := structR c (dynN c k) (envReading w env) depth n) (z' := zeroR (envReading w env) depth) (fun _ => rfl) t false hd.1]
  · rfl
  · intro x hx
    exact runStruct_eq hr hn hd.2 depth n x.1 x.2 (.root hx)

/-- **C82** (partial) So it does what `Unmarshal` does into the finite type that is as deep as the document, about which
the other properties of decoding are. -/
theorem C82_unmarshal_partial (he : GoEnv env) (hg : GoType t) (hc : Closed env count t) (hf : AllFairDec env t) (hd : AllNoDurKeys env t) (hn : HasNames w env)
    (hr : Sized env depth) (n k m : Nat) (b : Bytes) (p : DV) (hb : braces b < n) (hm : depth + braces b ≤ m) :
    unmarshalG c w env count (fun t => zeroR (envReading w env) depth (reading w env t)) n k t b p =
      unmarshal c k (unroll (envReading w env) m (reading w env t)) b p := by
  rw [C82_reading_partial he hg hc hf hd hn, C80_unmarshal (goRec_reading hr) k n m _ b p hb hm]

/-- **C82** (partial) And it returns. -/
theorem C82_returns_partial (he : GoEnv env) (hg : GoType t) (hc : Closed env count t) (hf : AllFairDec env t) (hd : AllNoDurKeys env t) (hn : HasNames w env)
    (hr : Sized env depth) (p : DV) : ∃ k0, ∀ k, k0 ≤ k → ∀ b n, braces b < n →
    ∃ v e, unmarshalG c w env count (fun t => zeroR (envReading w env) depth (reading w env t)) n k t b p = .done v e := by
  obtain ⟨k0, h⟩ := C80_returns (c := c) (goRec_reading hr) (reading w env t) p
  refine ⟨k0, fun k hk b n hb => ?_⟩
  rw [C82_reading_partial he hg hc hf hd hn]
  exact h k hk b n hb

/-- **C82** (partial: as C38) What the encoder writes of a variable of a declared type comes back. -/
theorem C82_roundtrip_partial (he : GoEnv env) (hg : GoType t) (hc : Closed env count t) (hf : AllFairDec env t) (hd : AllNoDurKeys env t) (hn : HasNames w env)
    (hr : Sized env depth) (cf : Cfg) (hcl : cf.clrs = none) (hw : WsLayout cf) (hl : LibOk c.lib) (k d : Nat) (ht : TreeR (envReading w env) (reading w env t))
    {v : DV} {g : GV} (h : SeenR c (fun s => Coerced s s) (fun w => isNilDV w = false) (envReading w env) (reading w env t) v g) :
    ∃ out, enc cf g [] d = .done out d none ∧ ∀ n, braces out < n →
      unmarshalG c w env count (fun t => zeroR (envReading w env) depth (reading w env t)) n k t out (zeroR (envReading w env) depth (reading w env t)) =
        .done (clip v) none := by
  obtain ⟨out, h1, h2⟩ := C80_roundtrip_partial cf hcl hw c hl (goRec_reading hr) k d ht h
  refine ⟨out, h1, fun n hb => ?_⟩
  rw [C82_reading_partial he hg hc hf hd hn]
  exact h2 n hb

/-- The full statement. -/
def C82_statement : Prop := ∀ (c : DCfg) (w : Decls) (env : TyEnv) (count depth : Nat) (t : GT), GoEnv env → GoType t → Closed env count t →
  HasNames w env → Sized env depth → ∀ n k b p,
    unmarshalG c w env count (fun t => zeroR (envReading w env) depth (reading w env t)) n k t b p =
      unmarshalR c (envReading w env) depth n k (reading w env t) b p

/-! ### Concrete types -/

/-- `type T struct { A bool "a,string"; M map[K]*T "m"; U J "u"; B []byte "b" }` where `K` has text methods and `*J` has
`UnmarshalJSON`. -/
def demoKey : KeyTy := ⟨.stringLike, ⟨⟨false, true, false, false⟩, ⟨false, true, false, true⟩⟩⟩
def demoEnv : TyEnv
  | 0 => ⟨[(.basic .bool {}, true), (.map demoKey (.ptr (.struct 0)) {}, false), (.struct 1, false), (.slice (.basic (.int .uint8) {}) {}, false)], {}⟩
  | 1 => ⟨[(.basic .bool {}, false)], ⟨{}, ⟨false, false, true, false⟩⟩⟩
  | _ => ⟨[], {}⟩
def demoDecls : Decls where
  jsonU := fun _ s => if s = bs! "[]" then some (.other 3) else none
  textU := fun _ _ => none
  key := fun _ => { answer := fun _ => none, key := fun s => s, marshal := .ok, sprint := fun s => s }
  empty := fun _ => true
  names := fun | 0 => [bs! "a", bs! "m", bs! "u", bs! "b"] | 1 => [bs! "x"] | _ => []

theorem demo_ok : GoEnv demoEnv ∧ GoType (.struct 0) ∧ Closed demoEnv 2 (.struct 0) ∧ AllFairDec demoEnv (.struct 0) ∧ AllNoDurKeys demoEnv (.struct 0) ∧
    HasNames demoDecls demoEnv ∧ Sized demoEnv 2 := by
  refine ⟨?_, trivial, ⟨?_, ?_⟩, ⟨trivial, ?_⟩, ⟨trivial, ?_⟩, ?_, ⟨fun id => if id = 0 then 1 else 0, ?_, ?_⟩⟩
  · rintro (_ | _ | id) <;> simp [demoEnv, demoKey, GoType, Declarable, MethsLe]
  · simp [ctx]
  · rintro (_ | _ | id) <;> simp [demoEnv, ctx]
  · rintro (_ | _ | id) a _ <;> simp [demoEnv, demoKey, FairDec, KeyFairDec]
  · rintro (_ | _ | id) a _ <;> simp [demoEnv, demoKey, NoDurKeys]
  · rintro (_ | _ | id) <;> rfl
  · intro id; simp only []; split <;> decide
  · rintro (_ | _ | id) <;> simp [demoEnv, insideOf]

/-- The type as it is read. -/
example : envReading demoDecls demoEnv 0 = [(bs! "a", .base (.quoted .bool)), (bs! "m", .map (.text (demoDecls.key demoKey)) (.ptr (.ref 0))),
    (bs! "u", .base (.jsonU (demoDecls.jsonU (.struct 1)))), (bs! "b", .base .bytes)] := rfl

/-- A document for it, three structs deep. -/
example : unmarshalG { lib := noLib } demoDecls demoEnv 2 (fun t => zeroR (envReading demoDecls demoEnv) 2 (reading demoDecls demoEnv t)) 4 0 (.struct 0)
      (bs! "{\"a\":\"true\",\"m\":{\"k\":{\"u\":{\"x\":1}}}}") (zeroR (envReading demoDecls demoEnv) 2 (.ref 0)) =
    .done (.struct [.bool true, .map [(.user (bs! "k"), .ptr (.struct [.bool false, .mapNil, .user (some (bs! "{\"x\":1}")), .bytesNil]))],
      .user none, .bytesNil]) none := by with_unfolding_all rfl

/-- A map with keys of a string type that has `MarshalText` only. -/
def badMap : GT := .map ⟨.stringLike, ⟨⟨false, true, false, false⟩, ⟨false, true, false, false⟩⟩⟩ (.basic .bool {}) {}

/-- **C82** fails for these: `Unmarshal` of `{"x":true}` panics; it is to be read as a map with strings for keys. -/
theorem C82_fails_nomethod (c : DCfg) (n k : Nat) (z : GT → DV) :
    unmarshalG c demoDecls demoEnv 2 z n k badMap (bs! "{\"x\":true}") .mapNil = .crash .panic ∧
    unmarshalR c (envReading demoDecls demoEnv) 2 n k (reading demoDecls demoEnv badMap) (bs! "{\"x\":true}") .mapNil =
      .done (.map [(.str (bs! "x"), .bool true)]) none := by
  refine ⟨rfl, ?_⟩
  cases k <;> rfl

theorem C82_fails : ¬ C82_statement := by
  intro h
  have := h { lib := noLib } demoDecls demoEnv 2 2 badMap demo_ok.1 (by simp [badMap, GoType, Declarable, MethsLe])
    ⟨by simp [badMap, ctx], demo_ok.2.2.1.2⟩ demo_ok.2.2.2.2.2.1 demo_ok.2.2.2.2.2.2 0 0 (bs! "{\"x\":true}") .mapNil
  obtain ⟨h1, h2⟩ := C82_fails_nomethod { lib := noLib } 0 0 (fun t => zeroR (envReading demoDecls demoEnv) 2 (reading demoDecls demoEnv t))
  rw [h1, h2] at this
  cases this

end JC.Props

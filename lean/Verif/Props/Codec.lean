import Verif.Lemmas.Codec
/-!
Property C59: the functions and methods that encode and decode the values of a type are those that `encoding/json`
would use.
-/
namespace JC.Props
open JC Spec

/-- **C59** Full statement. Refuted by the theorems `C59_fails_*`; see `C59_enc_exact` and `C59_dec_partial`. -/
def C59_statement : Prop := ∀ env count t, GoEnv env → GoType t → Closed env count t →
  RightEnc env t (codecOf env count t) ∧ RightDec env t (codecOf env count t)

/-! ### One type -/

theorem withMethods_enc {m : MSets} (h : Unmixed m) (a : Bool) (c : Codec) : (withMethods m a c).1 = goChoose m a c.1 := by
  obtain ⟨⟨v1, v2, v3, v4⟩, ⟨p1, p2, p3, p4⟩⟩ := m
  unfold Unmixed at h
  cases a <;> cases v1 <;> cases v2 <;> cases p1 <;> cases p2 <;> simp_all [withMethods, goChoose]

theorem withMethods_dec (m : MSets) (a : Bool) (c : Codec) : (withMethods m a c).2 = goChooseDec m.ptr c.2 := rfl

/-- **C59** The methods of a type are used in Go's order exactly if the type does not have `MarshalText` while only its
pointers have `MarshalJSON`. -/
theorem C59_choice_exact (m : MSets) : (∀ a c, (withMethods m a c).1 = goChoose m a c.1) ↔ Unmixed m := by
  refine ⟨fun h => ?_, fun h a c => withMethods_enc h a c⟩
  have := h true (.ifc, .ifc)
  obtain ⟨⟨v1, v2, v3, v4⟩, ⟨p1, p2, p3, p4⟩⟩ := m
  unfold Unmixed
  cases v1 <;> cases v2 <;> cases p1 <;> simp_all [withMethods, goChoose]

/-- **C59** Keys of maps are written as in Go exactly if they are fair. -/
theorem C59_key_enc_exact {k : KeyTy} (h : k.kind = .string ∨ k.kind = .duration → k.m = {}) : (keyCodec k).map Prod.fst = goKeyEnc k ↔ KeyFairEnc k := by
  obtain ⟨kind, ⟨⟨v1, v2, v3, v4⟩, ⟨p1, p2, p3, p4⟩⟩⟩ := k
  cases kind <;> cases v1 <;> cases v2 <;> cases p4 <;> simp_all [keyCodec, goKeyEnc, KeyFairEnc, withMethods]

/-- **C59** Keys of maps are read as in Go exactly if they are fair. -/
theorem C59_key_dec_exact {k : KeyTy} (h : k.kind = .string ∨ k.kind = .duration → k.m = {}) : (keyCodec k).map Prod.snd = goKeyDec k ↔ KeyFairDec k := by
  obtain ⟨kind, ⟨⟨v1, v2, v3, v4⟩, ⟨p1, p2, p3, p4⟩⟩⟩ := k
  cases kind <;> cases v2 <;> cases p3 <;> cases p4 <;> simp_all [keyCodec, goKeyDec, KeyFairDec, withMethods]

theorem byteElem_some {e : GT} {me : MSets} (h : byteElem e = some me) : e = .basic (.int .uint8) me := by
  unfold byteElem at h
  split at h
  · cases h; rfl
  · cases h

theorem byteElem_none {e : GT} (h : byteElem e = none) : goBytes e = false ∧ goBytesDec e = false := by
  unfold byteElem at h
  split at h
  · cases h
  · rename_i hne
    constructor
    · unfold goBytes; split
      · exact absurd rfl (hne _)
      · rfl
    · unfold goBytesDec; split
      · exact absurd rfl (hne _)
      · rfl

theorem byteSlice_enc {m : MSets} (hd : Declarable m) (h : Unmixed m) :
    (byteSlice m).1 = if goBytes (.basic (.int .uint8) m) then .bytes else .slice (goChoose m true (.basic (.int .uint8))) := by
  obtain ⟨⟨v1, v2, v3, v4⟩, ⟨p1, p2, p3, p4⟩⟩ := m
  unfold Unmixed at h
  unfold Declarable MethsLe at hd
  cases v1 <;> cases v2 <;> cases p1 <;> cases p2 <;> simp_all [byteSlice, goBytes, goChoose]

theorem byteSlice_dec {m : MSets} (h1 : m.val.jsonU = false) (h2 : m.val.textU = false) :
    (byteSlice m).2 = if goBytesDec (.basic (.int .uint8) m) then .bytes else .slice (goChooseDec m.ptr (.basic (.int .uint8))) := by
  obtain ⟨⟨v1, v2, v3, v4⟩, ⟨p1, p2, p3, p4⟩⟩ := m
  cases p3 <;> cases p4 <;> simp_all [byteSlice, goBytesDec, goChooseDec]

theorem unmixed_ptr (m : Meths) : Unmixed ⟨m, {}⟩ := by simp [Unmixed]

theorem codecAt_enc {env : TyEnv} : ∀ (t : GT) (a : Bool), GoType t → FairEnc env t → (codecAt env t a).1 = goEnc env t a := by
  intro t
  induction t with
  | special s => intro a _ _; rfl
  | basic k m => intro a _ h; rw [codecAt_basic, withMethods_enc h]; rfl
  | ifc m => intro a _ _; rw [codecAt_ifc, withMethods_enc (unmixed_ptr m)]; rfl
  | other m => intro a _ h; rw [codecAt_other, withMethods_enc h]; rfl
  | struct id => intro a _ h; rw [codecAt_struct, withMethods_enc h]; rfl
  | array n e m ih => intro a hg h; rw [codecAt_array, withMethods_enc h.1, ih a hg.2 h.2]; rfl
  | slice e m ih =>
    intro a hg h
    rw [codecAt_slice, withMethods_enc h.1, goEnc]
    cases hb : byteElem e with
    | some me =>
      have := byteElem_some hb
      subst this
      simp only
      rw [byteSlice_enc hg.2 h.2]
      rfl
    | none =>
      simp only
      rw [ih true hg.2 h.2, (byteElem_none hb).1]
      rfl
  | map k e m ih =>
    intro a hg h
    rw [codecAt_map, withMethods_enc h.1, goEnc]
    congr 1
    have hk := (C59_key_enc_exact hg.2.2.1).2 h.2.1
    split
    · rfl
    · split
      · rfl
      · rw [← hk]
        cases keyCodec k with
        | none => rfl
        | some kc => simp only [Option.map_some]; rw [ih false hg.2.2.2 h.2.2]
  | ptr e ih => intro a hg h; rw [codecAt_ptr, withMethods_enc (unmixed_ptr _), ih true hg h]; rfl

theorem codecAt_dec {env : TyEnv} : ∀ (t : GT) (a : Bool), GoType t → FairDec t → (codecAt env t a).2 = goDec env t := by
  intro t
  induction t with
  | special s => intro a _ _; rfl
  | basic k m => intro a _ _; rfl
  | ifc m => intro a _ _; rfl
  | other m => intro a _ _; rfl
  | struct id => intro a _ _; rfl
  | array n e m ih => intro a hg h; rw [codecAt_array, withMethods_dec, ih a hg.2 h]; rfl
  | slice e m ih =>
    intro a hg h
    rw [codecAt_slice, withMethods_dec, goDec]
    cases hb : byteElem e with
    | some me =>
      have := byteElem_some hb
      subst this
      simp only
      rw [byteSlice_dec h.2.1 h.2.2]
      rfl
    | none =>
      simp only
      rw [ih true hg.2 h.1, (byteElem_none hb).2]
      rfl
  | map k e m ih =>
    intro a hg h
    rw [codecAt_map, withMethods_dec, goDec]
    congr 1
    have hk := (C59_key_dec_exact hg.2.2.1).2 h.1
    split
    · rfl
    · split
      · rfl
      · rw [← hk]
        cases keyCodec k with
        | none => rfl
        | some kc => simp only [Option.map_some]; rw [ih false hg.2.2.2 h.2]
  | ptr e ih => intro a hg h; rw [codecAt_ptr, withMethods_dec, ih true hg h]; rfl

/-! ### Fields -/

theorem goChoose_quotable {m : MSets} {a : Bool} {e : EC} (h : quotable e = false) : quotable (goChoose m a e) = false := by
  unfold goChoose
  split
  · rfl
  · split
    · rfl
    · exact h

theorem goEnc_quotable {env : TyEnv} {t : GT} (h : goScalar t = none) (a : Bool) : quotable (goEnc env t a) = false := by
  cases t with
  | special s => cases s <;> simp_all [goScalar, goEnc, quotable]
  | basic k m => cases k <;> simp [goScalar] at h
  | slice e m =>
    rw [goEnc]; apply goChoose_quotable
    split <;> rfl
  | map k e m =>
    rw [goEnc]; apply goChoose_quotable
    split
    · rfl
    · split
      · rfl
      · cases goKeyEnc k <;> rfl
  | _ => rw [goEnc]; exact goChoose_quotable rfl

/-- The function of a type other than a pointer is not that of a pointer. -/
theorem goQuote_notptr {env : TyEnv} {t : GT} (h : goScalar t = none) (hp : t.isPtr = false) (a : Bool) : goQuote (goEnc env t a) = goEnc env t a := by
  have hq := goEnc_quotable (env := env) h a
  cases he : goEnc env t a with
  | ptr e =>
    exfalso
    cases t with
    | ptr e => cases hp
    | special s => simp [goEnc] at he
    | slice e m => rw [goEnc] at he; unfold goChoose at he; repeat' split at he
                   all_goals cases he
    | map k e m =>
      rw [goEnc] at he
      unfold goChoose at he
      split at he
      · cases he
      · split at he
        · cases he
        · split at he
          · cases he
          · split at he
            · cases he
            · cases hk : goKeyEnc k <;> rw [hk] at he <;> cases he
    | _ => rw [goEnc] at he; unfold goChoose at he; repeat' split at he
           all_goals cases he
  | _ => rw [he] at hq; simp only [goQuote, hq, Bool.false_eq_true, if_false]

theorem goQuote_ptr {env : TyEnv} {e : GT} (h : goScalar e = none) (a : Bool) : goQuote (goEnc env (.ptr e) a) = goEnc env (.ptr e) a := by
  rw [goEnc]
  unfold goChoose
  split
  · rfl
  · split
    · rfl
    · simp only [goQuote, goEnc_quotable h, Bool.false_eq_true, if_false]

theorem scalarKind_eq (t : GT) : scalarKind t = goScalar t := by
  cases t with
  | special s => cases s <;> rfl
  | basic k m => cases k <;> rfl
  | _ => rfl

theorem fieldAt_enc {env : TyEnv} {f : GT × Bool} (hg : GoType f.1) (h : FairEnc env f.1) (hq : FairQuote f) (a : Bool) :
    (fieldAt env a f).1 = goFieldEnc env a f := by
  obtain ⟨t, q⟩ := f
  unfold fieldAt goFieldEnc
  cases q with
  | false => simp only [Bool.false_eq_true, if_false]; exact codecAt_enc t a hg h
  | true =>
    simp only [if_true]
    have hq := hq rfl
    have he := codecAt_enc t a hg h
    simp only at hg h hq
    cases hp : t.isPtr with
    | true =>
      cases t with
      | ptr e => simp only [stringify, derefOnce, scalarKind_eq]; simp only at hq; rw [hq, goQuote_ptr hq]; exact he
      | _ => cases hp
    | false =>
      have hd : derefOnce t = t := by cases t <;> first | rfl | cases hp
      cases hs : goScalar t with
      | none => rw [stringify, hd, scalarKind_eq, hs, goQuote_notptr hs hp]; exact he
      | some b =>
        have : (stringify t (codecAt env t a)).1 = .quoted (goEnc env t a) := by
          rw [← he, stringify, hd, scalarKind_eq, hs]; cases b <;> rfl
        rw [this]
        cases t with
        | special s => cases s <;> first | rfl | simp [goScalar] at hs
        | basic k m =>
          have h1 : m.val.jsonM = false := by
            have := hg.1; cases hv : m.val.jsonM
            · rfl
            · have := this hv; rw [hq.1] at this; cases this
          have h2 : m.val.textM = false := by
            have := hg.2.1; cases hv : m.val.textM
            · rfl
            · have := this hv; rw [hq.2] at this; cases this
          have : goEnc env (.basic k m) a = .basic k := by simp [goEnc, goChoose, h1, h2, hq.1, hq.2]
          rw [this]; rfl
        | _ => simp [goScalar] at hs

theorem fieldAt_dec {env : TyEnv} {f : GT × Bool} (hg : GoType f.1) (h : FairDec f.1) (a : Bool) : (fieldAt env a f).2 = goFieldDec env f := by
  obtain ⟨t, q⟩ := f
  unfold fieldAt goFieldDec
  have he := codecAt_dec (env := env) t a hg h
  cases q with
  | false => simp only [Bool.false_eq_true, if_false]; exact he
  | true =>
    simp only [if_true, stringify, scalarKind_eq]
    have hd : derefOnce t = goPointee t := by cases t <;> rfl
    rw [hd, ← he]
    cases goScalar (goPointee t) with
    | none => rfl
    | some b => cases b <;> rfl

/-! ### All types -/

/-- Fair types, wherever they are met. -/
def AllFairEnc (env : TyEnv) (t : GT) : Prop := FairEnc env t ∧ ∀ id a, Meets env t id a → ∀ f ∈ (env id).fields, FairEnc env f.1 ∧ FairQuote f

def AllFairDec (env : TyEnv) (t : GT) : Prop := FairDec t ∧ ∀ id a, Meets env t id a → ∀ f ∈ (env id).fields, FairDec f.1

/-- It does not matter where a struct is met. -/
def OneWay (env : TyEnv) (t : GT) : Prop := ∀ id a a', Meets env t id a → Meets env t id a' → ∀ f ∈ (env id).fields, goFieldEnc env a f = goFieldEnc env a' f

theorem goEnc_root (env : TyEnv) (t : GT) : goEnc env t t.isPtr = goEnc env t false := by
  cases t with
  | ptr e => simp [GT.isPtr, goEnc, goChoose]
  | _ => rfl

section
variable {env : TyEnv} {count : Nat} {t : GT}

/-- **C59** (partial: for fair types, and structs whose fields are encoded in the same way wherever the struct is met) The
encoding functions are those of `encoding/json`, for the type and for all fields of all structs in it. -/
theorem C59_enc_partial (he : GoEnv env) (hg : GoType t) (hc : Closed env count t) (hf : AllFairEnc env t) (ho : OneWay env t) :
    RightEnc env t (codecOf env count t) := by
  obtain ⟨h1, h2⟩ := codecOf_spec hc
  refine ⟨by rw [h1, codecAt_enc t _ hg hf.1, goEnc_root], ?_⟩
  intro id a hm
  obtain ⟨a', hm', hs⟩ := h2 id a hm
  refine ⟨_, hs, ?_⟩
  rw [List.map_map]
  apply List.map_congr_left
  intro f hfm
  have hfair := hf.2 id a hm f hfm
  rw [Function.comp_apply, fieldAt_enc ((he id).2 f hfm) hfair.1 hfair.2 a']
  exact ho id a' a hm' hm f hfm

/-- **C59** For fair types the only thing that can go wrong is that a struct is met both where it is addressable and where
it is not. -/
theorem C59_enc_exact (he : GoEnv env) (hg : GoType t) (hc : Closed env count t) (hf : AllFairEnc env t) :
    RightEnc env t (codecOf env count t) ↔ OneWay env t := by
  refine ⟨fun h id a a' hm hm' f hfm => ?_, C59_enc_partial he hg hc hf⟩
  obtain ⟨cs, h1, h2⟩ := h.2 id a hm
  obtain ⟨cs', h1', h2'⟩ := h.2 id a' hm'
  rw [h1] at h1'
  cases h1'
  rw [h2] at h2'
  exact List.map_inj_left.1 h2' f hfm

/-- **C59** (partial: for fair types) The decoding functions are those of `encoding/json`, wherever a type is met. -/
theorem C59_dec_partial (he : GoEnv env) (hg : GoType t) (hc : Closed env count t) (hf : AllFairDec env t) : RightDec env t (codecOf env count t) := by
  obtain ⟨h1, h2⟩ := codecOf_spec hc
  refine ⟨by rw [h1, codecAt_dec t _ hg hf.1], ?_⟩
  intro id a hm
  obtain ⟨a', _, hs⟩ := h2 id a hm
  refine ⟨_, hs, ?_⟩
  rw [List.map_map]
  apply List.map_congr_left
  intro f hfm
  rw [Function.comp_apply, fieldAt_dec ((he id).2 f hfm) (hf.2 id a hm f hfm) a']

/-- Methods with value receivers are found everywhere. -/
theorem goEnc_same : ∀ (t : GT) (a b : Bool), NoPtrOnly env t → goEnc env t a = goEnc env t b := by
  have hch : ∀ (m : MSets) (a b : Bool) (e : EC), SameMeths m → goChoose m a e = goChoose m b e := by
    intro m a b e ⟨h1, h2⟩
    unfold goChoose
    rw [h1, h2]
    cases a <;> cases b <;> simp
  intro t
  induction t with
  | special s => intro a b _; rfl
  | basic k m => intro a b h; exact hch m a b _ h
  | ifc m => intro a b _; simp [goEnc, goChoose]
  | other m => intro a b h; exact hch m a b _ h
  | struct id => intro a b h; exact hch _ a b _ h
  | array n e m ih => intro a b h; rw [goEnc, goEnc, ih a b h.2]; exact hch m a b _ h.1
  | slice e m ih => intro a b h; exact hch m a b _ h.1
  | map k e m ih => intro a b h; exact hch m a b _ h.1
  | ptr e ih => intro a b _; simp [goEnc, goChoose]

/-- **C59** (partial: for fair types, if no type has methods with pointer receivers only) -/
theorem C59_values_partial (he : GoEnv env) (hg : GoType t) (hc : Closed env count t) (hf : AllFairEnc env t)
    (hv : ∀ id a, Meets env t id a → ∀ f ∈ (env id).fields, NoPtrOnly env f.1) : RightEnc env t (codecOf env count t) := by
  apply C59_enc_partial he hg hc hf
  intro id a a' hm _ f hfm
  unfold goFieldEnc
  rw [goEnc_same f.1 a a' (hv id a hm f hfm)]

theorem ctx_noMap : ∀ (t : GT), NoMap t → ∀ x ∈ ctx t true, x.2 = true := by
  intro t
  induction t with
  | array n e m ih => intro h; rw [ctx]; exact ih h
  | slice e m ih => intro h; rw [ctx]; exact ih h
  | ptr e ih => intro h; rw [ctx]; exact ih h
  | map k e m ih => intro h; exact h.elim
  | struct id => intro _ x hx; simp only [ctx, List.mem_singleton] at hx; rw [hx]
  | _ => intro _ x hx; simp [ctx] at hx

/-- **C59** (partial: for fair types, if the value is a pointer and there are no maps) Methods with pointer receivers are
used as well. -/
theorem C59_pointers_partial {e : GT} (he : GoEnv env) (hg : GoType (.ptr e)) (hc : Closed env count (.ptr e)) (hf : AllFairEnc env (.ptr e))
    (hm : NoMap e) (hv : ∀ id a, Meets env (.ptr e) id a → ∀ f ∈ (env id).fields, NoMap f.1) : RightEnc env (.ptr e) (codecOf env count (.ptr e)) := by
  apply C59_enc_partial he hg hc hf
  have key : ∀ id a, Meets env (.ptr e) id a → a = true := by
    intro id a h
    induction h with
    | root h => rw [ctx] at h; exact ctx_noMap e hm _ h
    | field hp hfm hx ih => subst ih; exact ctx_noMap _ (hv _ _ hp _ hfm) _ hx
  intro id a a' h h' f _
  rw [key id a h, key id a' h']

end

/-! ### Where the package departs from Go -/

/-- Types without structs. -/
def noStructs : TyEnv := fun _ => ⟨[], {}⟩

/-- A string type with the given methods for its values and pointers. -/
def namedString (v p : Meths) : GT := .basic .string ⟨v, p⟩

/-- With `type S string`, `func (S) MarshalText` and `func (*S) MarshalJSON`, the elements of an `[]S` are written with `MarshalText`
(and a `*S` with `MarshalJSON`). -/
theorem C59_fails_mixed : GoType (.slice (namedString ⟨false, true, false, false⟩ ⟨true, true, false, false⟩) {}) ∧
    (codecOf noStructs 0 (.slice (namedString ⟨false, true, false, false⟩ ⟨true, true, false, false⟩) {})).1.1 = .slice (.textM false) ∧
    goEnc noStructs (.slice (namedString ⟨false, true, false, false⟩ ⟨true, true, false, false⟩) {}) false = .slice (.jsonM true) :=
  ⟨by simp [GoType, namedString, Declarable, MethsLe], rfl, rfl⟩

/-- Keys of a string type with `MarshalText`: the method is called, Go uses the string. -/
theorem C59_fails_stringkey : (codecOf noStructs 0 (.map ⟨.stringLike, ⟨⟨false, true, false, false⟩, ⟨false, true, false, false⟩⟩⟩ (.basic .bool {}) {})).1.1 =
      .map (.textM false) (.basic .bool) ∧
    goEnc noStructs (.map ⟨.stringLike, ⟨⟨false, true, false, false⟩, ⟨false, true, false, false⟩⟩⟩ (.basic .bool {}) {}) false = .map .key (.basic .bool) := ⟨rfl, rfl⟩

/-- Keys of an integer type with `MarshalJSON`: its output is put in quotes, Go writes the integer. -/
theorem C59_fails_intkey : (codecOf noStructs 0 (.map ⟨.int .int, ⟨⟨true, false, false, false⟩, ⟨true, false, false, false⟩⟩⟩ (.basic .bool {}) {})).1.1 =
      .map (.quoted (.jsonM false)) (.basic .bool) ∧
    goEnc noStructs (.map ⟨.int .int, ⟨⟨true, false, false, false⟩, ⟨true, false, false, false⟩⟩⟩ (.basic .bool {}) {}) false =
      .map (.quoted (.basic (.int .int))) (.basic .bool) := ⟨rfl, rfl⟩

/-- Keys of an integer type with `UnmarshalText` but no `MarshalText`: a method is called that the type does not have. -/
theorem C59_fails_unmarshalkey : (codecOf noStructs 0 (.map ⟨.int .int, ⟨{}, ⟨false, false, false, true⟩⟩⟩ (.basic .bool {}) {})).1.1 = .map (.textM false) (.basic .bool) ∧
    goEnc noStructs (.map ⟨.int .int, ⟨{}, ⟨false, false, false, true⟩⟩⟩ (.basic .bool {}) {}) false = .map (.quoted (.basic (.int .int))) (.basic .bool) := ⟨rfl, rfl⟩

/-- Keys of a string type with `MarshalText` but no `UnmarshalText`: decoding calls a method that the type does not have. -/
theorem C59_fails_marshalkey : (codecOf noStructs 0 (.map ⟨.stringLike, ⟨⟨false, true, false, false⟩, ⟨false, true, false, false⟩⟩⟩ (.basic .bool {}) {})).1.2 =
      .map (.textU true) (.basic .bool) ∧
    goDec noStructs (.map ⟨.stringLike, ⟨⟨false, true, false, false⟩, ⟨false, true, false, false⟩⟩⟩ (.basic .bool {}) {}) = .map (.basic .string) (.basic .bool) := ⟨rfl, rfl⟩

/-- A slice of bytes that have `UnmarshalJSON` with a value receiver: `decodeJSONUnmarshaler` is called as if the byte was a
pointer. -/
theorem C59_fails_bytes : (codecOf noStructs 0 (.slice (.basic (.int .uint8) ⟨⟨false, false, true, false⟩, ⟨false, false, true, false⟩⟩) {})).1.2 = .slice (.jsonU false) ∧
    goDec noStructs (.slice (.basic (.int .uint8) ⟨⟨false, false, true, false⟩, ⟨false, false, true, false⟩⟩) {}) = .slice (.jsonU true) := ⟨rfl, rfl⟩

/-- `type T struct { A S; B *S }`, `type S struct { X M }` where `*M` has `MarshalJSON`. -/
def twoWays : TyEnv
  | 0 => ⟨[(.struct 1, false), (.ptr (.struct 1), false)], {}⟩
  | 1 => ⟨[(namedString {} ⟨true, false, false, false⟩, false)], {}⟩
  | _ => ⟨[], {}⟩

/-- In a `T`, the field `X` of `*B` is addressable, but its method is not called: the codecs of `S` were made for `A`. All types
are fair. -/
theorem C59_fails_seen : GoEnv twoWays ∧ Closed twoWays 2 (.struct 0) ∧ AllFairEnc twoWays (.struct 0) ∧ Meets twoWays (.struct 0) 1 true ∧
    (codecOf twoWays 2 (.struct 0)).2 1 = some (some [(.basic .string, .basic .string)]) ∧
    (twoWays 1).fields.map (goFieldEnc twoWays true) = [.jsonM true] := by
  refine ⟨?_, ⟨?_, ?_⟩, ⟨?_, ?_⟩, ?_, rfl, rfl⟩
  · rintro (_ | _ | id) <;> simp [twoWays, GoType, namedString, Declarable, MethsLe]
  · simp [ctx]
  · rintro (_ | _ | id) <;> simp [twoWays, ctx, namedString]
  · simp [FairEnc, Unmixed, twoWays]
  · rintro (_ | _ | id) _ _ <;> simp [twoWays, FairEnc, FairQuote, Unmixed, namedString]
  · exact .field (id := 0) (a := false) (f := (.ptr (.struct 1), false)) (.root (by simp [ctx])) (by simp [twoWays]) (by simp [ctx])

/-- `struct { N M ",string"; P *int ",string" }` where `M` is an integer with `MarshalJSON`. -/
def quotedFields : TyEnv := fun _ => ⟨[(.basic (.int .int) ⟨⟨true, false, false, false⟩, ⟨true, false, false, false⟩⟩, true), (.ptr (.basic (.int .int) {}), true)], {}⟩

/-- The `string` option quotes what `MarshalJSON` gives, and the `null` of nil pointers. -/
theorem C59_fails_quoted : ((codecOf quotedFields 1 (.struct 0)).2 0).map (Option.map (List.map Prod.fst)) =
      some (some [.quoted (.jsonM false), .quoted (.ptr (.basic (.int .int)))]) ∧
    (quotedFields 0).fields.map (goFieldEnc quotedFields false) = [.jsonM false, .ptr (.quoted (.basic (.int .int)))] := ⟨rfl, rfl⟩

/-- The full statement is false. -/
theorem C59_fails : ¬ C59_statement := fun h => by
  have := (h noStructs 0 _ (fun _ => ⟨by simp [noStructs, Declarable, MethsLe], by simp [noStructs]⟩) C59_fails_mixed.1 ⟨by simp [ctx, namedString], by simp [noStructs]⟩).1.1
  rw [C59_fails_mixed.2.1, C59_fails_mixed.2.2] at this
  cases this

/-- Concrete case: `type List struct { V M; Next *List }` where `*M` has `MarshalJSON`; from a `*List`, the method is used. -/
example : (codecOf (fun _ => ⟨[(namedString {} ⟨true, false, false, false⟩, false), (.ptr (.struct 0), false)], {}⟩) 1 (.ptr (.struct 0))).1.1 = .ptr (.struct 0) ∧
    ((codecOf (fun _ => ⟨[(namedString {} ⟨true, false, false, false⟩, false), (.ptr (.struct 0), false)], {}⟩) 1 (.ptr (.struct 0))).2 0).map (Option.map (List.map Prod.fst)) =
      some (some [.jsonM true, .ptr (.struct 0)]) := ⟨rfl, rfl⟩

end JC.Props

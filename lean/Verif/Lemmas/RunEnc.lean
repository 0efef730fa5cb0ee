import Verif.Spec.RunEnc
import Verif.Lemmas.Run
/-!
Lemmas for C83.
-/
namespace JC
open Spec Props

variable {c : DCfg} {w : Decls} {d : MDecls} {env : TyEnv} {seen : CSeen}

/-- The function that Go chooses by the kind of a type. -/
def goKindEnc (env : TyEnv) : GT → Bool → EC
  | .special s, _ => .special s
  | .basic k _, _ => .basic k
  | .ifc _, _ => .ifc
  | .array n e _, a => .array n (goEnc env e a)
  | .slice e _, _ => if goBytes e then .bytes else .slice (goEnc env e true)
  | .map k e _, _ =>
      (if k.kind = .string ∧ e = .special .iface then .mapSI
       else if k.kind = .string ∧ e = .special .raw then .mapRaw
       else match goKeyEnc k with
        | none => .unsupported
        | some kc => .map kc (goEnc env e false))
  | .ptr e, _ => .ptr (goEnc env e true)
  | .struct id, _ => .struct id
  | .other _, _ => .unsupported

theorem goEnc_split (t : GT) (a : Bool) : goEnc env t a = goChoose (writeMeths env t) a (goKindEnc env t a) := by
  cases t <;> first | rfl | (simp [goEnc, goKindEnc, goChoose, writeMeths])

theorem see_jsonM (v : DV) (t : GT) (x : Bool) : see w d env seen v (.jsonM x) t = .jsonM (if nilReceiver x v then .isNil else d.jsonM t v) (memEmpty d t v) := by
  cases v <;> simp only [see, seeLeaf]

theorem see_textM (v : DV) (t : GT) (x : Bool) : see w d env seen v (.textM x) t = .textM (if nilReceiver x v then .isNil else d.textM t v) (memEmpty d t v) := by
  cases v <;> simp only [see, seeLeaf]

theorem nilReceiver_eq (b : Bool) (v : DV) : (nilReceiver (!b) v = true) = (b = true ∧ isNilRef v = true) := by
  cases b <;> cases v <;> simp [nilReceiver, isNilRef]

theorem memEmpty_eq (t : GT) (v : DV) : memEmpty d t v = dropped d t v := by
  have hl : ∀ s : Bytes, (s.length == 0) = (s == []) := by intro s; cases s <;> rfl
  cases v with
  | float f => cases f <;> rfl
  | number s | string s | raw s => exact hl s
  | bytes s _ => exact hl s
  | _ => rfl

theorem see_choose {v : DV} {t : GT} {a : Bool} {e : EC} {g : GV} (h : see w d env seen v e t = g) :
    see w d env seen v (goChoose (writeMeths env t) a e) t = answered env d a t v g := by
  unfold goChoose answered
  simp only []
  split
  · rw [see_jsonM]; simp only [nilReceiver_eq, memEmpty_eq]
  · split
    · rw [see_textM]; simp only [nilReceiver_eq, memEmpty_eq]
    · exact h

theorem seeLeaf_choose {v : DV} {t : GT} {a : Bool} {e : EC} {g : GV} (h : seeLeaf w d v t e = g) :
    seeLeaf w d v t (goChoose (writeMeths env t) a e) = answered env d a t v g := by
  unfold goChoose answered
  simp only []
  split
  · rw [seeLeaf]; simp only [nilReceiver_eq, memEmpty_eq]
  · split
    · rw [seeLeaf]; simp only [nilReceiver_eq, memEmpty_eq]
    · exact h

theorem see_leaf_int {z : Int} {t : GT} {a : Bool} : seeLeaf w d (.int z) t (goEnc env t a) = answered env d a t (.int z) (leafView w (.int z) t) := by
  rw [goEnc_split]
  apply seeLeaf_choose
  cases t with
  | special s => rfl
  | basic k m => rfl
  | ifc m => rfl
  | slice e m => simp only [goKindEnc]; split <;> simp [seeLeaf, leafView, toGV]
  | map k e m => simp only [goKindEnc]; repeat' split
                 all_goals simp [seeLeaf, leafView, toGV]
  | _ => simp [goKindEnc, seeLeaf, leafView]

theorem goKey_view {k : KeyTy} (e : GT) (m : MSets) (hd : k.kind ≠ .duration) : (goKeyEnc k = none ∧ keyView w k = none) ∨
    ∃ kc f, goKeyEnc k = some kc ∧ keyView w k = some f ∧ ∀ x, seeKey w (.map k e m) kc x = f x := by
  unfold goKeyEnc keyView
  cases hk : k.kind with
  | string => exact .inr ⟨_, _, rfl, rfl, fun x => rfl⟩
  | stringLike => exact .inr ⟨_, _, rfl, rfl, fun x => rfl⟩
  | duration => exact absurd hk hd
  | int i =>
    refine .inr ⟨_, _, rfl, rfl, fun x => ?_⟩
    cases ht : k.m.val.textM <;> simp [seeKey, ht]
  | other =>
    cases ht : k.m.val.textM
    · exact .inl ⟨rfl, rfl⟩
    · exact .inr ⟨_, _, rfl, rfl, fun x => by simp [seeKey, ht]⟩

/-- The table has what Go chooses, wherever a struct is met. -/
def TableOk (env : TyEnv) (T : GT) (seen : CSeen) : Prop :=
  ∀ id a, Meets env T id a → (∃ cs, seen id = some (some cs) ∧ cs.map Prod.fst = (env id).fields.map (goFieldEnc env a)) ∧ ∀ f ∈ (env id).fields, NoDurKeys f.1

theorem zip_codecs {α β γ : Type} {g : α → β} {h : α → γ} : ∀ (fs : List α) (cs : List (γ × δ)), cs.map Prod.fst = fs.map h →
    List.zipWith (fun f c => (c.1, g f)) fs cs = fs.map fun f => (h f, g f)
  | [], [], _ => rfl
  | [], _ :: _, e => by simp at e
  | _ :: _, [], e => by simp at e
  | x :: fs, c :: cs, e => by
    simp only [List.map_cons, List.cons.injEq] at e
    simp only [List.zipWith_cons_cons, List.map_cons]
    rw [e.1, zip_codecs fs cs e.2]

theorem see_flat {v : DV} (hv : flatMem v = true) (t : GT) (a : Bool) (hd : NoDurKeys t) : see w d env seen v (goKindEnc env t a) t = kindView w d env v t a := by
  cases t with
  | special s => cases v <;> simp only [goKindEnc, see, seeLeaf, kindView, leafView]
  | basic k m => cases v <;> simp only [goKindEnc, see, seeLeaf, kindView, leafView]
  | ifc m => cases v <;> simp only [goKindEnc, see, seeLeaf, kindView, leafView]
  | other m => cases v <;> simp only [goKindEnc, see, seeLeaf, kindView, leafView]
  | array n e m => cases v <;> first | contradiction | simp only [goKindEnc, see, seeLeaf, kindView, leafView]
  | ptr e => cases v <;> first | contradiction | simp only [goKindEnc, see, seeLeaf, kindView, leafView]
  | struct id => cases v <;> first | contradiction | simp only [goKindEnc, see, seeLeaf, kindView, leafView]
  | slice e m =>
    cases v with
    | bytes s sp =>
      simp only [goKindEnc, kindView]
      split
      · simp only [see, seeLeaf, toGV]
      · simp only [see, GT.elem, see_leaf_int]
    | _ =>
      first
      | contradiction
      | (simp only [goKindEnc, kindView]; split <;> simp only [see, seeLeaf, toGV, leafView])
  | map k e m =>
    cases v with
    | mapNil =>
      simp only [goKindEnc, kindView]
      split
      · rename_i h; rw [if_pos ⟨h.1, .inl h.2⟩]; simp only [see, seeLeaf, toGV]
      · split
        · rename_i h; rw [if_pos ⟨h.1, .inr h.2⟩]; simp only [see, seeLeaf, toGV]
        · rename_i h1 h2
          rw [if_neg (by rintro ⟨h, h' | h'⟩; exact h1 ⟨h, h'⟩; exact h2 ⟨h, h'⟩)]
          rcases goKey_view (w := w) e m hd.1 with ⟨h1, h2⟩ | ⟨kc, f, h1, h2, h3⟩
          · rw [h1, h2]; simp only [see, seeLeaf]
          · rw [h1, h2]; simp only [see]
    | _ =>
      first
      | contradiction
      | (simp only [goKindEnc, kindView, leafView]
         repeat' split
         all_goals simp only [see, seeLeaf, toGV])

theorem goChoose_quote (m : MSets) (a : Bool) {e e' : EC} (h : goQuote e = e') : goQuote (goChoose m a e) = goChoose m a e' := by
  unfold goChoose
  repeat' split
  · rfl
  · rfl
  · exact h

/-- the `string` option of Go on the function of a value that is no pointer -/
theorem quote_some {t : GT} {i : Bool} (h : goScalar t = some i) (a : Bool) : (if quotable (goEnc env t a) then .quoted (goEnc env t a) else goEnc env t a) =
    goChoose (writeMeths env t) a (.quoted (goKindEnc env t a)) := by
  cases t with
  | special s => cases s <;> first | (simp [goEnc, goChoose, writeMeths, goKindEnc, quotable]; done) | (simp [goScalar] at h; done)
  | basic k m =>
    have hw : writeMeths env (.basic k m) = m := rfl
    rw [goEnc, hw, goKindEnc]
    unfold goChoose
    by_cases h1 : m.val.jsonM = true ∨ a = true ∧ m.ptr.jsonM = true
    · simp only [if_pos h1]; rfl
    · by_cases h2 : m.val.textM = true ∨ a = true ∧ m.ptr.textM = true
      · simp only [if_neg h1, if_pos h2]; rfl
      · simp only [if_neg h1, if_neg h2]; rfl
  | _ => simp [goScalar] at h

theorem quote_none {t : GT} (h : goScalar t = none) (a : Bool) : quotable (goEnc env t a) = false := by
  rw [goEnc_split]
  unfold goChoose
  split
  · rfl
  · split
    · rfl
    · cases t with
      | special s => cases s <;> first | rfl | simp [goScalar] at h
      | basic k m => cases k <;> simp [goScalar] at h
      | slice e m => simp only [goKindEnc]; split <;> rfl
      | map k e m => simp only [goKindEnc]; repeat' split
                     all_goals rfl
      | _ => rfl

theorem goQuote_plain {t : GT} (h : ∀ e, t ≠ .ptr e) (a : Bool) : goQuote (goEnc env t a) = if quotable (goEnc env t a) then .quoted (goEnc env t a) else goEnc env t a := by
  have : ∀ e, goEnc env t a ≠ .ptr e := by
    intro e he
    rw [goEnc_split] at he
    unfold goChoose at he
    repeat' split at he
    · cases he
    · cases he
    · cases t with
      | ptr e => exact h e rfl
      | slice e m => simp only [goKindEnc] at he; split at he <;> cases he
      | map k e m => simp only [goKindEnc] at he; repeat' split at he
                     all_goals cases he
      | _ => simp [goKindEnc] at he
  generalize goEnc env t a = x at *
  cases x <;> first | rfl | exact absurd rfl (this _)

theorem seeQ_scalar {t : GT} {i : Bool} (h : goScalar t = some i) (v : DV) (a : Bool) : see w d env seen v (.quoted (goKindEnc env t a)) t = .quoted (leafView w v t) := by
  have hs : ∀ e, see w d env seen v (.quoted e) t = .quoted (seeQuoted w d v t e) := by intro e; cases v <;> simp only [see]
  rw [hs]
  cases t with
  | special s => rfl
  | basic k m => rfl
  | _ => simp [goScalar] at h

theorem see_field {v : DV} {t : GT} {q a : Bool} (h : see w d env seen v (goEnc env t a) t = answered env d a t v (kindView w d env v t a)) :
    see w d env seen v (goFieldEnc env a (t, q)) t = match (motive := GT × Bool → GV) (t, q) with
      | (.ptr e, true) => if (goScalar e).isSome then quotePtrView w d env v e a else answered env d a (.ptr e) v (kindView w d env v (.ptr e) a)
      | (t, q) => if q = true ∧ (goScalar t).isSome then quoteView w d env v t a else answered env d a t v (kindView w d env v t a) := by
  cases q with
  | false => cases t <;> simpa [goFieldEnc] using h
  | true =>
    by_cases hp : ∃ e, t = .ptr e
    · obtain ⟨e, rfl⟩ := hp
      simp only [goFieldEnc, if_true]
      cases hs : goScalar e with
      | none =>
        have : goQuote (goEnc env (.ptr e) a) = goEnc env (.ptr e) a := by
          simp only [goEnc, goChoose]
          repeat' split
          all_goals first | rfl | (simp only [goQuote, quote_none hs]; rfl)
        rw [this]
        simpa using h
      | some i =>
        simp only [Option.isSome_some, if_true]
        have : goQuote (goEnc env (.ptr e) a) = goChoose (writeMeths env (.ptr e)) a (.ptr (goChoose (writeMeths env e) true (.quoted (goKindEnc env e true)))) := by
          rw [goEnc]
          refine goChoose_quote _ a ?_
          rw [← quote_some hs, goQuote]
          split <;> rfl
        rw [this]
        unfold quotePtrView
        refine see_choose ?_
        cases v with
        | ptr v =>
          simp only [see, GT.elem, quoteView]
          rw [see_choose (seeQ_scalar hs v true)]
        | ptrNil => simp only [see]
        | _ => simp only [see, seeLeaf]
    · have hp' : ∀ e, t ≠ .ptr e := fun e he => hp ⟨e, he⟩
      have hm : (match (motive := GT × Bool → GV) (t, true) with
        | (.ptr e, true) => if (goScalar e).isSome then quotePtrView w d env v e a else answered env d a (.ptr e) v (kindView w d env v (.ptr e) a)
        | (t, q) => if q = true ∧ (goScalar t).isSome then quoteView w d env v t a else answered env d a t v (kindView w d env v t a)) =
          if (goScalar t).isSome then quoteView w d env v t a else answered env d a t v (kindView w d env v t a) := by
        cases t <;> first | exact absurd rfl (hp' _) | simp
      rw [hm]
      simp only [goFieldEnc, if_true]
      rw [goQuote_plain hp']
      cases hs : goScalar t with
      | none =>
        rw [quote_none hs]
        simpa using h
      | some i =>
        rw [quote_some hs]
        simp only [Option.isSome_some, if_true, quoteView]
        exact see_choose (seeQ_scalar hs v a)

mutual
theorem see_kind {T : GT} (hT : TableOk env T seen) : ∀ (v : DV) (t : GT) (a : Bool), NoDurKeys t → (∀ x ∈ ctx t a, Meets env T x.1 x.2) →
    see w d env seen v (goKindEnc env t a) t = kindView w d env v t a
  | .array xs, t, a, hd, hm => by
    cases t with
    | array n e m =>
      simp only [goKindEnc, see, kindView, GT.elem]
      rw [see_list hT xs e a hd hm]
    | _ =>
      simp only [goKindEnc, kindView, leafView]
      repeat' split
      all_goals simp only [see, seeLeaf, toGV]
  | .slice xs sp, t, a, hd, hm => by
    cases t with
    | slice e m =>
      simp only [goKindEnc, kindView]
      split
      · simp only [see, seeLeaf, toGV]
      · simp only [see, GT.elem]
        rw [see_list hT xs e true hd hm]
    | _ =>
      simp only [goKindEnc, kindView, leafView]
      repeat' split
      all_goals simp only [see, seeLeaf, toGV]
  | .map es, t, a, hd, hm => by
    cases t with
    | map k e m =>
      simp only [goKindEnc, kindView]
      split
      · simp only [see, seeLeaf]
      · split
        · simp only [see, seeLeaf]
        · rcases goKey_view (w := w) e m hd.1 with ⟨h1, h2⟩ | ⟨kc, f, h1, h2, h3⟩
          · rw [h1, h2]; simp only [see, seeLeaf]
          · rw [h1, h2]
            simp only [see]
            rw [see_entries hT es e f kc (.map k e m) rfl h3 hd.2 hm]
    | _ =>
      simp only [goKindEnc, kindView, leafView]
      repeat' split
      all_goals simp only [see, seeLeaf, toGV]
  | .ptr v, t, a, hd, hm => by
    cases t with
    | ptr e =>
      simp only [goKindEnc, see, kindView, GT.elem]
      rw [goEnc_split, see_choose (see_kind hT v e true hd hm)]
    | _ =>
      simp only [goKindEnc, kindView, leafView]
      repeat' split
      all_goals simp only [see, seeLeaf, toGV]
  | .struct xs, t, a, hd, hm => by
    cases t with
    | struct id =>
      obtain ⟨⟨cs, h1, h2⟩, h3⟩ := hT id a (hm (id, a) (by simp [ctx]))
      simp only [goKindEnc, see, kindView, h1]
      rw [zip_codecs _ _ h2]
      rw [see_fields hT xs (env id).fields _ a h3 fun f hf x hx => .field (hm (id, a) (by simp [ctx])) hf hx]
    | _ =>
      simp only [goKindEnc, kindView, leafView]
      repeat' split
      all_goals simp only [see, seeLeaf, toGV]
  | .bool _, t, a, hd, _ => see_flat rfl t a hd
  | .int _, t, a, hd, _ => see_flat rfl t a hd
  | .float _, t, a, hd, _ => see_flat rfl t a hd
  | .number _, t, a, hd, _ => see_flat rfl t a hd
  | .string _, t, a, hd, _ => see_flat rfl t a hd
  | .bytesNil, t, a, hd, _ => see_flat rfl t a hd
  | .bytes _ _, t, a, hd, _ => see_flat rfl t a hd
  | .time _, t, a, hd, _ => see_flat rfl t a hd
  | .rawNil, t, a, hd, _ => see_flat rfl t a hd
  | .raw _, t, a, hd, _ => see_flat rfl t a hd
  | .ifaceNil, t, a, hd, _ => see_flat rfl t a hd
  | .iface _ _, t, a, hd, _ => see_flat rfl t a hd
  | .sliceNil, t, a, hd, _ => see_flat rfl t a hd
  | .mapNil, t, a, hd, _ => see_flat rfl t a hd
  | .ptrNil, t, a, hd, _ => see_flat rfl t a hd
  | .user _, t, a, hd, _ => see_flat rfl t a hd
theorem see_list {T : GT} (hT : TableOk env T seen) : ∀ (xs : List DV) (t : GT) (a : Bool), NoDurKeys t → (∀ x ∈ ctx t a, Meets env T x.1 x.2) →
    seeL w d env seen xs (goEnc env t a) t = viewL w d env xs t a
  | [], _, _, _, _ => by simp only [seeL, viewL]
  | v :: vs, t, a, hd, hm => by
    simp only [seeL, viewL]
    rw [see_list hT vs t a hd hm, goEnc_split, see_choose (see_kind hT v t a hd hm)]
theorem see_entries {T : GT} (hT : TableOk env T seen) : ∀ (es : List (MK × DV)) (e : GT) (f : MK → MKey) (kc : EC) (t : GT), t.elem = e → (∀ x, seeKey w t kc x = f x) →
    NoDurKeys e → (∀ x ∈ ctx e false, Meets env T x.1 x.2) → seeE w d env seen es kc (goEnc env e false) t = viewE w d env es f e
  | [], _, _, _, _, _, _, _, _ => by simp only [seeE, viewE]
  | (k, v) :: es, e, f, kc, t, ht, hk, hd, hm => by
    simp only [seeE, viewE]
    rw [see_entries hT es e f kc t ht hk hd hm, hk, ht, goEnc_split, see_choose (see_kind hT v e false hd hm)]
theorem see_fields {T : GT} (hT : TableOk env T seen) : ∀ (xs : List DV) (fs : List (GT × Bool)) (ms : List FMeta) (a : Bool), (∀ f ∈ fs, NoDurKeys f.1) →
    (∀ f ∈ fs, ∀ x ∈ ctx f.1 a, Meets env T x.1 x.2) → seeF w d env seen xs (fs.map fun f => (goFieldEnc env a f, f.1)) ms = viewF w d env xs fs ms a
  | [], fs, ms, a, _, _ => by cases fs <;> cases ms <;> simp only [seeF, viewF, List.map]
  | v :: vs, [], ms, a, _, _ => by cases ms <;> simp only [seeF, viewF, List.map]
  | v :: vs, f :: fs, [], a, _, _ => by simp only [seeF, viewF, List.map]
  | v :: vs, (t, q) :: fs, m :: ms, a, hd, hm => by
    simp only [seeF, viewF, List.map]
    rw [see_fields hT vs fs ms a (fun f hf => hd f (by simp [hf])) fun f hf => hm f (by simp [hf])]
    have h := see_kind hT v t a (hd _ List.mem_cons_self) (hm _ List.mem_cons_self)
    have h' := see_choose (a := a) h
    rw [← goEnc_split] at h'
    congr 2
    exact see_field h'
end

/-! ### Contents of variables -/

theorem answered_none {t : GT} (h : writeMeths env t = {}) (a : Bool) (v : DV) (g : GV) : answered env d a t v g = g := by
  unfold answered
  rw [h]
  simp

theorem forall_enough {α : Type} {P : α → Nat → Prop} : ∀ {xs : List α}, (∀ x ∈ xs, ∃ m0, ∀ m, m0 ≤ m → P x m) → ∃ m0, ∀ m, m0 ≤ m → ∀ x ∈ xs, P x m
  | [], _ => ⟨0, fun m _ x hx => by cases hx⟩
  | x :: xs, h => by
    obtain ⟨m1, h1⟩ := h x List.mem_cons_self
    obtain ⟨m2, h2⟩ := forall_enough (xs := xs) fun y hy => h y (List.mem_cons_of_mem _ hy)
    refine ⟨max m1 m2, fun m hm y hy => ?_⟩
    rcases List.mem_cons.1 hy with rfl | hy
    · exact h1 m (by omega)
    · exact h2 m (by omega) y hy

theorem leafTy_plain {t : GT} {ty : Ty} (h : leafTy t = some ty) : ty.plain ∧ reading w env t = .base ty ∧ writeMeths env t = {} := by
  cases t with
  | special s => cases s <;> simp [leafTy] at h <;> subst h <;> simp [Special.ty, Ty.plain, reading, writeMeths]
  | basic k m =>
    simp [leafTy] at h
    obtain ⟨rfl, rfl⟩ := h
    cases k <;> simp [BasicKind.ty, Ty.plain, reading, writeMeths, byMethod]
  | slice e m =>
    simp [leafTy] at h
    obtain ⟨⟨rfl, rfl⟩, rfl⟩ := h
    simp [Ty.plain, reading, writeMeths, byMethod, plainByte]
  | map k e m =>
    simp [leafTy] at h
    obtain ⟨⟨rfl, h1, rfl⟩, rfl⟩ := h
    simp [Ty.plain, reading, writeMeths, byMethod, h1]
  | _ => simp [leafTy] at h

theorem leafTy_view {t : GT} {ty : Ty} (h : leafTy t = some ty) {v : DV} (hv : Fit c ty v) (a : Bool) : kindView w d env v t a = toGV v ty := by
  cases t with
  | special s => cases s <;> simp [leafTy] at h <;> subst h <;> cases v <;> simp only [kindView, leafView]
  | basic k m =>
    simp [leafTy] at h
    obtain ⟨rfl, rfl⟩ := h
    cases v <;> simp only [kindView, leafView]
  | slice e m =>
    simp [leafTy] at h
    obtain ⟨⟨rfl, rfl⟩, rfl⟩ := h
    rcases hv with rfl | ⟨s, sp, rfl⟩ <;> simp [kindView, Spec.goBytes, toGV]
  | map k e m =>
    simp [leafTy] at h
    obtain ⟨⟨rfl, h1, rfl⟩, rfl⟩ := h
    simp only [Fit] at hv
    rcases hv with rfl | ⟨es, rfl, _⟩
    · simp [kindView, toGV, h1]
    · simp [kindView, h1]
  | _ => simp [leafTy] at h

theorem keys_agree {k : KeyTy} {kt : KTy} (h1 : KeyFairEnc k) (h2 : KeyFairDec k) (h : keyReading w k = some kt) : ∃ f, keyView w k = some f ∧ ∀ x, f x = x.toKey kt := by
  obtain ⟨kind, ⟨⟨v1, v2, v3, v4⟩, ⟨p1, p2, p3, p4⟩⟩⟩ := k
  cases kind <;> cases v2 <;> cases p4 <;> simp_all [KeyFairEnc, KeyFairDec, keyReading, keyView]
  all_goals subst h; simp

theorem seenL {ty : Ty} {t : GT} {a : Bool} : ∀ {xs : List DV}, (∀ x ∈ xs, SeenOk' c ty x (view w d env x t a)) → All2 (SeenOk' c ty) xs (viewL w d env xs t a)
  | [], _ => by simp only [viewL]; trivial
  | x :: xs, h => by
    simp only [viewL]
    exact ⟨h x (by simp), seenL fun y hy => h y (by simp [hy])⟩

theorem seenKey {kt : KTy} {k : MK} (h : KeyHolds kt k) : SeenKey (fun s => Coerced s s) kt k (k.toKey kt) := by
  cases kt <;> cases k <;> simp only [KeyHolds] at h
  · exact ⟨h, rfl⟩
  · exact ⟨h, rfl⟩
  · obtain ⟨t, h1, h2, h3, h4⟩ := h
    exact ⟨t, h1, h2, h3, h4, by simp only [MK.toKey, h1]⟩

theorem seenE {kt : KTy} {ty : Ty} {f : MK → MKey} (hf : ∀ x, f x = x.toKey kt) {t : GT} : ∀ {es : List (MK × DV)}, (∀ e ∈ es, KeyHolds kt e.1) →
    (∀ e ∈ es, SeenOk' c ty e.2 (view w d env e.2 t false)) →
    All2 (fun e p => SeenKey (fun s => Coerced s s) kt e.1 p.1 ∧ SeenOk' c ty e.2 p.2) es (viewE w d env es f t)
  | [], _, _ => by simp only [viewE]; trivial
  | (k, v) :: es, h1, h2 => by
    simp only [viewE]
    refine ⟨⟨?_, h2 (k, v) List.mem_cons_self⟩, seenE hf (fun e he => h1 e (List.mem_cons_of_mem _ he)) fun e he => h2 e (List.mem_cons_of_mem _ he)⟩
    rw [hf]
    exact seenKey (h1 (k, v) List.mem_cons_self)

/-- how a field is written -/
def fieldView (w : Decls) (d : MDecls) (env : TyEnv) (v : DV) (f : GT × Bool) (a : Bool) : GV :=
  match f with
  | (.ptr e, true) => if (goScalar e).isSome then quotePtrView w d env v e a else answered env d a (.ptr e) v (kindView w d env v (.ptr e) a)
  | (t, q) => if q = true ∧ (goScalar t).isSome then quoteView w d env v t a else answered env d a t v (kindView w d env v t a)

theorem holds_scalar {depth : Nat} {t : GT} {i : Bool} (hs : goScalar t = some i) {v : DV} (h : IsVar c w d env depth t v) : ∃ ty, leafTy t = some ty ∧ Fit c ty v ∧ v.told := by
  cases h with
  | leaf h1 h2 h3 => exact ⟨_, h1, h2, h3⟩
  | _ => simp [goScalar] at hs

theorem seen_field {depth m : Nat} {f : GT × Bool} {v : DV} {a : Bool} (hq : PlainQuote f) (h : IsVar c w d env depth f.1 v)
    (hs : SeenOk' c (unroll (envReading w env) m (reading w env f.1)) v (view w d env v f.1 a)) :
    SeenOk' c (unroll (envReading w env) m (fieldReading w env f)) v (fieldView w d env v f a) := by
  obtain ⟨t, q⟩ := f
  cases q with
  | false => cases t <;> simpa [fieldReading, fieldView, view] using hs
  | true =>
    by_cases hp : ∃ e, t = .ptr e
    · obtain ⟨e, rfl⟩ := hp
      have := (hq rfl).2 e rfl
      simpa [fieldReading, fieldView, goPointee, this, view] using hs
    · have hp' : ∀ e, t ≠ .ptr e := fun e he => hp ⟨e, he⟩
      have hpt : goPointee t = t := by cases t <;> first | rfl | exact absurd rfl (hp' _)
      have hm : fieldView w d env v (t, true) a = if (goScalar t).isSome then quoteView w d env v t a else view w d env v t a := by
        cases t <;> first | exact absurd rfl (hp' _) | simp [fieldView, view]
      rw [hm]
      cases hi : goScalar t with
      | none => simpa [fieldReading, hpt, hi] using hs
      | some i =>
        obtain ⟨ty, h1, h2, h3⟩ := holds_scalar hi h
        obtain ⟨hp1, hp2, hp3⟩ := leafTy_plain (w := w) (env := env) h1
        simp only [Option.isSome_some, if_true, quoteView]
        rw [answered_none hp3]
        have key : ∀ ty', (ty' = .quoted ty ∨ ty' = .quotedInt ty) → ty'.plain → quotedGV v ty = leafView w v t → fieldReading w env (t, true) = .base ty' →
            SeenOk' c (unroll (envReading w env) m (fieldReading w env (t, true))) v (.quoted (leafView w v t)) := by
          intro ty' ht hpl hv hr
          rw [hr, unroll_base, ← hv]
          rcases ht with rfl | rfl
          · have := fit_seen _ hpl v (by simp only [Fit]; exact h2) h3
            cases v <;> simpa only [toGV] using this
          · have := fit_seen _ hpl v (by simp only [Fit]; exact h2) h3
            cases v <;> simpa only [toGV] using this
        cases t with
        | special s =>
          cases s <;> simp [goScalar] at hi
          · simp [leafTy, Special.ty] at h1
            subst h1
            obtain ⟨s, _, rfl⟩ := h2
            exact key _ (.inl rfl) (by simp [Ty.plain]) (by simp only [quotedGV, leafView, Special.ty, toGV]) rfl
          · exact absurd rfl (hq rfl).1
        | basic k m =>
          simp [leafTy] at h1
          obtain ⟨rfl, rfl⟩ := h1
          cases k with
          | bool =>
            obtain ⟨b, rfl⟩ := h2
            exact key _ (.inl rfl) (by simp [Ty.plain, BasicKind.ty]) (by simp only [quotedGV, leafView, BasicKind.ty, toGV]) rfl
          | int k =>
            obtain ⟨z, _, rfl⟩ := h2
            exact key _ (.inr rfl) (by simp [Ty.plain, BasicKind.ty]) (by simp only [quotedGV, leafView, BasicKind.ty, toGV]) rfl
          | float32 =>
            obtain ⟨e, t, ok, _, rfl⟩ := h2
            exact key _ (.inl rfl) (by simp [Ty.plain, BasicKind.ty]) (by simp only [quotedGV, leafView, BasicKind.ty, toGV]) rfl
          | float64 =>
            obtain ⟨e, t, ok, _, rfl⟩ := h2
            exact key _ (.inl rfl) (by simp [Ty.plain, BasicKind.ty]) (by simp only [quotedGV, leafView, BasicKind.ty, toGV]) rfl
          | string =>
            obtain ⟨s, _, rfl⟩ := h2
            exact key _ (.inl rfl) (by simp [Ty.plain, BasicKind.ty]) (by simp only [quotedGV, leafView, BasicKind.ty, toGV]) rfl
        | _ => simp [goScalar] at hi

theorem seenF {m depth : Nat} (hz : ∀ f, zero (unroll (envReading w env) m f) = zeroR (envReading w env) depth f) {a : Bool} :
    ∀ (names : List Bytes) (fs : List (GT × Bool)) (os : List Bool) (xs : List DV), names.length = fs.length → os.length = fs.length → xs.length = fs.length →
    (∀ f ∈ fs, PlainQuote f) → (∀ (i : Nat) f x, fs[i]? = some f → xs[i]? = some x → SeenOk' c (unroll (envReading w env) m (fieldReading w env f)) x (fieldView w d env x f a)) →
    (∀ (i : Nat) f x, fs[i]? = some f → xs[i]? = some x → os[i]? = some true → isEmptyDV x = true → clip x = zeroR (envReading w env) depth (fieldReading w env f)) →
    SeenF c (fun s => Coerced s s) (fun w => isNilDV w = false) ((names.zip (fs.map (fieldReading w env))).map fun f => (f.1, unroll (envReading w env) m f.2)) xs
      (viewF w d env xs fs (fieldMeta names os) a)
  | [], [], [], [], _, _, _, _, _, _ => by simp [SeenF, viewF]
  | n :: names, f :: fs, o :: os, x :: xs, h1, h2, h3, hq, hs, ho => by
    simp only [List.map_cons, List.zip_cons_cons, SeenF, fieldMeta, List.zipWith_cons_cons, viewF]
    refine ⟨x, xs, _, _, _, rfl, rfl, rfl, ?_, ?_, ?_⟩
    · intro e1 e2
      rw [hz]
      exact ho 0 f x rfl rfl (by simpa using e1) e2
    · exact hs 0 f x rfl rfl
    · exact seenF hz names fs os xs (by simpa using h1) (by simpa using h2) (by simpa using h3) (fun g hg => hq g (List.mem_cons_of_mem _ hg))
        (fun i g y e1 e2 => hs (i + 1) g y (by simpa using e1) (by simpa using e2)) fun i g y e1 e2 e3 => ho (i + 1) g y (by simpa using e1) (by simpa using e2) (by simpa using e3)
  | [], _ :: _, _, _, h, _, _, _, _, _ => by simp at h
  | _ :: _, [], _, _, h, _, _, _, _, _ => by simp at h
  | _, [], _ :: _, _, _, h, _, _, _, _ => by simp at h
  | _, _ :: _, [], _, _, h, _, _, _, _ => by simp at h
  | _, [], _, _ :: _, _, _, h, _, _, _ => by simp at h
  | _, _ :: _, _, [], _, _, h, _, _, _ => by simp at h

theorem holds_seen {depth : Nat} (hn : HasNames w env) (hr : Sized env depth) {t : GT} {v : DV} (h : IsVar c w d env depth t v) :
    ∃ m0, ∀ m, m0 ≤ m → ∀ a, SeenOk' c (unroll (envReading w env) m (reading w env t)) v (view w d env v t a) := by
  induction h with
  | leaf h1 h2 h3 =>
    obtain ⟨hp, he, hm⟩ := leafTy_plain (w := w) (env := env) h1
    refine ⟨0, fun m _ a => ?_⟩
    rw [he, unroll_base, view, answered_none hm, leafTy_view h1 h2]
    exact fit_seen _ hp _ h2 h3
  | @sliceNil e h1 =>
    refine ⟨0, fun m _ a => ?_⟩
    have hb : Spec.goBytes e = false ∧ plainByte e = false := by
      unfold Spec.goBytes plainByte
      constructor <;> (split; exact absurd rfl (h1 _); rfl)
    rw [view, answered_none (by rfl)]
    simp only [kindView, hb, reading, byMethod]
    simp only [Bool.false_eq_true, if_false]
    rw [unroll_slice]
    exact .inl ⟨rfl, rfl⟩
  | @slice e xs sp h1 h2 ih =>
    obtain ⟨m0, ih⟩ := forall_enough ih
    refine ⟨m0, fun m hm a => ?_⟩
    have hb : Spec.goBytes e = false ∧ plainByte e = false := by
      unfold Spec.goBytes plainByte
      constructor <;> (split; exact absurd rfl (h1 _); rfl)
    rw [view, answered_none (by rfl)]
    simp only [kindView, hb, reading, byMethod]
    simp only [Bool.false_eq_true, if_false]
    rw [unroll_slice]
    exact .inr ⟨_, _, _, rfl, rfl, seenL fun x hx => ih m hm x hx true⟩
  | @array e xs h1 ih =>
    obtain ⟨m0, ih⟩ := forall_enough ih
    refine ⟨m0, fun m hm a => ?_⟩
    rw [view, answered_none (by rfl)]
    simp only [kindView, reading, byMethod]
    simp only [Bool.false_eq_true, if_false]
    rw [unroll_array]
    exact ⟨_, _, rfl, rfl, rfl, seenL fun x hx => ih m hm x hx a⟩
  | @mapNil k e kt h1 h2 h3 h4 h5 =>
    refine ⟨0, fun m _ a => ?_⟩
    obtain ⟨f, hf, _⟩ := keys_agree h3 h4 h5
    rw [view, answered_none (by rfl)]
    simp only [kindView, reading, byMethod, h1, h2, hf, h5, and_false, or_self, if_false]
    simp only [Bool.false_eq_true, if_false]
    rw [unroll_map]
    exact .inl ⟨rfl, rfl⟩
  | @map k e kt es h1 h2 h3 h4 h5 h6 h7 h8 ih =>
    obtain ⟨m0, ih⟩ := forall_enough ih
    refine ⟨m0, fun m hm a => ?_⟩
    obtain ⟨f, hf, hk⟩ := keys_agree h3 h4 h5
    rw [view, answered_none (by rfl)]
    simp only [kindView, reading, byMethod, h1, h2, hf, h5, and_false, if_false]
    simp only [Bool.false_eq_true, if_false]
    rw [unroll_map]
    exact .inr ⟨_, _, _, rfl, rfl, h6, .refl _, seenE hk h7 fun x hx => ih m hm x hx false⟩
  | @ptrNil e h1 =>
    refine ⟨0, fun m _ a => ?_⟩
    rw [view, answered_none (by rw [writeMeths, h1]), reading, unroll_ptr]
    simp only [kindView]
    exact .inl ⟨rfl, rfl⟩
  | @ptr e v h1 h2 h3 ih =>
    obtain ⟨m0, ih⟩ := ih
    refine ⟨m0, fun m hm a => ?_⟩
    rw [view, answered_none (by rw [writeMeths, h1]), reading, unroll_ptr]
    simp only [kindView]
    exact .inr ⟨_, _, rfl, rfl, h2, ih m hm true⟩
  | @struct id xs h1 h2 h3 h4 h5 h6 h7 h8 ih =>
    have hall : ∀ p ∈ (env id).fields.zip xs, ∃ m0, ∀ m, m0 ≤ m → ∀ a, SeenOk' c (unroll (envReading w env) m (reading w env p.1.1)) p.2 (view w d env p.2 p.1.1 a) := by
      intro p hp
      obtain ⟨i, hi, e⟩ := List.getElem_of_mem hp
      have := ih i ((env id).fields[i]'(by simp at hi; omega)) (xs[i]'(by simp at hi; omega)) (by simp) (by simp)
      rw [List.getElem_zip] at e
      subst e
      exact this
    obtain ⟨m0, ih'⟩ := forall_enough hall
    obtain ⟨rank, hlt, hk⟩ := goRec_reading (w := w) hr
    refine ⟨max m0 depth + 1, fun m hm a => ?_⟩
    obtain ⟨m, rfl⟩ : ∃ m', m = m' + 1 := ⟨m - 1, by omega⟩
    rw [view, answered_none (by rw [writeMeths, h1])]
    simp only [kindView, reading, byMethod, h1]
    simp only [Bool.false_eq_true, if_false]
    rw [unroll_ref]
    have hlen : (w.names id).length = ((env id).fields.map (fieldReading w env)).length := by rw [hn id, List.length_map]
    have hnames : ((envReading w env id).map fun f => (f.1, unroll (envReading w env) m f.2)).map (·.1) = w.names id := by
      rw [List.map_map, envReading]
      exact zip_fst _ _ hlen
    refine ⟨_, _, rfl, rfl, ?_, ?_, ?_⟩
    · rw [hnames]; exact h2
    · intro f hf
      exact h3 _ (by rw [← hnames]; exact List.mem_map.2 ⟨f, hf, rfl⟩)
    · refine seenF (depth := depth) ?_ _ _ _ _ (hn id) h5 h4 h6 ?_ ?_
      · intro f
        rw [zero_unroll]
        exact (zeroR_enough hk _ _ _ (fun id _ => hlt id) (fun id _ => Nat.lt_of_lt_of_le (hlt id) (by omega))).symm
      · intro i f x e1 e2
        refine seen_field (h6 f (List.mem_of_getElem? e1)) (h7 i f x e1 e2) ?_
        refine ih' m (by omega) (f, x) ?_ a
        rw [List.mem_iff_getElem?]
        exact ⟨i, by rw [List.getElem?_zip_eq_some]; exact ⟨e1, e2⟩⟩
      · exact h8

theorem treeF_mem : ∀ {fs : List (Bytes × Ty)}, (∀ f ∈ fs, f.2.tree) → treeF fs
  | [], _ => by simp [treeF]
  | (n, t) :: fs, h => by
    simp only [treeF]
    exact ⟨h _ List.mem_cons_self, treeF_mem fun f hf => h f (List.mem_cons_of_mem _ hf)⟩

theorem tree_method {m : Nat} {ms : Meths} {t : GT} {s : NTy} {R : REnv} (hm : ms.jsonU = false) (h : (unroll R m s).tree) : (unroll R m (byMethod w ms t s)).tree := by
  unfold byMethod
  rw [if_neg (by simp [hm])]
  split
  · rw [unroll_base]; simp [Ty.tree]
  · exact h

theorem tree_reading {m : Nat} {R : REnv} (hR : ∀ id, (unroll R m (.ref id)).tree) : ∀ t : GT, NoJsonU env t → (unroll R m (reading w env t)).tree
  | .special s, h => by cases s <;> simp [reading, unroll_base, Special.ty, Ty.tree, NoJsonU] at h ⊢
  | .basic k ms, h => by
    rw [reading]
    refine tree_method h ?_
    rw [unroll_base]; cases k <;> simp [BasicKind.ty, Ty.tree]
  | .ifc ms, _ => by rw [reading, unroll_base]; simp [Ty.tree]
  | .array n e ms, h => by
    rw [reading]
    refine tree_method h.1 ?_
    rw [unroll_array]; simp only [Ty.tree]; exact tree_reading hR e h.2
  | .slice e ms, h => by
    rw [reading]
    refine tree_method h.1 ?_
    split
    · rw [unroll_base]; simp [Ty.tree]
    · rw [unroll_slice]; simp only [Ty.tree]; exact tree_reading hR e h.2
  | .map k e ms, h => by
    rw [reading]
    refine tree_method h.1 ?_
    split
    · rw [unroll_base]; simp [Ty.tree]
    · split
      · rename_i h'
        have := h.2
        rw [h'.2] at this
        exact absurd rfl this
      · split
        · rw [unroll_map]; simp only [Ty.tree]; exact tree_reading hR e h.2
        · rw [unroll_base]; simp [Ty.tree]
  | .ptr e, h => by
    rw [reading, unroll_ptr]; simp only [Ty.tree]; exact tree_reading hR e h
  | .struct id, h => by
    rw [reading]
    exact tree_method h (hR id)
  | .other ms, h => by
    rw [reading]
    refine tree_method h ?_
    rw [unroll_base]; simp [Ty.tree]

theorem tree_field {m : Nat} {R : REnv} (hR : ∀ id, (unroll R m (.ref id)).tree) {f : GT × Bool} (h : NoJsonU env f.1) : (unroll R m (fieldReading w env f)).tree := by
  have ht := tree_reading (w := w) hR f.1 h
  have hq : ∀ i, goScalar (goPointee f.1) = some i → (scalarTy (reading w env f.1)).tree := by
    intro i hi
    obtain ⟨u, hu | hu⟩ := reading_scalar (w := w) (env := env) hi
    · rw [hu, unroll_base] at ht; rw [hu]; exact ht
    · rw [hu, unroll_ptr, unroll_base] at ht; rw [hu]; simpa only [scalarTy, Ty.tree] using ht
  unfold fieldReading
  split
  · cases hi : goScalar (goPointee f.1) with
    | none => exact ht
    | some b => cases b <;> (simp only []; rw [unroll_base]; simp only [Ty.tree]; exact hq _ hi)
  · exact ht

theorem treeR_reading (h : ∀ id, ∀ f ∈ (env id).fields, NoJsonU env f.1) {t : GT} (ht : NoJsonU env t) : TreeR (envReading w env) (reading w env t) := by
  have hR : ∀ m id, (unroll (envReading w env) m (.ref id)).tree := by
    intro m
    induction m with
    | zero => intro id; rw [unroll_ref0]; simp [Ty.tree, treeF]
    | succ m ih =>
      intro id
      rw [unroll_ref]
      simp only [Ty.tree]
      refine treeF_mem fun f hf => ?_
      obtain ⟨g, hg, rfl⟩ := List.mem_map.1 hf
      have hg' := (List.of_mem_zip hg).2
      obtain ⟨f, hf, e⟩ := List.mem_map.1 hg'
      rw [← e]
      exact tree_field ih (h id f hf)
  exact fun m => tree_reading (hR m) t ht

end JC

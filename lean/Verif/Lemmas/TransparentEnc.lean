import Verif.Lemmas.Transparent
import Verif.Lemmas.RunEncE
/-!
Lemmas for C87: a struct with embedded structs is written as the one with the promoted fields as its own.
-/
namespace JC
open Spec Props

variable {c : DCfg} {w : Decls} {d : MDecls} {env : PEnv} {mem : Nat → List (Bytes × List Nat)} {zs : Nat → DV} {depth : Nat}

theorem look_found : ∀ {hs : List Hop} {i : Nat} {v x : DV}, found hs i v = some x → look zs hs i v = x
  | [], i, v, x, h => by
    simp only [found] at h
    simp [look, DV.field, List.getD, h]
  | .struct j :: hs, i, v, x, h => by
    simp only [found] at h
    split at h
    · rename_i y hy
      simp only [look, DV.field, List.getD, hy, Option.getD_some]
      exact look_found h
    · cases h
  | .ptr j _ _ :: hs, i, v, x, h => by
    simp only [found] at h
    split at h
    · rename_i y hy
      simp only [look, DV.field, List.getD, hy, Option.getD_some]
      exact look_found h
    · cases h

theorem meths_flat (t : GT) : writeMeths (flatEnv env mem) t = writeMeths env.ty t := by
  have hp : ∀ e, goPtrMeths (flatEnv env mem) e = goPtrMeths env.ty e := by
    intro e
    cases e <;> rfl
  cases t with
  | ptr e => simp only [writeMeths, hp]
  | _ => rfl

theorem goPtrMeths_flat (e : GT) : goPtrMeths (flatEnv env mem) e = goPtrMeths env.ty e := by cases e <;> rfl

theorem kindS_leaf {t : GT} {ty : Ty} (h : leafTy t = some ty) {v : DV} (hv : Fit c ty v) (n : Nat) (a : Bool) :
    kindS none w d env mem (n + 1) v t a = toGV v ty := by
  have hview := leafTy_view (w := w) (d := d) (env := env.ty) h hv a
  rw [← hview]
  cases t with
  | special s => cases v <;> simp only [kindS]
  | basic k m => cases v <;> simp only [kindS]
  | slice e m =>
    simp [leafTy] at h
    obtain ⟨⟨rfl, rfl⟩, rfl⟩ := h
    cases v <;> first | (simp only [kindS]; done) | simp [Fit] at hv
  | map k e m =>
    simp [leafTy] at h
    obtain ⟨⟨rfl, hk, rfl⟩, rfl⟩ := h
    cases v <;> first | (simp only [kindS, kindView, hk]; done) | simp [kindS, kindView, hk]
  | ifc m => simp [leafTy] at h
  | array k e m => simp [leafTy] at h
  | ptr e => simp [leafTy] at h
  | struct id => simp [leafTy] at h
  | other m => simp [leafTy] at h

theorem viewL_map {w : Decls} {d : MDecls} {env : TyEnv} {t : GT} {a : Bool} : ∀ xs : List DV, viewL w d env xs t a = xs.map fun x => view w d env x t a
  | [] => by simp [viewL]
  | x :: xs => by simp [viewL, viewL_map xs, view]

theorem viewE_map {w : Decls} {d : MDecls} {env : TyEnv} {t : GT} {key : MK → MKey} : ∀ xs : List (MK × DV), viewE w d env xs key t = xs.map fun x => (key x.1, view w d env x.2 t false)
  | [] => by simp [viewE]
  | (k, x) :: xs => by simp [viewE, viewE_map xs, view]

theorem pts_map_eq {α β γ : Type} {f : α → γ} {g : β → γ} : ∀ {xs : List α} {us : List β}, Pts (fun x u => f x = g u) xs us → xs.map f = us.map g
  | [], [], _ => rfl
  | _ :: _, _ :: _, h => by simp only [List.map_cons, h.1, pts_map_eq h.2]
  | [], _ :: _, h => h.elim
  | _ :: _, [], h => h.elim

theorem viewF_cons (w : Decls) (d : MDecls) (env : TyEnv) (v : DV) (vs : List DV) (f : GT × Bool) (fs : List (GT × Bool)) (m : FMeta) (ms : List FMeta) (a : Bool) :
    viewF w d env (v :: vs) (f :: fs) (m :: ms) a = (m, fieldView w d env v f a) :: viewF w d env vs fs ms a := by
  simp only [viewF]
  rfl

theorem members_flat {V : DV → GT → Bool → GV} {id : Nat} {xs : List DV} {a a' : Bool} (w' : Decls) (d' : MDecls) (env' : TyEnv) : ∀ (l : List (Bytes × List Nat)) (us : List DV),
    (l.filterMap fun m => place env id m.2).length = us.length →
    (∀ (i : Nat) (q : Spec.Place) (u : DV), (l.filterMap fun m => place env id m.2)[i]? = some q → us[i]? = some u →
      ∃ x, found q.way q.idx (.struct xs) = some x ∧ ∀ aa, optionView w d env.ty V x aa (option q.field) = fieldView w' d' env' u (option q.field) a') →
    (l.filterMap fun m =>
        match place env id m.2 with
        | some q => member none w d env.ty V m.1 q (.struct xs) a
        | none => none) =
      viewF w' d' env' us ((l.filterMap fun m => place env id m.2).map fun q => option q.field)
        (fieldMeta (l.filterMap fun m => (place env id m.2).map fun _ => m.1)
          ((l.filterMap fun m => place env id m.2).map fun q => @decide (HasOption q.field.tag (bs! "omitempty")) (Classical.propDecidable _))) a'
  | [], [], _, _ => by simp [viewF]
  | [], _ :: _, h, _ => by simp at h
  | m :: l, us, h, hs => by
    cases hq : place env id m.2 with
    | none =>
      simp only [List.filterMap_cons, hq, Option.map_none] at h hs ⊢
      exact members_flat w' d' env' l us h hs
    | some q =>
      simp only [List.filterMap_cons, hq, Option.map_some] at h hs ⊢
      cases us with
      | nil => simp at h
      | cons u us =>
        obtain ⟨x, hx, hv⟩ := hs 0 q u rfl rfl
        have ih := members_flat (a := a) w' d' env' l us (by simpa using h) fun i q u h1 h2 => hs (i + 1) q u (by simpa using h1) (by simpa using h2)
        rw [show member none w d env.ty V m.1 q (.struct xs) a = some (⟨m.1, @decide (HasOption q.field.tag (bs! "omitempty")) (Classical.propDecidable _)⟩,
          optionView w d env.ty V x (a || far q.way) (option q.field)) by unfold member; rw [hx]]
        simp only [ih, List.map_cons, fieldMeta, List.zipWith_cons_cons]
        rw [viewF_cons, hv]

theorem optionView_flat {V : DV → GT → Bool → GV} {x u : DV} {f : GT × Bool} {a a' : Bool} (hq : PlainQuote f)
    (hv : IsVar c (flatDecls w env mem) (flatOmits d env mem) (flatEnv env mem) depth f.1 u) (hf : Flat w env mem zs (fieldReading w env.ty f) x u)
    (hV : Flat w env mem zs (reading w env.ty f.1) x u → V x f.1 a = view (flatDecls w env mem) (flatOmits d env mem) (flatEnv env mem) u f.1 a') :
    optionView w d env.ty V x a f = fieldView (flatDecls w env mem) (flatOmits d env mem) (flatEnv env mem) u f a' := by
  obtain ⟨t, q⟩ := f
  by_cases hs : q = true ∧ (goScalar t).isSome = true
  · obtain ⟨rfl, hs⟩ := hs
    obtain ⟨i, hi⟩ := Option.isSome_iff_exists.1 hs
    have hp : ∀ e, t ≠ .ptr e := by rintro e rfl; simp [goScalar] at hi
    have hpt : goPointee t = t := by cases t <;> first | rfl | exact absurd rfl (hp _)
    have hxu : x = u := by
      unfold fieldReading at hf
      simp only [if_true, hpt, hi] at hf
      cases i <;> (simp only [] at hf; cases hf; rfl)
    subst hxu
    obtain ⟨ty, hl, _, _⟩ := holds_scalar hi hv
    have hm := (leafTy_plain (w := w) (env := env.ty) hl).2.2
    have hm' := (leafTy_plain (w := w) (env := flatEnv env mem) hl).2.2
    have e1 : optionView w d env.ty V x a (t, true) = quoteView w d env.ty x t a := by
      cases t <;> first | exact absurd rfl (hp _) | simp [optionView, hi]
    have e2 : fieldView (flatDecls w env mem) (flatOmits d env mem) (flatEnv env mem) x (t, true) a' =
        quoteView (flatDecls w env mem) (flatOmits d env mem) (flatEnv env mem) x t a' := by
      cases t <;> first | exact absurd rfl (hp _) | simp [fieldView, hi]
    rw [e1, e2, quoteView, quoteView, answered_none hm, answered_none hm']
    cases t <;> rfl
  · have hns : q = true → goScalar (goPointee t) = none := by
      rintro rfl
      have h1 : goScalar t = none := by
        cases hi : goScalar t with
        | none => rfl
        | some i => exact absurd ⟨rfl, by simp [hi]⟩ hs
      cases t with
      | ptr e => exact (hq rfl).2 e rfl
      | _ => exact h1
    have hr : fieldReading w env.ty (t, q) = reading w env.ty t := by
      unfold fieldReading
      cases q with
      | false => rfl
      | true => simp only [if_true, hns rfl]
    have e1 : optionView w d env.ty V x a (t, q) = V x t a := by
      cases q with
      | false => cases t <;> simp [optionView]
      | true =>
        have := hns rfl
        cases t <;> simp only [goPointee] at this <;> simp [optionView, this]
    have e2 : fieldView (flatDecls w env mem) (flatOmits d env mem) (flatEnv env mem) u (t, q) a' =
        view (flatDecls w env mem) (flatOmits d env mem) (flatEnv env mem) u t a' := by
      cases q with
      | false => cases t <;> simp [fieldView, view]
      | true =>
        have := hns rfl
        cases t <;> simp only [goPointee] at this <;> simp [fieldView, view, this]
    rw [e1, e2]
    exact hV (by rw [← hr]; exact hf)

/-- A variable is written as the flat one. -/
theorem flat_view {t : GT} {u : DV} (h : IsVar c (flatDecls w env mem) (flatOmits d env mem) (flatEnv env mem) depth t u) :
    ∀ (v : DV) (n : Nat) (a a' : Bool), Flat w env mem zs (reading w env.ty t) v u → Settled env mem t v → sizeOf v ≤ n →
      answered env.ty d a t v (kindS none w d env mem n v t a) = view (flatDecls w env mem) (flatOmits d env mem) (flatEnv env mem) u t a' := by
  have pos : ∀ {v : DV} {n : Nat}, sizeOf v ≤ n → ∃ m, n = m + 1 := by
    intro v n h
    have : 0 < sizeOf v := by cases v <;> simp <;> omega
    exact ⟨n - 1, by omega⟩
  induction h with
  | @leaf t ty u h1 h2 h3 =>
    intro v n a a' hf hs hn
    obtain ⟨n, rfl⟩ := pos hn
    obtain ⟨_, hr, hm⟩ := leafTy_plain (w := w) (env := env.ty) h1
    have hm' := (leafTy_plain (w := w) (env := flatEnv env mem) h1).2.2
    rw [hr] at hf
    cases hf
    rw [view, answered_none hm, answered_none hm', kindS_leaf h1 h2, leafTy_view h1 h2]
  | @sliceNil e h1 =>
    intro v n a a' hf hs hn
    obtain ⟨n, rfl⟩ := pos hn
    have hb : Spec.goBytes e = false ∧ plainByte e = false := by
      unfold Spec.goBytes plainByte
      constructor <;> (split; exact absurd rfl (h1 _); rfl)
    simp only [reading, byMethod, hb] at hf
    simp only [Bool.false_eq_true, if_false] at hf
    cases hf
    rw [view, answered_none (by rfl), answered_none (by rfl)]
    simp [kindS, kindView, hb]
  | @slice e us su h1 h2 ih =>
    intro v n a a' hf hs hn
    obtain ⟨n, rfl⟩ := pos hn
    have hb : Spec.goBytes e = false ∧ plainByte e = false := by
      unfold Spec.goBytes plainByte
      constructor <;> (split; exact absurd rfl (h1 _); rfl)
    simp only [reading, byMethod, hb] at hf
    simp only [Bool.false_eq_true, if_false] at hf
    cases hf with
    | @slice _ xs _ sp _ f1 f2 f3 f4 =>
      have hset : ∀ x ∈ xs, Settled env mem e x := by
        cases hs with
        | flat h => simp [flatMem] at h
        | slice h => exact h
      rw [view, answered_none (by rfl), answered_none (by rfl)]
      simp only [kindS, kindView, hb, Bool.false_eq_true, if_false, viewL_map]
      congr 1
      refine pts_map_eq (pts_iff.2 ⟨f1, ?_⟩)
      intro i x u hx hu
      have hsz := List.sizeOf_lt_of_mem (List.mem_of_getElem? hx)
      exact ih u (List.mem_of_getElem? hu) x n true true (f2 i x u hx hu) (hset x (List.mem_of_getElem? hx)) (by simp at hn; omega)
  | @array e us h1 ih =>
    intro v n a a' hf hs hn
    obtain ⟨n, rfl⟩ := pos hn
    simp only [reading, byMethod] at hf
    simp only [Bool.false_eq_true, if_false] at hf
    cases hf with
    | @array _ _ xs _ f1 f2 =>
      have hset : ∀ x ∈ xs, Settled env mem e x := by
        cases hs with
        | flat h => simp [flatMem] at h
        | array h => exact h
      rw [view, answered_none (by rfl), answered_none (by rfl)]
      simp only [kindS, kindView, viewL_map]
      congr 1
      refine pts_map_eq (pts_iff.2 ⟨f1, ?_⟩)
      intro i x u hx hu
      have hsz := List.sizeOf_lt_of_mem (List.mem_of_getElem? hx)
      exact ih u (List.mem_of_getElem? hu) x n a a' (f2 i x u hx hu) (hset x (List.mem_of_getElem? hx)) (by simp at hn; omega)
  | @mapNil k e kt h1 h2 h3 h4 h5 =>
    intro v n a a' hf hs hn
    obtain ⟨n, rfl⟩ := pos hn
    obtain ⟨f, hk, _⟩ := keys_agree h3 h4 h5
    have hk' : keyView w k = some f := hk
    have h5' : keyReading w k = some kt := h5
    simp only [reading, byMethod, h1, h2, h5', and_false, if_false] at hf
    simp only [Bool.false_eq_true, if_false] at hf
    cases hf
    rw [view, answered_none (by rfl), answered_none (by rfl)]
    simp only [kindS, kindView, h1, h2, hk, hk', and_false, or_self, if_false]
  | @map k e kt us h1 h2 h3 h4 h5 h6 h7 h8 ih =>
    intro v n a a' hf hs hn
    obtain ⟨n, rfl⟩ := pos hn
    obtain ⟨f, hk, _⟩ := keys_agree h3 h4 h5
    have hk' : keyView w k = some f := hk
    have h5' : keyReading w k = some kt := h5
    simp only [reading, byMethod, h1, h2, h5', and_false, if_false] at hf
    simp only [Bool.false_eq_true, if_false] at hf
    cases hf with
    | @map _ _ xs _ f1 f2 =>
      have hset : ∀ x ∈ xs, Settled env mem e x.2 := by
        cases hs with
        | flat h => simp [flatMem] at h
        | map h => exact h
      rw [view, answered_none (by rfl), answered_none (by rfl)]
      simp only [kindS, kindView, h1, h2, hk, hk', and_false, if_false, viewE_map]
      congr 1
      refine pts_map_eq (pts_iff.2 ⟨by simpa using congrArg List.length f1, ?_⟩)
      intro i x u hx hu
      have hkey : x.1 = u.1 := by
        have := congrArg (·[i]?) f1
        simp only [List.getElem?_map, hx, hu, Option.map_some, Option.some.injEq] at this
        exact this
      have hsz := List.sizeOf_lt_of_mem (List.mem_of_getElem? hx)
      have hsz2 : sizeOf x.2 < sizeOf x := by obtain ⟨x1, x2⟩ := x; simp; omega
      rw [hkey, ih u (List.mem_of_getElem? hu) x.2 n false false (f2 i x u hx hu) (hset x (List.mem_of_getElem? hx)) (by simp at hn; omega)]
  | @ptrNil e h1 =>
    intro v n a a' hf hs hn
    obtain ⟨n, rfl⟩ := pos hn
    simp only [reading] at hf
    cases hf
    rw [view, answered_none (env := env.ty) (by rw [writeMeths, ← goPtrMeths_flat (mem := mem), h1]), answered_none (by rw [writeMeths, h1])]
    simp only [kindS, kindView]
  | @ptr e u h1 h2 h3 ih =>
    intro v n a a' hf hs hn
    obtain ⟨n, rfl⟩ := pos hn
    simp only [reading] at hf
    cases hf with
    | @ptr _ x _ hf =>
      have hset : Settled env mem e x := by
        cases hs with
        | flat h => simp [flatMem] at h
        | ptr h => exact h
      rw [view, answered_none (env := env.ty) (by rw [writeMeths, ← goPtrMeths_flat (mem := mem), h1]), answered_none (by rw [writeMeths, h1])]
      simp only [kindS, kindView]
      congr 1
      exact ih x n true true hf hset (by simp at hn; omega)
  | @struct id us h1 h2 h3 h4 h5 h6 h7 h8 ih =>
    intro v n a a' hf hs hn
    obtain ⟨n, rfl⟩ := pos hn
    have hme : (env.ty id).meths = {} := h1
    simp only [reading, byMethod, hme] at hf
    simp only [Bool.false_eq_true, if_false] at hf
    cases hf with
    | @struct _ xs _ f1 f2 f3 =>
      have hset : (∀ m ∈ mem id, ∀ q, place env id m.2 = some q → found q.way q.idx (.struct xs) ≠ none) ∧
          (∀ m ∈ mem id, ∀ q x, place env id m.2 = some q → found q.way q.idx (.struct xs) = some x → Settled env mem q.field.type x) := by
        cases hs with
        | flat h => simp [flatMem] at h
        | struct s1 s2 => exact ⟨fun m hm q hq => (s1 m hm q hq).1, s2⟩
      rw [view, answered_none (env := env.ty) (by rw [writeMeths]; exact h1), answered_none (by rw [writeMeths, h1])]
      simp only [kindS, kindView]
      congr 1
      refine members_flat _ _ _ (mem id) us f2 ?_
      intro i q u hq hu
      have hqm : q ∈ places env mem id := List.mem_of_getElem? hq
      obtain ⟨m, hm, hpl⟩ := List.mem_filterMap.1 hqm
      cases hfx : found q.way q.idx (.struct xs) with
      | none => exact absurd hfx (hset.1 m hm q hpl)
      | some x =>
        refine ⟨x, rfl, fun aa => ?_⟩
        have hfl := f3 i q u hq hu
        rw [look_found hfx] at hfl
        have hfi : (flatEnv env mem id).fields[i]? = some (option q.field) := by
          simp only [flatEnv, places, List.getElem?_map, hq, Option.map_some]
        have hsz := found_size hfx
        refine optionView_flat (h6 _ (List.mem_of_getElem? hfi)) (h7 i _ u hfi hu) hfl ?_
        intro hr
        exact ih i _ u hfi hu x n aa a' hr (hset.2 m hm q x hpl hfx) (by omega)

end JC

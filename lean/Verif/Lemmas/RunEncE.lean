import Verif.Spec.RunEncE
import Verif.Lemmas.RunEnc
import Verif.Lemmas.RunEmbed
import Verif.Lemmas.EmbedEnc
/-!
Lemmas for C86.
-/
namespace JC
open Spec Props

variable {w : Decls} {d : MDecls} {word : GT → Bool → Bool} {env : PEnv} {seen : PSeen}

/-! ### Methods -/

theorem seeP_jsonM (v : DV) (t : GT) (x : Bool) :
    seeP w d word env seen v (.jsonM x) t = .jsonM (if nilReceiver x v then .isNil else d.jsonM t v) (memEmpty d t v) := by
  cases v <;> simp only [seeP, seeLeaf]

theorem seeP_textM (v : DV) (t : GT) (x : Bool) :
    seeP w d word env seen v (.textM x) t = .textM (if nilReceiver x v then .isNil else d.textM t v) (memEmpty d t v) := by
  cases v <;> simp only [seeP, seeLeaf]

theorem seeP_choose {v : DV} {t : GT} {a : Bool} {e : EC} {g : GV} (h : seeP w d word env seen v e t = g) :
    seeP w d word env seen v (goChoose (writeMeths env.ty t) a e) t = answered env.ty d a t v g := by
  unfold goChoose answered
  simp only []
  split
  · rw [seeP_jsonM]; simp only [nilReceiver_eq, memEmpty_eq]
  · split
    · rw [seeP_textM]; simp only [nilReceiver_eq, memEmpty_eq]
    · exact h

/-- flat memory is seen as without embedded structs -/
theorem seeP_flat {v : DV} (hv : flatMem v = true) (e : EC) (t : GT) (cs : CSeen) : seeP w d word env seen v e t = see w d env.ty cs v e t := by
  cases v <;> first | contradiction | (cases e <;> simp only [seeP, see])

theorem seeP_quoted (v : DV) (e : EC) (t : GT) : seeP w d word env seen v (.quoted e) t = .quoted (seeQuoted w d v t e) := by
  cases v <;> simp only [seeP]

theorem seePQ_scalar {t : GT} {i : Bool} (h : goScalar t = some i) (v : DV) (a : Bool) :
    seeP w d word env seen v (.quoted (goKindEnc env.ty t a)) t = .quoted (leafView w v t) := by
  rw [seeP_quoted]
  cases t with
  | special s => rfl
  | basic k m => rfl
  | _ => simp [goScalar] at h

theorem seeP_field {V : DV → GT → Bool → GV} {v : DV} {t : GT} {q a : Bool} (h : seeP w d word env seen v (goEnc env.ty t a) t = V v t a) :
    seeP w d word env seen v (goFieldEnc env.ty a (t, q)) t = optionView w d env.ty V v a (t, q) := by
  cases q with
  | false => cases t <;> simpa [goFieldEnc, optionView] using h
  | true =>
    by_cases hp : ∃ e, t = .ptr e
    · obtain ⟨e, rfl⟩ := hp
      simp only [goFieldEnc, if_true, optionView]
      cases hs : goScalar e with
      | none =>
        have : goQuote (goEnc env.ty (.ptr e) a) = goEnc env.ty (.ptr e) a := by
          simp only [goEnc, goChoose]
          repeat' split
          all_goals first | rfl | (simp only [goQuote, quote_none hs]; rfl)
        rw [this]
        simpa using h
      | some i =>
        simp only [Option.isSome_some, if_true]
        have : goQuote (goEnc env.ty (.ptr e) a) =
            goChoose (writeMeths env.ty (.ptr e)) a (.ptr (goChoose (writeMeths env.ty e) true (.quoted (goKindEnc env.ty e true)))) := by
          rw [goEnc]
          refine goChoose_quote _ a ?_
          rw [← quote_some hs, goQuote]
          split <;> rfl
        rw [this]
        unfold quotePtrView
        refine seeP_choose ?_
        cases v with
        | ptr v =>
          simp only [seeP, GT.elem, quoteView]
          rw [seeP_choose (seePQ_scalar hs v true)]
        | ptrNil => simp only [seeP]
        | _ => simp only [seeP, seeLeaf]
    · have hp' : ∀ e, t ≠ .ptr e := fun e he => hp ⟨e, he⟩
      have hm : optionView w d env.ty V v a (t, true) = if (goScalar t).isSome then quoteView w d env.ty v t a else V v t a := by
        cases t <;> first | exact absurd rfl (hp' _) | simp [optionView]
      rw [hm]
      simp only [goFieldEnc, if_true]
      rw [goQuote_plain hp']
      cases hs : goScalar t with
      | none =>
        rw [quote_none hs]
        simpa using h
      | some i =>
        rw [quote_some hs]
        simp only [Option.isSome_some, if_true, quoteView]
        exact seeP_choose (seePQ_scalar hs v a)

/-! ### Lists -/

theorem seePL_map (e : EC) (t : GT) : ∀ xs : List DV, seePL w d word env seen xs e t = xs.map fun x => seeP w d word env seen x e t
  | [] => by simp [seePL]
  | x :: xs => by simp [seePL, seePL_map e t xs]

theorem seePE_map (ke e : EC) (t : GT) : ∀ es : List (MK × DV),
    seePE w d word env seen es ke e t = es.map fun x => (seeKey w t ke x.1, seeP w d word env seen x.2 e t.elem)
  | [] => by simp [seePE]
  | (k, x) :: es => by simp [seePE, seePE_map ke e t es]

/-! ### Places -/

theorem seeAt_none {xs : List DV} {i : Nat} {f : PField} {path : List Nat} {e : EC} {fr : Bool} (h : xs[i]? = none) :
    seeAt w d word env seen xs i f path e fr = .embNil (word (fieldOn env f path).type (!fr)) := by
  induction xs generalizing i with
  | nil => simp [seeAt]
  | cons x xs ih =>
    cases i with
    | zero => simp at h
    | succ i => simp only [seeAt]; exact ih (by simpa using h)

theorem seeAt_some {xs : List DV} {i : Nat} {f : PField} {path : List Nat} {e : EC} {fr : Bool} {x : DV} (h : xs[i]? = some x) :
    seeAt w d word env seen xs i f path e fr = seeAt w d word env seen [x] 0 f path e fr := by
  induction xs generalizing i with
  | nil => simp at h
  | cons y xs ih =>
    cases i with
    | zero =>
      simp only [List.getElem?_cons_zero, Option.some.injEq] at h
      subst h
      cases path <;> simp only [seeAt]
    | succ i =>
      rw [seeAt]
      exact ih (by simpa using h)

theorem far_via {id : Nat} {p : List Nat} {k : Nat} {f : PField} {via : List Bool} (h : Reaches env id p k f via) :
    ∀ {q : Spec.Place}, place env id p = some q → far q.way = !via.isEmpty := by
  induction h with
  | here id i f hf hs he =>
    intro q hq
    simp only [place, hf, Option.map_some, Option.some.injEq] at hq
    subst hq; rfl
  | there id i f id' ptr p k g via hf hs he hr ih =>
    intro q hq
    obtain ⟨j, p, rfl⟩ : ∃ j p', p = j :: p' := by
      cases p with
      | nil => exact absurd rfl (reaches_ne hr)
      | cons j p => exact ⟨j, p, rfl⟩
    simp only [place, hf, he, Option.map_eq_some_iff] at hq
    obtain ⟨q', h1, rfl⟩ := hq
    cases ptr with
    | true => simp [far]
    | false => simpa [far] using ih h1

theorem found_size : ∀ {hs : List Hop} {i : Nat} {v x : DV}, found hs i v = some x → sizeOf x < sizeOf v
  | [], i, v, x, h => by
    cases v with
    | struct xs =>
      simp only [found, DV.fields] at h
      have := List.sizeOf_lt_of_mem (List.mem_of_getElem? h)
      simp only [DV.struct.sizeOf_spec]; omega
    | _ => simp [found, DV.fields] at h
  | .struct j :: hs, i, v, x, h => by
    cases v with
    | struct xs =>
      simp only [found, DV.fields] at h
      split at h
      · rename_i y hy
        have h1 := found_size h
        have := List.sizeOf_lt_of_mem (List.mem_of_getElem? hy)
        simp only [DV.struct.sizeOf_spec]; omega
      · cases h
    | _ => simp [found, DV.fields] at h
  | .ptr j _ _ :: hs, i, v, x, h => by
    cases v with
    | struct xs =>
      simp only [found, DV.fields] at h
      split at h
      · rename_i y hy
        have h1 := found_size h
        have := List.sizeOf_lt_of_mem (List.mem_of_getElem? hy)
        simp only [DV.struct.sizeOf_spec, DV.ptr.sizeOf_spec] at *; omega
      · cases h
    | _ => simp [found, DV.fields] at h

theorem found_noFields {hs : List Hop} {i : Nat} {v : DV} (h : v.fields = []) : found hs i v = none := by
  cases hs with
  | nil => simp [found, h]
  | cons x hs => cases x <;> simp [found, h]

theorem firstNil_noFields {hs : List Hop} {v : DV} (h : v.fields = []) : firstNil hs v = true := by
  cases hs with
  | nil => simp [firstNil]
  | cons x hs => cases x <;> simp [firstNil, h]

/-- what the codec of a promoted field sees -/
theorem seeAt_place {e : EC} {id : Nat} {p : List Nat} {k : Nat} {g : PField} {via : List Bool} (h : Reaches env id p k g via) :
    ∃ q, place env id p = some q ∧ q.field = g ∧ ∃ i path f, p = i :: path ∧ (env id).fields[i]? = some f ∧ fieldOn env f path = g ∧
      ∀ xs fr, seeAt w d word env seen xs i f path e fr = match found q.way q.idx (.struct xs) with
        | none => .embNil (word g.type (!fr && firstNil q.way (.struct xs)))
        | some x => if fr || far q.way then .emb (seeP w d word env seen x e g.type) (word g.type false) else seeP w d word env seen x e g.type := by
  induction h with
  | here id i f hf hs he =>
    refine ⟨⟨[], i, f⟩, by simp [place, hf], rfl, i, [], f, rfl, hf, rfl, ?_⟩
    intro xs fr
    simp only [found, DV.fields, far, firstNil]
    cases hx : xs[i]? with
    | none => simp [seeAt_none hx, fieldOn]
    | some x => rw [seeAt_some hx]; simp [seeAt]
  | there id i f id' ptr p k g via hf hs he hr ih =>
    obtain ⟨q, h1, h2, j, path, f', rfl, h3, h4, h5⟩ := ih
    obtain ⟨e1, e2⟩ := embeds_embedded he
    have hfa : fieldOn env f (j :: path) = g := by simp only [fieldOn, e1, h3, h4]
    refine ⟨{ q with way := (if ptr then .ptr i f.unexported id' else .struct i) :: q.way }, by simp [place, hf, he, h1], h2, i, j :: path, f, rfl, hf, hfa, ?_⟩
    intro xs fr
    cases ptr with
    | false =>
      simp only [Bool.false_eq_true, if_false, found, DV.fields, far, firstNil]
      cases hx : xs[i]? with
      | none => simp [seeAt_none hx, hfa]
      | some x =>
        rw [seeAt_some hx, seeAt]
        simp only [e1, h3, e2, Bool.false_eq_true, if_false]
        cases x with
        | struct ys => simp only [h5]
        | ptr y =>
          have n1 : found q.way q.idx (.ptr y) = none := found_noFields rfl
          have n2 : firstNil q.way (.ptr y) = true := firstNil_noFields rfl
          simp only [n1, n2, h4]
          cases y <;> simp
        | _ =>
          simp only [h4]
          rw [found_noFields rfl, firstNil_noFields rfl]
          simp
    | true =>
      simp only [if_true, found, DV.fields, far, firstNil]
      cases hx : xs[i]? with
      | none => simp [seeAt_none hx, hfa]
      | some x =>
        rw [seeAt_some hx, seeAt]
        simp only [e1, h3, e2, if_true]
        cases x with
        | ptr y =>
          cases y with
          | struct ys => simp only [h5]; cases found q.way q.idx (.struct ys) <;> simp
          | _ =>
            simp only [h4]
            rw [found_noFields rfl]
            simp
        | _ => simp [h4]

/-! ### Options -/

open Classical in
theorem omitempty_eq (f : PField) : f.omitempty = decide (HasOption f.tag (bs! "omitempty")) := by
  rw [Bool.eq_iff_iff, decide_eq_true_iff, ← splitComma_tail (by decide)]
  unfold PField.omitempty
  simp

/-! ### Values -/

theorem kindS_flat {wd : Option (GT → Bool → Bool)} {mem : Nat → List (Bytes × List Nat)} {v : DV} (hv : flatMem v = true) (n : Nat) (t : GT) (a : Bool) :
    kindS wd w d env mem (n + 1) v t a = kindView w d env.ty v t a := by
  cases v <;> first | contradiction | (cases t <;> simp only [kindS])

theorem filterMap_members {α β γ : Type} {g : α → β} {h : β → Option γ} {f : α → γ} : ∀ (l : List α), (∀ x ∈ l, h (g x) = some (f x)) →
    (l.map g).filterMap h = l.map f
  | [], _ => rfl
  | x :: l, hx => by
    rw [List.map_cons, List.map_cons, List.filterMap_cons_some (hx x (by simp)), filterMap_members l fun y hy => hx y (by simp [hy])]

section
variable {letter : Nat → Bool} {count : Nat} {rank : Nat → Nat} {tree : Nat → List SItem} {mem : Nat → List (Bytes × List Nat)} {T : GT}

theorem seeP_kind (hr : RightEncP env T (codecP letter env count T)) (hc : ClosedP env count T)
    (hd : ∀ id a, Contains env T id a → ∀ f ∈ (env id).fields, Shown f → embeds f = none → NoDurKeys f.type)
    (hl : Layered env.decls count rank) (hp : ∀ id, ∀ f ∈ env.decls id, Plain letter f) (hu : Unfolds letter env.decls tree)
    (ht : ∀ id a, Contains env T id a → Tame (tree id)) (hm : ∀ id a, Contains env T id a → MembersOf (tree id) (mem id)) :
    ∀ (n : Nat) (v : DV) (t : GT) (a : Bool), sizeOf v ≤ n → NoDurKeys t → (∀ x ∈ ctx t a, Contains env T x.1 x.2) →
    seeP w d word env (codecP letter env count T).2 v (goKindEnc env.ty t a) t = kindS (some word) w d env mem n v t a
  | 0, v, _, _, hn, _, _ => by cases v <;> simp at hn
  | n + 1, v, t, a, hn, hk, hx => by
    have ih := seeP_kind hr hc hd hl hp hu ht hm n
    have ih' : ∀ (v : DV) (t : GT) (a : Bool), sizeOf v ≤ n → NoDurKeys t → (∀ x ∈ ctx t a, Contains env T x.1 x.2) →
        seeP w d word env (codecP letter env count T).2 v (goEnc env.ty t a) t = answered env.ty d a t v (kindS (some word) w d env mem n v t a) := by
      intro v t a h1 h2 h3
      rw [goEnc_split]
      exact seeP_choose (ih v t a h1 h2 h3)
    by_cases hv : flatMem v = true
    · rw [seeP_flat hv _ _ (fun _ => none), kindS_flat hv, see_flat hv t a hk]
    · cases v with
      | array xs =>
        cases t with
        | array m e ms =>
          simp only [goKindEnc, seeP, kindS, GT.elem, seePL_map]
          congr 1
          refine List.map_congr_left fun x hxs => ih' x e a ?_ hk hx
          have := List.sizeOf_lt_of_mem hxs
          simp only [DV.array.sizeOf_spec] at hn; omega
        | _ =>
          simp only [goKindEnc, kindS, kindView, leafView]
          repeat' split
          all_goals simp only [seeP, seeLeaf, toGV]
      | slice xs sp =>
        cases t with
        | slice e ms =>
          simp only [goKindEnc, kindS]
          split
          · simp only [seeP, seeLeaf, toGV]
          · simp only [seeP, GT.elem, seePL_map]
            congr 1
            refine List.map_congr_left fun x hxs => ih' x e true ?_ hk hx
            have := List.sizeOf_lt_of_mem hxs
            simp only [DV.slice.sizeOf_spec] at hn; omega
        | _ =>
          simp only [goKindEnc, kindS, kindView, leafView]
          repeat' split
          all_goals simp only [seeP, seeLeaf, toGV]
      | map es =>
        cases t with
        | map k e ms =>
          simp only [goKindEnc, kindS]
          split
          · simp only [seeP, seeLeaf]
          · split
            · simp only [seeP, seeLeaf]
            · rcases goKey_view (w := w) e ms hk.1 with ⟨h1, h2⟩ | ⟨kc, f, h1, h2, h3⟩
              · rw [h1, h2]; simp only [seeP, seeLeaf]
              · rw [h1, h2]
                simp only [seeP, seePE_map, GT.elem]
                congr 1
                refine List.map_congr_left fun x hxs => ?_
                rw [h3]
                congr 1
                refine ih' x.2 e false ?_ hk.2 hx
                have := List.sizeOf_lt_of_mem hxs
                obtain ⟨k, x⟩ := x
                simp only [DV.map.sizeOf_spec, Prod.mk.sizeOf_spec] at *; omega
        | _ =>
          simp only [goKindEnc, kindS, kindView, leafView]
          repeat' split
          all_goals simp only [seeP, seeLeaf, toGV]
      | ptr x =>
        cases t with
        | ptr e =>
          simp only [goKindEnc, seeP, kindS, GT.elem]
          congr 1
          refine ih' x e true ?_ hk hx
          simp only [DV.ptr.sizeOf_spec] at hn; omega
        | _ =>
          simp only [goKindEnc, kindS, kindView, leafView]
          repeat' split
          all_goals simp only [seeP, seeLeaf, toGV]
      | struct xs =>
        cases t with
        | struct id =>
          have hcon : Contains env T id a := hx (id, a) (by simp [ctx])
          obtain ⟨ss, h1, h2⟩ := hr.2 id a hcon
          have hid := contains_lt hc hcon
          have htab := codecP_table hc hl hp hu hid h1
          have hmem := members_eq hid hl hp hu (ht id a hcon) (hm id a hcon)
          rw [← htab, List.map_map] at hmem
          simp only [goKindEnc, seeP, kindS, h1, hmem]
          congr 1
          symm
          refine filterMap_members ss fun s hs => ?_
          obtain ⟨k, f, hre, hco⟩ := h2 s hs
          obtain ⟨hfm, hsh, hem⟩ := reaches_field hre
          have hkc := reaches_contains hre a hcon
          obtain ⟨q, q1, q2, i, path, f0, q3, q4, q5, q6⟩ := seeAt_place (w := w) (d := d) (word := word) (seen := (codecP letter env count T).2) (e := s.codec.1) hre
          have hfar := far_via hre q1
          rw [q3] at q1
          subst q2
          simp only [Function.comp, q1, member, q3, q4, q5, omitempty_eq, q6, Bool.false_or, Bool.not_false, Bool.true_and]
          cases hfo : found q.way q.idx (.struct xs) with
          | none => simp only []
          | some x =>
            have hsz := found_size hfo
            have hval : seeP w d word env (codecP letter env count T).2 x s.codec.1 q.field.type =
                optionView w d env.ty (fun v t a => answered env.ty d a t v (kindS (some word) w d env mem n v t a)) x (a || far q.way) (option q.field) := by
              rw [hco, hfar]
              refine seeP_field (t := q.field.type) ?_
              refine ih' x q.field.type _ (by omega) (hd k _ hkc q.field hfm hsh hem) ?_
              intro y hy
              exact .field hkc hfm hsh hy
            simp only [hval]
        | _ =>
          simp only [goKindEnc, kindS, kindView, leafView]
          repeat' split
          all_goals simp only [seeP, seeLeaf, toGV]
      | _ => exact absurd rfl hv
end

/-! ### What is written of a value -/

theorem prune_answered (env : TyEnv) (a : Bool) (t : GT) (v : DV) (g : GV) : prune (answered env d a t v g) = answered env d a t v (prune g) := by
  unfold answered
  simp only []
  split
  · simp only [prune]
  · split
    · simp only [prune]
    · rfl

theorem answered_nil {env : TyEnv} {a : Bool} {t : GT} {v : DV} {g : GV} (h : ∀ z, g ≠ .embNil z) (z : Bool) : answered env d a t v g ≠ .embNil z := by
  unfold answered
  simp only []
  split
  · simp
  · split
    · simp
    · exact h z

/-- values without parts to prune -/
def whole : GV → Bool
  | .slice _ | .array _ | .map _ | .ptr _ | .struct _ | .emb _ _ | .embNil _ => false
  | _ => true

theorem prune_whole {g : GV} (h : whole g = true) : prune g = g := by
  cases g <;> first | (simp [whole] at h; done) | simp only [prune]

theorem whole_nil {g : GV} (h : whole g = true) (z : Bool) : g ≠ .embNil z := by
  rintro rfl; simp [whole] at h

theorem toGV_special (v : DV) (s : Special) : whole (toGV v s.ty) = true := by
  cases s <;> cases v <;> simp only [Special.ty, toGV] <;> first | rfl | (split <;> rfl)

theorem toGV_basic (v : DV) (k : BasicKind) : whole (toGV v k.ty) = true := by
  cases k <;> cases v <;> simp only [BasicKind.ty, toGV] <;> first | rfl | (split <;> rfl)

theorem leafView_whole (v : DV) (t : GT) : whole (leafView w v t) = true := by
  cases t with
  | special s => exact toGV_special v s
  | basic k m => exact toGV_basic v k
  | ifc m => simp only [leafView]; cases v <;> simp only [toGV] <;> rfl
  | _ => rfl

theorem pruneL_map : ∀ xs : List GV, pruneL xs = xs.map prune
  | [] => by simp [pruneL]
  | x :: xs => by simp [pruneL, pruneL_map xs]

theorem pruneE_map : ∀ es : List (MKey × GV), pruneE es = es.map fun x => (x.1, prune x.2)
  | [] => by simp [pruneE]
  | (k, x) :: es => by simp [pruneE, pruneE_map es]

/-- where nothing is within a value -/
theorem prune_kindView {v : DV} (hv : flatMem v = true) (env : TyEnv) (t : GT) (a : Bool) :
    prune (kindView w d env v t a) = kindView w d env v t a ∧ ∀ z, kindView w d env v t a ≠ .embNil z := by
  have hleaf : ∀ v t, prune (leafView w v t) = leafView w v t ∧ ∀ z, leafView w v t ≠ .embNil z := fun v t =>
    ⟨prune_whole (leafView_whole v t), whole_nil (leafView_whole v t)⟩
  cases v <;> first
    | contradiction
    | (cases t <;> simp only [kindView] <;> first
        | exact hleaf _ _
        | (repeat' split) <;> first
          | exact ⟨rfl, fun z h => by cases h⟩
          | (refine ⟨?_, fun z h => by cases h⟩; simp only [prune]; done)
          | (refine ⟨?_, fun z h => by cases h⟩
             simp only [prune, pruneL_map, List.map_map]
             congr 1
             refine List.map_congr_left fun x _ => ?_
             simp only [Function.comp, prune_answered, (hleaf _ _).1]))

theorem prune_option {V V' : DV → GT → Bool → GV} {x : DV} (h : ∀ t a, prune (V x t a) = V' x t a) (hn : ∀ t a z, V x t a ≠ .embNil z) (env : TyEnv) (a : Bool) (f : GT × Bool) :
    prune (optionView w d env V x a f) = optionView w d env V' x a f ∧ ∀ z, optionView w d env V x a f ≠ .embNil z := by
  have hq : ∀ v t a, prune (quoteView w d env v t a) = quoteView w d env v t a ∧ ∀ z, quoteView w d env v t a ≠ .embNil z := by
    intro v t a
    unfold quoteView
    exact ⟨by rw [prune_answered]; simp only [prune], answered_nil (by simp)⟩
  have hqp : ∀ v e a, prune (quotePtrView w d env v e a) = quotePtrView w d env v e a ∧ ∀ z, quotePtrView w d env v e a ≠ .embNil z := by
    intro v e a
    unfold quotePtrView
    rw [prune_answered]
    cases v with
    | ptr v => exact ⟨by simp only [prune, (hq _ _ _).1], answered_nil (by simp)⟩
    | _ => exact ⟨by simp only [prune], answered_nil (by simp)⟩
  obtain ⟨t, q⟩ := f
  unfold optionView
  split
  · split
    · exact hqp _ _ _
    · exact ⟨h _ _, hn _ _⟩
  · rename_i t' q' hne heq
    split
    · exact hq _ _ _
    · exact ⟨h _ _, hn _ _⟩

theorem pruneF_cons {m : FMeta} {v : GV} (h : ∀ z, v ≠ .embNil z) (fs : List (FMeta × GV)) : pruneF ((m, v) :: fs) = (m, prune v) :: pruneF fs := by
  cases v <;> first | exact absurd rfl (h _) | simp only [pruneF]

theorem pruneF_members {α : Type} {h h' : α → Option (FMeta × GV)} : ∀ (l : List α),
    (∀ x ∈ l, (h x = none ∧ h' x = none) ∨ (∃ m z, h x = some (m, .embNil z) ∧ h' x = none) ∨
      ∃ m g, h x = some (m, g) ∧ (∀ z, g ≠ .embNil z) ∧ h' x = some (m, prune g)) →
    pruneF (l.filterMap h) = l.filterMap h'
  | [], _ => by simp [pruneF]
  | x :: l, hx => by
    have ih := pruneF_members l fun y hy => hx y (by simp [hy])
    rcases hx x (by simp) with ⟨h1, h2⟩ | ⟨m, z, h1, h2⟩ | ⟨m, g, h1, h2, h3⟩
    · rw [List.filterMap_cons_none h1, List.filterMap_cons_none h2, ih]
    · rw [List.filterMap_cons_some h1, List.filterMap_cons_none h2, pruneF, ih]
    · rw [List.filterMap_cons_some h1, List.filterMap_cons_some h3, pruneF_cons h2, ih]

theorem kindS_prune {mem : Nat → List (Bytes × List Nat)} : ∀ (n : Nat) (v : DV) (t : GT) (a : Bool),
    prune (kindS (some word) w d env mem n v t a) = kindS none w d env mem n v t a ∧ ∀ z, kindS (some word) w d env mem n v t a ≠ .embNil z
  | 0, v, t, a => ⟨by simp only [kindS, prune], by simp [kindS]⟩
  | n + 1, v, t, a => by
    have ih := kindS_prune (mem := mem) n
    have ih' : ∀ v t a, prune (answered env.ty d a t v (kindS (some word) w d env mem n v t a)) = answered env.ty d a t v (kindS none w d env mem n v t a) := by
      intro v t a; rw [prune_answered, (ih v t a).1]
    have hleaf : ∀ v t, prune (leafView w v t) = leafView w v t ∧ ∀ z, leafView w v t ≠ .embNil z := fun v t =>
      ⟨prune_whole (leafView_whole v t), whole_nil (leafView_whole v t)⟩
    by_cases hv : flatMem v = true
    · rw [kindS_flat hv, kindS_flat hv]; exact prune_kindView hv env.ty t a
    · cases v with
      | slice xs sp =>
        cases t with
        | slice e ms =>
          simp only [kindS]
          split
          · exact ⟨by simp only [prune], by simp⟩
          · refine ⟨?_, by simp⟩
            simp only [prune, pruneL_map, List.map_map, Function.comp_def, ih']
        | _ => simp only [kindS, kindView]; exact hleaf _ _
      | array xs =>
        cases t with
        | array m e ms =>
          simp only [kindS]
          refine ⟨?_, by simp⟩
          simp only [prune, pruneL_map, List.map_map, Function.comp_def, ih']
        | _ => simp only [kindS, kindView]; exact hleaf _ _
      | map es =>
        cases t with
        | map k e ms =>
          simp only [kindS]
          repeat' split
          · exact ⟨by simp only [toGV, prune], by simp [toGV]⟩
          · exact ⟨by simp only [toGV, prune], by simp [toGV]⟩
          · refine ⟨?_, by simp⟩
            simp only [prune, pruneE_map, List.map_map, Function.comp_def, ih']
          · exact ⟨by simp only [prune], by simp⟩
        | _ => simp only [kindS, kindView]; exact hleaf _ _
      | ptr x =>
        cases t with
        | ptr e => simp only [kindS]; exact ⟨by simp only [prune, ih'], by simp⟩
        | _ => simp only [kindS, kindView]; exact hleaf _ _
      | struct xs =>
        cases t with
        | struct id =>
          simp only [kindS]
          refine ⟨?_, by simp⟩
          simp only [prune]
          congr 1
          refine pruneF_members _ fun m _ => ?_
          cases place env id m.2 with
          | none => exact .inl ⟨rfl, rfl⟩
          | some q =>
            simp only [member]
            cases found q.way q.idx (.struct xs) with
            | none => exact .inr (.inl ⟨_, _, rfl, rfl⟩)
            | some x =>
              obtain ⟨h1, h2⟩ := prune_option (w := w) (d := d) (V := fun v t a => answered env.ty d a t v (kindS (some word) w d env mem n v t a))
                (V' := fun v t a => answered env.ty d a t v (kindS none w d env mem n v t a)) (x := x) (fun t a => ih' x t a)
                (fun t a => answered_nil (ih x t a).2) env.ty (a || far q.way) (option q.field)
              refine .inr (.inr ⟨_, _, rfl, ?_, ?_⟩)
              · intro z
                split
                · simp
                · exact h2 z
              · simp only [Option.some.injEq, Prod.mk.injEq, true_and]
                split
                · simp only [prune, h1]
                · exact h1.symm
        | _ => simp only [kindS, kindView]; exact hleaf _ _
      | _ => exact absurd rfl hv

/-! ### Writing it -/

theorem isEmpty_prune {g : GV} (h : ∀ v z, g ≠ .emb v z) : isEmpty (prune g) = isEmpty g := by
  cases g <;> first
    | exact absurd rfl (h _ _)
    | (simp only [prune]; done)
    | (simp only [prune, isEmpty, pruneL_map, pruneE_map, List.length_map])

theorem neat_tail {f : FMeta × GV} {fs : List (FMeta × GV)} (h : NilsFirst (f :: fs)) : NilsFirst fs := by
  intro i j f' g hi hj hf hg
  have := h (i + 1) (j + 1) f' g (by simpa using hi) (by simpa using hj) hf hg
  omega

theorem neat_head {f : FMeta × GV} {fs : List (FMeta × GV)} (h : NilsFirst (f :: fs)) (hf : Member f) : ∀ g ∈ fs, ¬ Behind g := by
  intro g hg hb
  obtain ⟨j, hj⟩ := List.mem_iff_getElem?.1 hg
  have := h 0 (j + 1) f g (by simp) (by simpa using hj) hf hb
  omega

theorem structLoop_prune (c : Cfg) (start : Nat) : ∀ (fs : List (FMeta × GV)), NilsFirst fs → NeatF c fs → (∀ f ∈ fs, enc c (prune f.2) = enc c f.2) →
    ∀ (n : Nat) (b : Bytes) (d : Int), (n = 0 ∨ ∀ g ∈ fs, ¬ Behind g) →
    structLoop c start n (encF c fs) b d = structLoop c start n (encF c (pruneF fs)) b d
  | [], _, _, _, _, _, _, _ => by simp only [pruneF]
  | (m, v) :: fs, hn, hN, he, n, b, d, hor => by
    have hN' := hN
    simp only [NeatF] at hN'
    have ih := structLoop_prune c start fs (neat_tail hn) hN'.2.2 fun f hf => he f (by simp [hf])
    have hor' : n = 0 ∨ ∀ g ∈ fs, ¬ Behind g := hor.imp id fun h g hg => h g (by simp [hg])
    by_cases hv : ∃ z, v = .embNil z
    · obtain ⟨z, rfl⟩ := hv
      simp only [pruneF, encF, structLoop]
      by_cases ho : m.omitempty = true ∧ isEmpty (.embNil z) = true
      · rw [if_pos ho]; exact ih n b d hor'
      · rw [if_neg ho]
        rcases hor with rfl | hor
        · simp only [enc, ne_eq, not_true_eq_false, if_false, if_true]
          obtain ⟨t2, e2⟩ := structKey_ext c b (doEncodeString c.escapeHTML [] m.name) d
          obtain ⟨t3, e3⟩ : ∃ t, appendPunc c.clrs (b ++ t2) (ch! ':') = b ++ t := by
            cases c.clrs with
            | none => exact ⟨t2 ++ [ch! ':'], by simp [appendPunc]⟩
            | some cl => exact ⟨t2 ++ cl.puncColor (ch! ':') ++ [ch! ':'] ++ ansiReset, by simp [appendPunc]⟩
          obtain ⟨t4, e4, _⟩ := appendByte_extends c (b ++ t3) (ch! ' ')
          rw [e2, e3, e4]
          have : (b ++ t3 ++ t4).take b.length = b := by
            simp only [List.append_assoc]; exact List.take_left
          rw [this]
          exact ih 0 b d (.inl rfl)
        · exact absurd ⟨ho, rfl⟩ (hor (m, .embNil z) (by simp))
    · have hv' : ∀ z, v ≠ .embNil z := fun z h => hv ⟨z, h⟩
      rw [pruneF_cons hv']
      simp only [encF, structLoop]
      have hem : (m.omitempty = true ∧ isEmpty (prune v) = true) ↔ (m.omitempty = true ∧ isEmpty v = true) := by
        by_cases hm : m.omitempty = true
        · by_cases hemb : ∃ g z, v = .emb g z
          · obtain ⟨g, z, rfl⟩ := hemb
            rw [show prune (.emb g z) = prune g by simp only [prune], ← hN'.1 hm g z rfl]
            simp [isEmpty]
          · rw [isEmpty_prune fun g z h => hemb ⟨g, z, h⟩]
        · simp [hm]
      have hev : enc c (prune v) = enc c v := he (m, v) (by simp)
      by_cases ho : m.omitempty = true ∧ isEmpty v = true
      · rw [if_pos ho, if_pos (hem.2 ho)]; exact ih n b d hor'
      · rw [if_neg ho, if_neg (fun h => ho (hem.1 h)), hev]
        split
        · rfl
        · split
          · exact ih n _ _ hor'
          · rfl
        · rename_i b' d' hq
          refine ih (n + 1) _ _ (.inr (neat_head hn ⟨ho, ?_⟩))
          cases hr : isRollback v with
          | false => rfl
          | true =>
            exfalso
            have : ∀ v, isRollback v = true → ∀ b d, enc c v b d = .done b d (some .rollback) := by
              intro v
              induction v using isRollback.induct with
              | case1 z => intro _ b d; simp only [enc]
              | case2 v z ih => intro h b d; simp only [enc]; exact ih (by simpa only [isRollback] using h) b d
              | case3 v h1 h2 =>
                intro h
                unfold isRollback at h
                split at h
                · exact absurd rfl (h1 _)
                · exact absurd rfl (h2 _ _)
                · cases h
            rw [this v hr] at hq
            injection hq with _ _ hq
            cases hq

mutual
theorem enc_prune (c : Cfg) : ∀ g : GV, Neat c g → enc c (prune g) = enc c g
  | .slice xs, h => by
    simp only [Neat] at h
    simp only [prune, enc, encL_prune c xs h]
  | .array xs, h => by
    simp only [Neat] at h
    simp only [prune, enc, encL_prune c xs h]
  | .map es, h => by
    simp only [Neat] at h
    simp only [prune, enc, encE_prune c es h]
  | .ptr v, h => by
    simp only [Neat] at h
    simp only [prune, enc, enc_prune c v h]
  | .struct fs, h => by
    simp only [Neat] at h
    obtain ⟨h1, h2, h3⟩ := h
    funext b d
    simp only [prune, enc, encodeStruct]
    rw [structLoop_prune c b.length fs h1 h3 (encF_prune c fs h3) 0 _ _ (.inl rfl)]
    have e : (if (encF c fs).length > 0 then c.appendByte (appendPunc c.clrs b (ch! '{')) 0x0a else appendPunc c.clrs b (ch! '{')) =
        if (encF c (pruneF fs)).length > 0 then c.appendByte (appendPunc c.clrs b (ch! '{')) 0x0a else appendPunc c.clrs b (ch! '{') := by
      simp only [encF_length]
      rcases h2 with rfl | h2 | h2
      · simp [pruneF]
      · have h4 := List.length_pos_iff.2 h2
        have h5 : fs.length > 0 := by
          cases fs with
          | nil => simp [pruneF] at h2
          | cons => simp
        rw [if_pos h5, if_pos h4]
      · have : ∀ x a, c.appendByte x a = x := by intro x a; simp [Cfg.appendByte, h2]
        simp [this]
    rw [e]
  | .emb v z, h => by
    simp only [Neat] at h
    simp only [prune, enc, enc_prune c v h]
  | .nil, _ | .bool _, _ | .int _, _ | .uint _, _ | .float _, _ | .number _, _ | .string _, _ | .bytesNil, _ | .bytes _, _ | .time _ _, _ | .sliceNil, _
  | .mapNil, _ | .mapSI _, _ | .mapRaw _, _ | .ptrNil, _ | .iface _ _, _ | .rawNil, _ | .raw _, _ | .jsonM _ _, _ | .textM _ _, _ | .quoted _, _
  | .embNil _, _ | .unsupported, _ => by simp only [prune]
theorem encL_prune (c : Cfg) : ∀ xs : List GV, NeatL c xs → encL c (pruneL xs) = encL c xs
  | [], _ => by simp only [pruneL]
  | x :: xs, h => by
    simp only [NeatL] at h
    simp only [pruneL, encL, enc_prune c x h.1, encL_prune c xs h.2]
theorem encE_prune (c : Cfg) : ∀ es : List (MKey × GV), NeatE c es → encE c (pruneE es) = encE c es
  | [], _ => by simp only [pruneE]
  | (k, x) :: es, h => by
    simp only [NeatE] at h
    simp only [pruneE, encE, enc_prune c x h.1, encE_prune c es h.2]
theorem encF_prune (c : Cfg) : ∀ fs : List (FMeta × GV), NeatF c fs → ∀ f ∈ fs, enc c (prune f.2) = enc c f.2
  | [], _, _, hf => by cases hf
  | (m, x) :: fs, h, f, hf => by
    simp only [NeatF] at h
    rcases List.mem_cons.1 hf with rfl | hf
    · exact enc_prune c x h.2.1
    · exact encF_prune c fs h.2.2 f hf
end

/-! ### Embedded pointers that are set -/

theorem neat_whole {cf : Cfg} {g : GV} (h : whole g = true) : Neat cf g := by
  cases g <;> first | (simp [whole] at h; done) | simp only [Neat]

theorem roll_whole {g : GV} (h : whole g = true) : isRollback g = false := by
  cases g <;> first | (simp [whole] at h; done) | rfl

theorem answered_neat {cf : Cfg} {env : TyEnv} {a : Bool} {t : GT} {v : DV} {g : GV} (h : Neat cf g ∧ isRollback g = false) :
    Neat cf (answered env d a t v g) ∧ isRollback (answered env d a t v g) = false := by
  unfold answered
  simp only []
  split
  · exact ⟨by simp only [Neat], rfl⟩
  · split
    · exact ⟨by simp only [Neat], rfl⟩
    · exact h

theorem neatL_all {cf : Cfg} : ∀ {xs : List GV}, (∀ x ∈ xs, Neat cf x) → NeatL cf xs
  | [], _ => by simp only [NeatL]
  | x :: xs, h => by simp only [NeatL]; exact ⟨h x (by simp), neatL_all fun y hy => h y (by simp [hy])⟩

theorem neatE_all {cf : Cfg} : ∀ {es : List (MKey × GV)}, (∀ x ∈ es, Neat cf x.2) → NeatE cf es
  | [], _ => by simp only [NeatE]
  | (k, x) :: es, h => by simp only [NeatE]; exact ⟨h (k, x) (by simp), neatE_all fun y hy => h y (by simp [hy])⟩

theorem neatF_all {cf : Cfg} : ∀ {fs : List (FMeta × GV)}, (∀ f ∈ fs, Neat cf f.2 ∧ (f.1.omitempty = true → ∀ g z, f.2 ≠ .emb g z)) → NeatF cf fs
  | [], _ => by simp only [NeatF]
  | (m, x) :: fs, h => by
    simp only [NeatF]
    exact ⟨fun hm g z e => absurd e ((h (m, x) (by simp)).2 hm g z), (h (m, x) (by simp)).1, neatF_all fun y hy => h y (by simp [hy])⟩

theorem pruneF_length : ∀ {fs : List (FMeta × GV)}, (∀ f ∈ fs, isRollback f.2 = false) → (pruneF fs).length = fs.length
  | [], _ => by simp [pruneF]
  | (m, x) :: fs, h => by
    rw [pruneF_cons (by rintro z rfl; simpa [isRollback] using h (m, .embNil z) (by simp))]
    simp only [List.length_cons, pruneF_length (fs := fs) fun y hy => h y (by simp [hy])]

/-- flat memory has no structs in it -/
theorem neat_kindView {cf : Cfg} {v : DV} (hv : flatMem v = true) (env : TyEnv) (t : GT) (a : Bool) :
    Neat cf (kindView w d env v t a) ∧ isRollback (kindView w d env v t a) = false := by
  have hleaf : ∀ v t, Neat cf (leafView w v t) ∧ isRollback (leafView w v t) = false := fun v t =>
    ⟨neat_whole (leafView_whole v t), roll_whole (leafView_whole v t)⟩
  cases v <;> first
    | contradiction
    | (cases t <;> simp only [kindView] <;> first
        | exact hleaf _ _
        | (repeat' split) <;> first
          | (refine ⟨?_, rfl⟩; simp only [Neat]; done)
          | (refine ⟨?_, rfl⟩
             simp only [Neat]
             refine neatL_all fun x hx => ?_
             obtain ⟨b, _, rfl⟩ := List.mem_map.1 hx
             exact (answered_neat (hleaf _ _)).1))

theorem neat_option {cf : Cfg} {V : DV → GT → Bool → GV} {x : DV} {t : GT} {a : Bool} (h : Neat cf (V x t a) ∧ isRollback (V x t a) = false) (env : TyEnv) (q : Bool) :
    Neat cf (optionView w d env V x a (t, q)) ∧ isRollback (optionView w d env V x a (t, q)) = false := by
  have hq : ∀ v t a, Neat cf (quoteView w d env v t a) ∧ isRollback (quoteView w d env v t a) = false := by
    intro v t a
    unfold quoteView
    exact answered_neat ⟨by simp only [Neat], rfl⟩
  have hqp : ∀ v e a, Neat cf (quotePtrView w d env v e a) ∧ isRollback (quotePtrView w d env v e a) = false := by
    intro v e a
    unfold quotePtrView
    refine answered_neat ?_
    cases v with
    | ptr v => exact ⟨by simp only [Neat]; exact (hq _ _ _).1, rfl⟩
    | _ => exact ⟨by simp only [Neat], rfl⟩
  by_cases hp : (∃ e, t = .ptr e) ∧ q = true
  · obtain ⟨⟨e, rfl⟩, rfl⟩ := hp
    simp only [optionView]
    split
    · exact hqp _ _ _
    · exact h
  · have hm : optionView w d env V x a (t, q) = if q = true ∧ (goScalar t).isSome then quoteView w d env x t a else V x t a := by
      unfold optionView
      split
      · rename_i e heq; cases heq; exact absurd ⟨⟨_, rfl⟩, rfl⟩ hp
      · rename_i t' q' hne heq; cases heq; rfl
    rw [hm]
    split
    · exact hq _ _ _
    · exact h

theorem answered_emb {env : TyEnv} {a : Bool} {t : GT} {v : DV} {g : GV} (h : ∀ x z, g ≠ .emb x z) (x : GV) (z : Bool) : answered env d a t v g ≠ .emb x z := by
  unfold answered
  simp only []
  split
  · simp
  · split
    · simp
    · exact h x z

theorem optionView_emb {V : DV → GT → Bool → GV} {x : DV} (hn : ∀ t a g z, V x t a ≠ .emb g z) (env : TyEnv) (a : Bool) (f : GT × Bool) (g : GV) (z : Bool) :
    optionView w d env V x a f ≠ .emb g z := by
  have hq : ∀ v t a, quoteView w d env v t a ≠ .emb g z := fun v t a => answered_emb (by simp) g z
  have hqp : ∀ v e a, quotePtrView w d env v e a ≠ .emb g z := by
    intro v e a
    unfold quotePtrView
    refine answered_emb ?_ g z
    cases v <;> simp
  obtain ⟨t, q⟩ := f
  unfold optionView
  split
  · split
    · exact hqp _ _ _
    · exact hn _ _ _ _
  · split
    · exact hq _ _ _
    · exact hn _ _ _ _

theorem kindS_emb {word : Option (GT → Bool → Bool)} {mem : Nat → List (Bytes × List Nat)} (n : Nat) (v : DV) (t : GT) (a : Bool) (g : GV) (z : Bool) :
    kindS word w d env mem n v t a ≠ .emb g z := by
  have hleaf : ∀ v t, leafView w v t ≠ .emb g z := by
    intro v t e
    have := leafView_whole (w := w) v t
    rw [e] at this; simp [whole] at this
  cases n with
  | zero => simp [kindS]
  | succ n =>
    by_cases hv : flatMem v = true
    · rw [kindS_flat hv]
      cases v <;> first
        | contradiction
        | (cases t <;> simp only [kindView] <;> first
            | exact hleaf _ _
            | ((repeat' split) <;> (intro h; cases h)))
    · cases v <;> first
        | exact absurd rfl hv
        | (cases t <;> simp only [kindS, kindView] <;> first
            | exact hleaf _ _
            | ((repeat' split) <;> first | (intro h; cases h; done) | simp [toGV]))

theorem settled_neat {cf : Cfg} {mem : Nat → List (Bytes × List Nat)} {t : GT} {v : DV} (h : Settled env mem t v) : ∀ (n : Nat) (a : Bool),
    Neat cf (kindS (some word) w d env mem n v t a) ∧ isRollback (kindS (some word) w d env mem n v t a) = false := by
  have hz : ∀ v t a, Neat cf (kindS (some word) w d env mem 0 v t a) ∧ isRollback (kindS (some word) w d env mem 0 v t a) = false := by
    intro v t a; exact ⟨by simp only [kindS, Neat], by simp [kindS, isRollback]⟩
  induction h with
  | flat hv =>
    rintro (_ | n) a
    · exact hz _ _ _
    · rw [kindS_flat hv]; exact neat_kindView hv env.ty _ a
  | slice _ ih =>
    rintro (_ | n) a
    · exact hz _ _ _
    · simp only [kindS]
      split
      · exact ⟨by simp only [Neat], rfl⟩
      · refine ⟨?_, rfl⟩
        simp only [Neat]
        refine neatL_all fun y hy => ?_
        obtain ⟨x, hx, rfl⟩ := List.mem_map.1 hy
        exact (answered_neat (ih x hx n true)).1
  | array _ ih =>
    rintro (_ | n) a
    · exact hz _ _ _
    · simp only [kindS]
      refine ⟨?_, rfl⟩
      simp only [Neat]
      refine neatL_all fun y hy => ?_
      obtain ⟨x, hx, rfl⟩ := List.mem_map.1 hy
      exact (answered_neat (ih x hx n a)).1
  | map _ ih =>
    rintro (_ | n) a
    · exact hz _ _ _
    · simp only [kindS]
      repeat' split
      · exact ⟨by simp only [toGV, Neat], by simp [toGV, isRollback]⟩
      · exact ⟨by simp only [toGV, Neat], by simp [toGV, isRollback]⟩
      · refine ⟨?_, rfl⟩
        simp only [Neat]
        refine neatE_all fun y hy => ?_
        obtain ⟨x, hx, rfl⟩ := List.mem_map.1 hy
        exact (answered_neat (ih x hx n false)).1
      · exact ⟨by simp only [Neat], rfl⟩
  | ptr _ ih =>
    rintro (_ | n) a
    · exact hz _ _ _
    · simp only [kindS, Neat]
      exact ⟨(answered_neat (ih n true)).1, rfl⟩
  | @struct id xs h1 _ ih =>
    rintro (_ | n) a
    · exact hz _ _ _
    · simp only [kindS]
      refine ⟨?_, rfl⟩
      have key : ∀ f ∈ (mem id).filterMap (fun m =>
          match place env id m.2 with
          | some q => member (some word) w d env.ty (fun v t a => answered env.ty d a t v (kindS (some word) w d env mem n v t a)) m.1 q (.struct xs) a
          | none => none), (Neat cf f.2 ∧ (f.1.omitempty = true → ∀ g z, f.2 ≠ .emb g z)) ∧ isRollback f.2 = false := by
        intro f hf
        obtain ⟨m, hm, hf⟩ := List.mem_filterMap.1 hf
        cases hq : place env id m.2 with
        | none => rw [hq] at hf; cases hf
        | some q =>
          rw [hq] at hf
          obtain ⟨g1, g2⟩ := h1 m hm q hq
          cases hx : found q.way q.idx (.struct xs) with
          | none => exact absurd hx g1
          | some x =>
            simp only [member, hx, Option.some.injEq] at hf
            subst hf
            have hv := neat_option (w := w) (d := d) (V := fun v t a => answered env.ty d a t v (kindS (some word) w d env mem n v t a))
              (answered_neat (d := d) (env := env.ty) (a := a || far q.way) (ih m hm q x hq hx n (a || far q.way))) env.ty (option q.field).2
            have hop : option q.field = (q.field.type, (option q.field).2) := rfl
            rw [← hop] at hv
            simp only []
            by_cases hfar : far q.way = true
            · rw [if_pos hfar]
              refine ⟨⟨by simp only [Neat]; exact hv.1, fun ho => absurd (by simpa using ho) (g2 hfar)⟩, by simp only [isRollback]; exact hv.2⟩
            · rw [if_neg hfar]
              refine ⟨⟨hv.1, fun _ g z e => ?_⟩, hv.2⟩
              have hnot := kindS_emb (word := some word) (w := w) (d := d) (env := env) (mem := mem) n
              exact optionView_emb (fun t a g z => answered_emb (hnot x t a) g z) _ _ _ g z e
      simp only [Neat]
      refine ⟨?_, ?_, neatF_all fun f hf => (key f hf).1⟩
      · intro i j f g _ hj _ hb
        exact absurd hb.2 (by simp [(key g (List.mem_of_getElem? hj)).2])
      · generalize hl : (mem id).filterMap _ = l at key
        cases l with
        | nil => exact .inl rfl
        | cons f l =>
          refine .inr (.inl fun e => ?_)
          have := pruneF_length fun f hf => (key f hf).2
          rw [e] at this
          simp at this

/-! ### Options computed -/

/-- `member` with the options computed. -/
def memberQ (word : Option (GT → Bool → Bool)) (w : Decls) (d : MDecls) (env : TyEnv) (V : DV → GT → Bool → GV) (name : Bytes) (q : Spec.Place) (v : DV) (a : Bool) :
    Option (FMeta × GV) :=
  let m : FMeta := ⟨name, q.field.omitempty⟩
  match found q.way q.idx v, word with
  | none, none => none
  | none, some word => some (m, .embNil (word q.field.type (firstNil q.way v)))
  | some x, none => some (m, optionView w d env V x (a || far q.way) (q.field.type, q.field.quoted))
  | some x, some word =>
    let g := optionView w d env V x (a || far q.way) (q.field.type, q.field.quoted)
    some (m, if far q.way then .emb g (word q.field.type false) else g)

theorem member_memberQ {word : Option (GT → Bool → Bool)} (V : DV → GT → Bool → GV) (name : Bytes) (q : Spec.Place) (v : DV) (a : Bool) :
    member word w d env.ty V name q v a = memberQ word w d env.ty V name q v a := by
  simp only [member, memberQ, option_eq, omitempty_eq]
  cases found q.way q.idx v <;> cases word <;> rfl

/-- `kindS` with the options computed. -/
def kindQ (word : Option (GT → Bool → Bool)) (w : Decls) (d : MDecls) (env : PEnv) (mem : Nat → List (Bytes × List Nat)) : Nat → DV → GT → Bool → GV
  | 0, _, _, _ => .unsupported
  | n + 1, v, t, a =>
    let V : DV → GT → Bool → GV := fun v t a => answered env.ty d a t v (kindQ word w d env mem n v t a)
    match v, t with
    | .slice xs _, .slice e _ => if Spec.goBytes e then .unsupported else .slice (xs.map fun x => V x e true)
    | .array xs, .array _ e _ => .array (xs.map fun x => V x e a)
    | .map es, .map k e _ =>
      if k.kind = .string ∧ e = .special .iface then toGV (.map es) .mapSI
      else if k.kind = .string ∧ e = .special .raw then toGV (.map es) .mapRaw
      else match keyView w k with
        | some key => .map (es.map fun x => (key x.1, V x.2 e false))
        | none => .unsupported
    | .ptr x, .ptr e => .ptr (V x e true)
    | .struct xs, .struct id => .struct ((mem id).filterMap fun m =>
        match place env id m.2 with
        | some q => memberQ word w d env.ty V m.1 q (.struct xs) a
        | none => none)
    | v, t => kindView w d env.ty v t a

theorem kindS_kindQ {word : Option (GT → Bool → Bool)} {mem : Nat → List (Bytes × List Nat)} (n : Nat) : kindS word w d env mem n = kindQ word w d env mem n := by
  induction n with
  | zero => funext v t a; rfl
  | succ n ih =>
    funext v t a
    unfold kindS kindQ
    rw [ih]
    simp only [member_memberQ]
    rfl

end JC

import Verif.Spec.RunEmbed
import Verif.Lemmas.Run
import Verif.Props.Promote
import Verif.Props.Fields
/-!
Lemmas for C85.
-/
namespace JC
open Spec Props

variable {c : DCfg} {dyn : Ty → Dec} {w : Decls} {env : PEnv}

theorem dresMap_map (f g : DV → DV) (r : DRes) : (r.map f).map g = r.map fun x => g (f x) := by
  cases r <;> rfl

theorem embeds_embedded {f : PField} {id : Nat} {ptr : Bool} (h : embeds f = some (id, ptr)) : f.type.embedded = some id ∧ f.type.isPtr = ptr := by
  unfold embeds at h
  split at h
  · split at h
    · rename_i ht; cases h; rw [ht]; exact ⟨rfl, rfl⟩
    · rename_i ht; cases h; rw [ht]; exact ⟨rfl, rfl⟩
    · cases h
  · cases h

theorem reaches_ne {id : Nat} {p : List Nat} {k : Nat} {f : PField} {via : List Bool} (h : Reaches env id p k f via) : p ≠ [] := by
  cases h <;> simp

/-- where a promoted field is, and what its codec does on the whole struct -/
theorem atPath_place {zs : Nat → DV} {dec : GT → Dec} {id : Nat} {p : List Nat} {k : Nat} {f : PField} {via : List Bool} (h : Reaches env id p k f via) :
    ∃ q, place env id p = some q ∧ q.field = f ∧ ∀ b v, atPath env zs dec id p via b v = intoPlace zs q (dec f.type) b v := by
  induction h with
  | here id i f hf hs he =>
    refine ⟨⟨[], i, f⟩, by simp [place, hf], rfl, ?_⟩
    intro b v
    simp only [atPath, hf, intoPlace, barred, look, store]
    rfl
  | there id i f id' ptr p k g via hf hs he hr ih =>
    obtain ⟨q, h1, h2, h3⟩ := ih
    obtain ⟨j, p, rfl⟩ : ∃ j p', p = j :: p' := by
      cases p with
      | nil => exact absurd rfl (reaches_ne hr)
      | cons j p => exact ⟨j, p, rfl⟩
    obtain ⟨e1, e2⟩ := embeds_embedded he
    refine ⟨{ q with way := (if ptr then .ptr i f.unexported id' else .struct i) :: q.way }, by simp [place, hf, he, h1], h2, ?_⟩
    intro b v
    rw [atPath]
    simp only [hf, e1, e2]
    cases ptr with
    | false =>
      simp only [Bool.false_eq_true, if_false, h3, intoPlace, barred, look, store, unbarred]
      split
      · rfl
      · rw [dresMap_map]
    | true =>
      simp only [if_true]
      generalize hv : v.field i = x
      have key : ∀ y, (atPath env zs dec id' (j :: p) via b y).map (fun u => v.setField i (.ptr u)) =
          if barred zs q.way y then .err (v.setField i (.ptr (unbarred zs q.way y))) [] (.other 3)
          else (dec g.type b (look zs q.way q.idx y)).map fun x => v.setField i (.ptr (store zs q.way q.idx x y)) := by
        intro y
        rw [h3, intoPlace]
        split
        · rfl
        · rw [dresMap_map]
      cases x with
      | ptr y => simp only [key, intoPlace, barred, look, store, unbarred, hv]
      | _ =>
        simp only [key, intoPlace, barred, look, store, unbarred, hv]
        cases f.unexported
        · simp only [Bool.false_eq_true, if_false, Bool.false_or]
        · simp only [if_true, Bool.true_or]
    · intro h; cases h

/-! ### The members -/

/-- lists in order with the same elements are the same -/
theorem ordered_unique {α : Type} {r : α → α → Prop} (irr : ∀ x, ¬ r x x) (tr : ∀ x y z, r x y → r y z → r x z) :
    ∀ {l m : List α}, l.Pairwise r → m.Pairwise r → (∀ x, x ∈ l ↔ x ∈ m) → l = m
  | [], [], _, _, _ => rfl
  | [], y :: m, _, _, h => by have := (h y).2 (by simp); simp at this
  | x :: l, [], _, _, h => by have := (h x).1 (by simp); simp at this
  | x :: l, y :: m, hl, hm, h => by
    rw [List.pairwise_cons] at hl hm
    have hxy : x = y := by
      rcases List.mem_cons.1 ((h x).1 (by simp)) with e | e
      · exact e
      · rcases List.mem_cons.1 ((h y).2 (by simp)) with e' | e'
        · exact e'.symm
        · exact absurd (tr _ _ _ (hl.1 y e') (hm.1 x e)) (irr x)
    subst hxy
    congr 1
    refine ordered_unique irr tr hl.2 hm.2 fun z => ?_
    constructor
    · intro hz
      rcases List.mem_cons.1 ((h z).1 (List.mem_cons_of_mem _ hz)) with e | e
      · subst e; exact absurd (hl.1 z hz) (irr z)
      · exact e
    · intro hz
      rcases List.mem_cons.1 ((h z).2 (List.mem_cons_of_mem _ hz)) with e | e
      · subst e; exact absurd (hm.1 z hz) (irr z)
      · exact e

section
variable {letter : Nat → Bool} {count : Nat} {rank : Nat → Nat} {tree : Nat → List SItem}

theorem tree_item (hp : ∀ id, ∀ f ∈ env.decls id, Plain letter f) (hu : Unfolds letter env.decls tree) (id : Nat) :
    tree id = (env.decls id).map (item letter tree) := by
  rw [hu id]
  apply List.map_congr_left
  intro f hf
  exact (item_plain (hp id f hf) tree).symm

/-- Go's members are those of C40 -/
theorem members_eq {id : Nat} (hid : id < count) (hl : Layered env.decls count rank) (hp : ∀ id, ∀ f ∈ env.decls id, Plain letter f)
    (hu : Unfolds letter env.decls tree) (ht : Tame (tree id)) {l : List (Bytes × List Nat)} (hm : MembersOf (tree id) l) :
    l = (structFields letter env.decls count id).map fun s => (s.name, s.path) := by
  refine ordered_unique (r := fun x y => Before x.2 y.2) (fun x => C40_before_irrefl _) (fun x y z => C40_before_trans _ _ _) ?_ ?_ ?_
  · exact List.pairwise_map.1 hm.1
  · have := C40_order (letter := letter) (env := env.decls) (root := id) (show 0 < count by omega)
    rw [List.pairwise_map] at this ⊢
    exact this
  · rintro ⟨n, p⟩
    rw [hm.2, ← C40_choice_partial hid hl hp hu ht]
    simp only [List.mem_map, Prod.mk.injEq]
    constructor
    · rintro ⟨s, h1, h2, h3⟩; exact ⟨s, h1, h3, h2⟩
    · rintro ⟨s, h1, h2, h3⟩; exact ⟨s, h1, h3, h2⟩

/-- the fields of all struct types met are the same as if each had been met first -/
theorem codecP_table {t : GT} (hc : ClosedP env count t) (hl : Layered env.decls count rank) (hp : ∀ id, ∀ f ∈ env.decls id, Plain letter f)
    (hu : Unfolds letter env.decls tree) {id : Nat} (hid : id < count) {ss : List PSField} (hs : (codecP letter env count t).2 id = some (some ss)) :
    ss.map (·.sf) = structFields letter env.decls count id := by
  have hi := tree_item hp hu
  have hb := codecP_base letter env count t
  have hcon := (constructs_built (construct_built hl hi count) [] t.structs (fun _ => none) (fun x => .inr ⟨by simp, .inl rfl⟩) (by
      intro x hx
      refine ⟨?_, by simp⟩
      rw [structs_ctx t false, List.mem_map] at hx
      obtain ⟨y, hy, rfl⟩ := hx
      exact hc.1 y hy) (by unfold unseen; exact Nat.le_trans List.countP_le_length (by simp))).1
  rw [← hb] at hcon
  rw [structFields_tree hl hi hid]
  rcases hcon id with ⟨h, _⟩ | ⟨_, h | h⟩
  · cases h
  · simp [PSeen.base, hs] at h
  · simpa [PSeen.base, hs] using h

/-! ### The struct types that are met -/

theorem contains_lt {t : GT} (hc : ClosedP env count t) {id : Nat} {a : Bool} (h : Contains env t id a) : id < count := by
  induction h with
  | root h => exact hc.1 _ h
  | field _ hf _ hx ih =>
    obtain ⟨d, hx⟩ := ctx_mem hx false
    exact hc.2 _ ih _ hf _ hx

theorem runStructP_eq {t : GT} {z' : NTy → DV} {mem : Nat → List (Bytes × List Nat)} (hb : ∀ t, z' (.base t) = zero t)
    (hr : RightDecP env t (codecP letter env count t)) (hc : ClosedP env count t)
    (hd : ∀ id a, Contains env t id a → ∀ f ∈ (env id).fields, Shown f → embeds f = none → NoDurKeys f.type)
    (hl : Layered env.decls count rank) (hp : ∀ id, ∀ f ∈ env.decls id, Plain letter f) (hu : Unfolds letter env.decls tree)
    (ht : ∀ id a, Contains env t id a → Tame (tree id)) (hm : ∀ id a, Contains env t id a → MembersOf (tree id) (mem id)) :
    ∀ (n id : Nat) (a : Bool), Contains env t id a →
    runStructP c dyn w env (codecP letter env count t).2 (fun t => z' (reading w env.ty t)) (fun id => z' (.ref id)) n id = structS c dyn w env mem z' n id
  | 0, _, _, _ => rfl
  | n + 1, id, a, hcon => by
    obtain ⟨ss, h1, h2⟩ := hr.2 id a hcon
    have hid := contains_lt hc hcon
    have htab := codecP_table hc hl hp hu hid h1
    have hmem := members_eq hid hl hp hu (ht id a hcon) (hm id a hcon)
    rw [← htab, List.map_map] at hmem
    rw [runStructP, structS, h1, hmem]
    simp only [List.map_map]
    congr 1
    refine List.map_congr_left fun s hs => ?_
    obtain ⟨k, f, hre, hco⟩ := h2 s hs
    obtain ⟨hfm, hsh, hem⟩ := reaches_field hre
    have hk := reaches_contains hre a hcon
    obtain ⟨q, q1, q2, q3⟩ := atPath_place (zs := fun id => z' (.ref id))
      (dec := run c dyn w (runStructP c dyn w env (codecP letter env count t).2 (fun t => z' (reading w env.ty t)) (fun id => z' (.ref id)) n)
        (fun t => z' (reading w env.ty t)) s.codec.2) hre
    simp only [Function.comp]
    rw [q1]
    simp only []
    funext b v
    rw [q3, q2]
    congr 1
    rw [hco]
    refine run_field (f := option f) (fun _ => rfl) hb (a || !s.via.isEmpty) (hd k _ hk f hfm hsh hem) ?_
    intro x hx
    exact runStructP_eq hb hr hc hd hl hp hu ht hm n x.1 x.2 (.field hk hfm hsh hx)
end

/-- `structS` with the option computed. -/
def structQ (c : DCfg) (dyn : Ty → Dec) (w : Decls) (env : PEnv) (mem : Nat → List (Bytes × List Nat)) (z : NTy → DV) : Nat → Nat → Dec
  | 0, _ => fun _ _ => .crash .fuel
  | n + 1, id => decodeStructV c ((mem id).map (·.1)) ((mem id).map fun m =>
      match place env id m.2 with
      | some q => intoPlace (fun id => z (.ref id)) q (decWith c dyn (structQ c dyn w env mem z n) z (fieldReading w env.ty (q.field.type, q.field.quoted)))
      | none => fun _ _ => .crash .panic)

theorem structS_structQ {mem : Nat → List (Bytes × List Nat)} {z : NTy → DV} (n : Nat) : structS c dyn w env mem z n = structQ c dyn w env mem z n := by
  induction n with
  | zero => rfl
  | succ n ih =>
    funext id
    rw [structS, structQ, ih]
    congr 1
    refine List.map_congr_left fun m _ => ?_
    cases place env id m.2 with
    | none => rfl
    | some q => simp only [option_eq]

end JC

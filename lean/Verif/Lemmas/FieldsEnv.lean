import Verif.Lemmas.FieldsTree
/-! `constructStructType` over a set of types. -/
namespace JC
open Spec

/-! ### Facts about every list of fields -/

def SeenAll (P : List SField → Prop) (seen : Seen) : Prop := ∀ x fs, seen x = some fs → P fs

theorem SeenAll.set {P : List SField → Prop} {seen : Seen} (h : SeenAll P seen) {id : Nat} {fs : List SField} (hf : P fs) : SeenAll P (seen.set id fs) := by
  intro x gs hx
  unfold Seen.set at hx
  split at hx
  · cases hx; exact hf
  · exact h x gs hx

/-- All embedded structs have the property. -/
def SubsAll (P : List SField → Prop) (es : List FEntry) : Prop := ∀ subs, FEntry.embed subs ∈ es → P subs

section
variable {letter : Nat → Bool} {env : Nat → List FieldDecl} {P : List SField → Prop}

theorem constructs_all {n : Nat} (hc : ∀ id seen, SeenAll P seen → SeenAll P (construct letter env n id seen)) :
    ∀ ids seen, SeenAll P seen → SeenAll P (constructs (construct letter env n) ids seen)
  | [], seen, h => by rw [constructs]; exact h
  | id :: ids, seen, h => by rw [constructs]; exact constructs_all hc ids _ (hc id seen h)

/-- The entry of a field has the shape of the field. -/
def Fits (letter : Nat → Bool) (f : FieldDecl) (e : FEntry) : Prop :=
  match classify letter f with
  | .skip => e = .skip
  | .direct n t => e = .direct n t
  | .embed _ => ∃ subs, e = .embed subs

inductive AllFit (letter : Nat → Bool) : List FieldDecl → List FEntry → Prop
  | nil : AllFit letter [] []
  | cons {f : FieldDecl} {e : FEntry} {fs : List FieldDecl} {es : List FEntry} : Fits letter f e → AllFit letter fs es → AllFit letter (f :: fs) (e :: es)

theorem AllFit.direct {fs : List FieldDecl} {es : List FEntry} (h : AllFit letter fs es) : ∀ (i : Nat) (n : Bytes) (t : Bool),
    es[i]? = some (.direct n t) ↔ ∃ f, fs[i]? = some f ∧ classify letter f = .direct n t := by
  induction h with
  | nil => simp
  | @cons f e fs es hf _ ih =>
    intro i n t
    cases i with
    | succ i => simpa using ih i n t
    | zero =>
      simp only [List.getElem?_cons_zero, Option.some.injEq, exists_eq_left']
      unfold Fits at hf
      cases hc : classify letter f with
      | skip => rw [hc] at hf; simp_all
      | direct m u => rw [hc] at hf; simp_all
      | embed id => rw [hc] at hf; obtain ⟨subs, hf⟩ := hf; simp [hf]

theorem visit_all {n : Nat} (h0 : P []) (hc : ∀ id seen, SeenAll P seen → SeenAll P (construct letter env n id seen)) :
    ∀ fs seen, SeenAll P seen → SubsAll P (visit letter (construct letter env n) fs seen).1 ∧ SeenAll P (visit letter (construct letter env n) fs seen).2 ∧
      AllFit letter fs (visit letter (construct letter env n) fs seen).1
  | [], seen, h => by rw [visit]; exact ⟨by simp [SubsAll], h, .nil⟩
  | f :: fs, seen, h => by
    rw [visit]
    cases hcl : classify letter f with
    | skip =>
      have ih := visit_all h0 hc fs seen h
      refine ⟨?_, ih.2.1, .cons (by simp [Fits, hcl]) ih.2.2⟩
      intro subs hs
      simp only [List.mem_cons, reduceCtorEq, false_or] at hs
      exact ih.1 subs hs
    | direct name isTag =>
      have ih := visit_all h0 hc fs _ (constructs_all hc f.kind.refs seen h)
      refine ⟨?_, ih.2.1, .cons (by simp [Fits, hcl]) ih.2.2⟩
      intro subs hs
      simp only [List.mem_cons, reduceCtorEq, false_or] at hs
      exact ih.1 subs hs
    | embed id =>
      have h1 := hc id seen h
      have ih := visit_all h0 hc fs _ h1
      refine ⟨?_, ih.2.1, .cons (by simp [Fits, hcl]) ih.2.2⟩
      intro subs hs
      simp only [List.mem_cons, FEntry.embed.injEq] at hs
      rcases hs with rfl | hs
      · cases hx : construct letter env n id seen id with
        | none => exact h0
        | some gs => exact h1 id gs hx
      · exact ih.1 subs hs

theorem construct_all (h0 : P []) (hr : ∀ es, SubsAll P es → P (resolve es)) : ∀ n id seen, SeenAll P seen → SeenAll P (construct letter env n id seen)
  | 0, id, seen, h => by rw [construct]; exact h
  | n + 1, id, seen, h => by
    rw [construct]
    cases hs : seen id with
    | some fs => exact h
    | none =>
      have := visit_all h0 (construct_all h0 hr n) (env id) (seen.set id []) (h.set h0)
      exact this.2.1.set (hr _ this.1)

/-- In order, and without empty paths. -/
def Sound (fs : List SField) : Prop := InOrder fs ∧ ∀ s ∈ fs, s.path ≠ []

theorem sound_resolve {es : List FEntry} (h : SubsAll Sound es) : Sound (resolve es) := by
  refine ⟨resolve_inOrder fun subs hs => (h subs hs).1, fun s hs => ?_⟩
  rw [resolve_flat] at hs
  obtain ⟨k, p, _, hp⟩ := flat_head hs
  simp [hp]

/-- The fields of any type are resolved from entries that fit its declarations. -/
theorem structFields_es {count root : Nat} (hc : 0 < count) : ∃ es, structFields letter env count root = resolve es ∧
    SubsAll Sound es ∧ AllFit letter (env root) es := by
  obtain ⟨n, rfl⟩ : ∃ n, count = n + 1 := ⟨count - 1, by omega⟩
  have h0 : Sound [] := ⟨List.Pairwise.nil, by simp⟩
  have hv := visit_all (letter := letter) (env := env) (n := n) h0 (construct_all h0 (fun _ => sound_resolve) n) (env root)
    (Seen.set (fun _ => none) root []) (SeenAll.set (by intro x fs h; cases h) h0)
  refine ⟨_, ?_, hv.1, hv.2.2⟩
  simp [structFields, construct, Seen.set]

end

section
variable {letter : Nat → Bool} {env : Nat → List FieldDecl}

/-! ### Types that do not embed themselves -/

/-- The treatment of a field by the model. -/
def item (letter : Nat → Bool) (tree : Nat → List SItem) (f : FieldDecl) : SItem :=
  match classify letter f with
  | .skip => .skip
  | .direct n t => .direct n t
  | .embed id => .embed (tree id)

/-- Types under construction have no fields yet, all others seen have all of theirs. -/
def SInv (tree : Nat → List SItem) (stack : List Nat) (seen : Seen) : Prop :=
  ∀ x, x ∈ stack ∧ seen x = some [] ∨ x ∉ stack ∧ (seen x = none ∨ seen x = some (resolve (entL (tree x))))

/-- Nothing seen is lost. -/
def SMono (s s' : Seen) : Prop := ∀ x, s x ≠ none → s' x = s x

theorem SMono.trans {a b c : Seen} (h1 : SMono a b) (h2 : SMono b c) : SMono a c := by
  intro x hx
  have := h1 x hx
  rw [h2 x (by rw [this]; exact hx), this]

/-- The types not seen yet. -/
def unseen (count : Nat) (s : Seen) : Nat := (List.range count).countP fun x => (s x).isNone

theorem unseen_mono {count : Nat} {s s' : Seen} (h : SMono s s') : unseen count s' ≤ unseen count s := by
  apply List.countP_mono_left
  intro x _ hx
  cases hs : s x with
  | none => rfl
  | some fs => rw [h x (by simp [hs]), hs] at hx; simp at hx

theorem countP_lt {α : Type} {p q : α → Bool} : ∀ {l : List α}, (∀ x ∈ l, p x = true → q x = true) → (∃ x ∈ l, q x = true ∧ p x = false) → l.countP p < l.countP q
  | [], _, h => by simp at h
  | x :: l, h1, h2 => by
    have hle : l.countP p ≤ l.countP q := List.countP_mono_left fun y hy => h1 y (List.mem_cons_of_mem _ hy)
    obtain ⟨y, hy, hq, hp⟩ := h2
    rcases List.mem_cons.1 hy with rfl | hy
    · rw [List.countP_cons_of_pos hq, List.countP_cons_of_neg (by simp [hp])]; omega
    · have ih := countP_lt (fun z hz => h1 z (List.mem_cons_of_mem _ hz)) ⟨y, hy, hq, hp⟩
      rw [List.countP_cons, List.countP_cons]
      have := h1 x List.mem_cons_self
      cases hpx : p x <;> simp_all <;> omega

theorem unseen_set {count id : Nat} {s : Seen} (hid : id < count) (hs : s id = none) (fs : List SField) : unseen count (s.set id fs) < unseen count s := by
  apply countP_lt
  · intro x _ hx
    unfold Seen.set at hx
    split at hx
    · simp at hx
    · exact hx
  · exact ⟨id, by simpa using hid, by simp [hs], by simp [Seen.set]⟩

variable {count : Nat} {rank : Nat → Nat} {tree : Nat → List SItem}

def Built (letter : Nat → Bool) (env : Nat → List FieldDecl) (count : Nat) (rank : Nat → Nat) (tree : Nat → List SItem) (n : Nat) : Prop :=
  ∀ id seen stack, SInv tree stack seen → (∀ s ∈ stack, rank id ≤ rank s) → id < count → unseen count seen ≤ n →
    SInv tree stack (construct letter env n id seen) ∧ SMono seen (construct letter env n id seen) ∧ construct letter env n id seen id ≠ none

theorem constructs_built {n : Nat} (hc : Built letter env count rank tree n) (stack : List Nat) :
    ∀ ids seen, SInv tree stack seen → (∀ id ∈ ids, id < count ∧ ∀ s ∈ stack, rank id ≤ rank s) → unseen count seen ≤ n →
      SInv tree stack (constructs (construct letter env n) ids seen) ∧ SMono seen (constructs (construct letter env n) ids seen)
  | [], seen, h, _, _ => by rw [constructs]; exact ⟨h, fun _ _ => rfl⟩
  | id :: ids, seen, h, hr, hu => by
    rw [constructs]
    have h0 := hr id List.mem_cons_self
    obtain ⟨h1, h2, _⟩ := hc id seen stack h h0.2 h0.1 hu
    obtain ⟨h3, h4⟩ := constructs_built hc stack ids _ h1 (fun x hx => hr x (List.mem_cons_of_mem _ hx)) (Nat.le_trans (unseen_mono h2) hu)
    exact ⟨h3, h2.trans h4⟩

theorem classify_embed {f : FieldDecl} {id : Nat} (h : classify letter f = .embed id) : f.anonymous = true ∧ (f.kind = .struct id ∨ f.kind = .ptr id) := by
  cases hk : f.kind <;> cases ha : f.anonymous <;> simp only [classify, hk, ha, FKind.embeds, Bool.false_and, Bool.true_and] at h <;>
    (repeat' split at h) <;> simp_all

theorem visit_built {n : Nat} (hc : Built letter env count rank tree n) (hl : Layered env count rank) (cur : Nat) (stack : List Nat)
    (hst : ∀ s ∈ stack, rank cur ≤ rank s) :
    ∀ fs, (∀ f ∈ fs, f ∈ env cur) → ∀ seen, SInv tree stack seen → unseen count seen ≤ n →
      (visit letter (construct letter env n) fs seen).1 = entL (fs.map (item letter tree)) ∧
      SInv tree stack (visit letter (construct letter env n) fs seen).2 ∧ SMono seen (visit letter (construct letter env n) fs seen).2
  | [], _, seen, h, _ => by rw [visit]; exact ⟨by simp [entL], h, fun _ _ => rfl⟩
  | f :: fs, hmem, seen, h, hu => by
    have hf := hmem f List.mem_cons_self
    have hmem' : ∀ f ∈ fs, f ∈ env cur := fun g hg => hmem g (List.mem_cons_of_mem _ hg)
    rw [visit]
    cases hcl : classify letter f with
    | skip =>
      obtain ⟨h1, h2, h3⟩ := visit_built hc hl cur stack hst fs hmem' seen h hu
      simp only [List.map_cons, entL, item, hcl, entI, h1]
      exact ⟨trivial, h2, h3⟩
    | direct name isTag =>
      obtain ⟨a1, a2⟩ := constructs_built hc stack f.kind.refs seen h
        (fun id hid => ⟨hl.closed cur f hf id hid, fun s hs => Nat.le_trans (hl.field cur f hf id hid) (hst s hs)⟩) hu
      obtain ⟨h1, h2, h3⟩ := visit_built hc hl cur stack hst fs hmem' _ a1 (Nat.le_trans (unseen_mono a2) hu)
      simp only [List.map_cons, entL, item, hcl, entI, h1]
      exact ⟨trivial, h2, a2.trans h3⟩
    | embed id =>
      obtain ⟨ha, hk⟩ := classify_embed hcl
      have href : id ∈ f.kind.refs := by rcases hk with hk | hk <;> simp [hk, FKind.refs]
      have hrank := hl.embed cur f hf ha id hk
      obtain ⟨a1, a2, a3⟩ := hc id seen stack h (fun s hs => by have := hst s hs; omega) (hl.closed cur f hf id href) hu
      obtain ⟨h1, h2, h3⟩ := visit_built hc hl cur stack hst fs hmem' _ a1 (Nat.le_trans (unseen_mono a2) hu)
      have hval : construct letter env n id seen id = some (resolve (entL (tree id))) := by
        rcases a1 id with ⟨h, _⟩ | ⟨_, h | h⟩
        · have := hst id h; omega
        · exact absurd h a3
        · exact h
      simp only [List.map_cons, entL, item, hcl, entI, h1, hval, Option.getD_some]
      exact ⟨trivial, h2, a2.trans h3⟩

theorem construct_built (hl : Layered env count rank) (ht : ∀ id, tree id = (env id).map (item letter tree)) :
    ∀ n, Built letter env count rank tree n
  | 0 => by
    intro id seen stack h hst hid hu
    rw [construct]
    refine ⟨h, fun _ _ => rfl, fun hn => ?_⟩
    have := unseen_set hid hn []
    omega
  | n + 1 => by
    intro id seen stack h hst hid hu
    rw [construct]
    cases hs : seen id with
    | some fs => exact ⟨h, fun _ _ => rfl, by simp [hs]⟩
    | none =>
      have hu' := unseen_set hid hs []
      have hinv : SInv tree (id :: stack) (seen.set id []) := by
        intro x
        by_cases hx : x = id
        · subst hx; exact .inl ⟨List.mem_cons_self, by simp [Seen.set]⟩
        · simp only [Seen.set, hx, if_false, List.mem_cons, false_or]
          exact h x
      obtain ⟨h1, h2, h3⟩ := visit_built (construct_built hl ht n) hl id (id :: stack)
        (by intro s hs'; rcases List.mem_cons.1 hs' with rfl | hs'; exact Nat.le_refl _; exact hst s hs')
        (env id) (fun _ hf => hf) (seen.set id []) hinv (by omega)
      refine ⟨?_, ?_, by simp [Seen.set]⟩
      · intro x
        by_cases hx : x = id
        · subst hx
          rcases h x with ⟨_, h4⟩ | ⟨hm, _⟩
          · rw [hs] at h4; cases h4
          · right
            refine ⟨hm, .inr ?_⟩
            simp only [Seen.set, if_true, h1, ← ht]
        · have := h2 x
          simp only [Seen.set, hx, if_false]
          simpa only [List.mem_cons, hx, false_or] using this
      · intro x hx
        have hne : x ≠ id := by rintro rfl; exact hx hs
        simp only [Seen.set, hne, if_false]
        rw [h3 x (by simp only [Seen.set, hne, if_false]; exact hx)]
        simp only [Seen.set, hne, if_false]

/-- The fields of a type that does not embed itself. -/
theorem structFields_tree (hl : Layered env count rank) (ht : ∀ id, tree id = (env id).map (item letter tree)) {root : Nat} (hr : root < count) :
    structFields letter env count root = resolve (entL (tree root)) := by
  obtain ⟨h1, _, h3⟩ := construct_built hl ht count root (fun _ => none) [] (fun x => .inr ⟨by simp, .inl rfl⟩) (by simp) hr
    (by unfold unseen; exact Nat.le_trans List.countP_le_length (by simp))
  unfold structFields
  rcases h1 root with ⟨h, _⟩ | ⟨_, h | h⟩
  · cases h
  · exact absurd h h3
  · rw [h]; rfl

/-! ### The treatment of one field -/

theorem splitComma_ne : ∀ t, splitComma t ≠ []
  | [] => by simp [splitComma]
  | c :: t => by
    unfold splitComma
    split
    · simp
    · split <;> simp

theorem splitComma_head : ∀ t, (splitComma t).headD [] = tagText t
  | [] => rfl
  | c :: t => by
    have ih := splitComma_head t
    have hne := splitComma_ne t
    unfold splitComma
    unfold tagText at *
    cases hs : splitComma t with
    | nil => exact absurd hs hne
    | cons p ps =>
      rw [hs] at ih
      simp only [List.headD_cons] at ih
      by_cases hc : c = ch! ','
      · simp [hc]
      · simp [hc, ih]

theorem splitComma_one : ∀ t, (splitComma t).length = 1 ↔ ch! ',' ∉ t
  | [] => by simp [splitComma]
  | c :: t => by
    have ih := splitComma_one t
    have hne := splitComma_ne t
    unfold splitComma
    cases hs : splitComma t with
    | nil => exact absurd hs hne
    | cons p ps =>
      rw [hs] at ih
      by_cases hc : c = ch! ','
      · simp [hc]
      · simp only [hc, if_false, List.mem_cons]
        rw [show ((c :: p) :: ps).length = (p :: ps).length from rfl, ih]
        constructor
        · rintro h (e | e)
          · exact hc e.symm
          · exact h e
        · exact fun h e => h (.inr e)

theorem tagText_all : ∀ {t : Bytes}, ch! ',' ∉ t → tagText t = t
  | [], _ => rfl
  | c :: t, h => by
    simp only [List.mem_cons, not_or] at h
    have ih := tagText_all h.2
    unfold tagText at *
    rw [List.takeWhile_cons_of_pos (by simpa using fun e => h.1 e.symm), ih]

theorem ignored_iff {t : Bytes} : tagText t = bs! "-" ∧ (splitComma t).length = 1 ↔ t = bs! "-" := by
  rw [splitComma_one]
  constructor
  · rintro ⟨h1, h2⟩
    rw [← tagText_all h2, h1]
  · rintro rfl
    exact ⟨by decide, by decide⟩

/-- The unfolding of the types, as deep as their rank. -/
noncomputable def unfoldTo (letter : Nat → Bool) (env : Nat → List FieldDecl) : Nat → Nat → List SItem
  | 0, _ => []
  | k + 1, id => (env id).map (goItem letter (unfoldTo letter env k))

theorem goItem_congr {t u : Nat → List SItem} {f : FieldDecl} (h : f.anonymous = true → ∀ id, f.kind = .struct id ∨ f.kind = .ptr id → t id = u id) :
    goItem letter t f = goItem letter u f := by
  cases ha : f.anonymous with
  | false => simp [goItem, ha]
  | true =>
    cases hk : f.kind with
    | struct id => simp [goItem, hk, h ha id (.inl hk)]
    | ptr id => simp [goItem, hk, h ha id (.inr hk)]
    | other r => simp [goItem, hk]

theorem unfoldTo_stable (hl : Layered env count rank) : ∀ k id, rank id < k → unfoldTo letter env k id = unfoldTo letter env (rank id + 1) id
  | 0, id, h => by omega
  | k + 1, id, h => by
    simp only [unfoldTo]
    apply List.map_congr_left
    intro f hf
    apply goItem_congr
    intro ha r hr
    have hlt := hl.embed id f hf ha r hr
    rw [unfoldTo_stable hl k r (by omega)]
    by_cases hk : rank id = k
    · rw [hk, unfoldTo_stable hl k r (by omega)]
    · exact (unfoldTo_stable hl (rank id) r hlt).symm
termination_by k => k
decreasing_by all_goals omega

theorem exists_unfold (hl : Layered env count rank) : ∃ tree, Unfolds letter env tree := by
  refine ⟨fun id => unfoldTo letter env (rank id + 1) id, fun id => ?_⟩
  show unfoldTo letter env (rank id + 1) id = _
  rw [unfoldTo]
  apply List.map_congr_left
  intro f hf
  apply goItem_congr
  intro ha r hr
  exact unfoldTo_stable hl _ r (hl.embed id f hf ha r hr)

theorem valid_of_good {name : Bytes} (h : GoodName letter name) (h2 : (ch! ';').toNat ∉ runes name) : isValidTag letter name = true := by
  unfold isValidTag
  rw [if_neg h.1, List.all_eq_true]
  intro r hr
  rw [Bool.or_eq_true]
  rcases h.2 r hr with h3 | h3
  · exact .inr h3
  · left
    have hr59 : r ≠ (ch! ';').toNat := by rintro rfl; exact h2 hr
    have key : ∀ m ∈ (bs! "!#$%&()*+-./:;<=>?@[]^_{|}~ ").map (·.toNat), m ≠ (ch! ';').toNat → tagPunct.any (fun p => p.toNat == m) = true := by decide +kernel
    exact key r h3 hr59

theorem good_of_valid {name : Bytes} (h : isValidTag letter name = true) : GoodName letter name := by
  unfold isValidTag at h
  split at h
  · cases h
  · rename_i hne
    refine ⟨hne, fun r hr => ?_⟩
    rw [List.all_eq_true] at h
    have := h r hr
    rw [Bool.or_eq_true, List.any_eq_true] at this
    rcases this with ⟨c, hc, e⟩ | h3
    · right
      have key : ∀ c ∈ tagPunct, c.toNat ∈ (bs! "!#$%&()*+-./:;<=>?@[]^_{|}~ ").map (·.toNat) := by decide +kernel
      have := key c hc
      simp only [beq_iff_eq] at e
      rwa [e] at this
    · exact .inl h3

/-- The name of a field that is not embedded is the one that Go gives it, whether the tag is valid or
not. -/
theorem classify_name {f : FieldDecl} (ha : f.anonymous = false) (hg : f.goName ≠ bs! "-") (hsc : (ch! ';').toNat ∉ runes (tagText f.tag))
    (tree : Nat → List SItem) (n : Bytes) : (∃ t, goItem letter tree f = .direct n t) ↔ ∃ t, classify letter f = .direct n t := by
  have hign := ignored_iff (t := f.tag)
  unfold classify goItem
  simp only [splitComma_head, ha]
  cases hu : f.unexported
  · by_cases hd : f.tag = bs! "-"
    · have h2 := hign.2 hd
      have hne : tagText f.tag ≠ [] := by rw [h2.1]; decide
      simp [hd, hne, h2, show tagText [45] = [45] from rfl, show (splitComma [45]).length = 1 from rfl]
    · have hd2 : ¬ (tagText f.tag = bs! "-" ∧ (splitComma f.tag).length = 1) := fun hh => hd (hign.1 hh)
      by_cases hv : isValidTag letter (tagText f.tag) = true
      · have hgood := good_of_valid hv
        simp [hd, hgood, hgood.1, hv, hd2]
      · have hng : ¬ GoodName letter (tagText f.tag) := fun hh => hv (valid_of_good hh hsc)
        by_cases he : tagText f.tag = []
        · rw [he] at hng
          simp [hd, hng, he, hg]
        · simp [hd, hng, he, hv, hd2]
  · simp [ha]

theorem item_plain {f : FieldDecl} (h : Plain letter f) (tree : Nat → List SItem) : item letter tree f = goItem letter tree f := by
  obtain ⟨hg, hname, hun⟩ := h
  have hign := ignored_iff (t := f.tag)
  unfold item classify
  simp only [splitComma_head]
  rcases hname with hname | ⟨hname, hsc⟩
  · -- no name in the tag
    have hng : ¬ GoodName letter [] := fun hh => hh.1 rfl
    have hne : f.tag ≠ bs! "-" := by
      intro e
      rw [e] at hname
      exact absurd hname (by decide)
    unfold goItem
    rw [hname]
    simp only [if_neg hng, if_neg hne, ne_eq, not_true_eq_false, decide_false, if_false]
    rw [if_neg (fun hh : f.goName = bs! "-" ∧ _ => hg hh.1)]
    cases hu : f.unexported <;> cases ha : f.anonymous <;> cases hk : f.kind <;>
      simp [FKind.embeds]
  · have hv := valid_of_good hname hsc
    have hnn := hname.1
    unfold goItem
    simp only [ne_eq, hnn, not_false_eq_true, decide_true, if_true, hv]
    rw [if_pos hname]
    by_cases hd : f.tag = bs! "-"
    · rw [if_pos (hign.2 hd), if_pos hd]
      simp
    · rw [if_neg (fun hh => hd (hign.1 hh)), if_neg hd]
      have hoth : f.unexported = true → f.anonymous = true → ∀ refs, f.kind ≠ .other refs :=
        fun h1 h2 refs h3 => hun ⟨h1, h2, ⟨refs, h3⟩, hnn⟩
      cases hu : f.unexported <;> cases ha : f.anonymous <;> simp
      · exact fun x hx => absurd hx (hoth hu ha x)

end

end JC

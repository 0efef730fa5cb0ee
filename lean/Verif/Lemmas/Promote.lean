import Verif.Spec.Promote
import Verif.Lemmas.Codec
import Verif.Lemmas.FieldsEnv
/-! Codecs of promoted fields. -/
namespace JC
open Spec

/-! ### Tags -/

theorem splitComma_first {o : Bytes} (ho : ch! ',' ∉ o) (t : Bytes) :
    (splitComma t).head? = some o ↔ ∃ b, t = o ++ b ∧ (b = [] ∨ ∃ b', b = ch! ',' :: b') := by
  have h1 : (splitComma t).head? = some (tagText t) := by
    have := splitComma_head t
    cases h : splitComma t with
    | nil => exact absurd h (splitComma_ne t)
    | cons p ps => rw [h] at this; simpa using this
  rw [h1]
  constructor
  · intro h
    injection h with h
    refine ⟨t.dropWhile (· ≠ ch! ','), by rw [← h, tagText, List.takeWhile_append_dropWhile], ?_⟩
    cases hd : t.dropWhile (· ≠ ch! ',') with
    | nil => exact .inl rfl
    | cons x b' =>
      right
      have := List.head?_dropWhile_not (fun x => decide (x ≠ ch! ',')) t
      rw [hd] at this
      simp only [List.head?_cons, decide_eq_false_iff_not, ne_eq, Decidable.not_not] at this
      exact ⟨b', by rw [this]⟩
  · rintro ⟨b, rfl, hb⟩
    have ho' : ∀ x ∈ o, decide (x ≠ ch! ',') = true := by
      intro x hx
      simp only [decide_eq_true_eq]
      rintro rfl; exact ho hx
    rw [tagText, List.takeWhile_append_of_pos ho']
    rcases hb with rfl | ⟨b', rfl⟩
    · simp
    · simp

theorem splitComma_tail {o : Bytes} (ho : ch! ',' ∉ o) : ∀ t : Bytes, o ∈ (splitComma t).tail ↔ HasOption t o
  | [] => by
    constructor
    · intro h; simp [splitComma] at h
    · rintro ⟨a, b, h, _⟩; cases a <;> cases h
  | c :: t => by
    have ih := splitComma_tail ho t
    have hf := splitComma_first ho t
    cases hs : splitComma t with
    | nil => exact absurd hs (splitComma_ne t)
    | cons p ps =>
      rw [hs] at ih hf
      simp only [List.tail_cons, List.head?_cons, Option.some.injEq] at ih hf
      simp only [splitComma, hs]
      by_cases hc : c = ch! ','
      · subst hc
        simp only [if_true, List.tail_cons, List.mem_cons]
        rw [ih]
        constructor
        · rintro (h | ⟨a, b, rfl, hb⟩)
          · obtain ⟨b, rfl, hb⟩ := hf.1 h.symm
            exact ⟨[], b, rfl, hb⟩
          · exact ⟨ch! ',' :: a, b, rfl, hb⟩
        · rintro ⟨a, b, h, hb⟩
          cases a with
          | nil => left; injection h with _ h; exact (hf.2 ⟨b, h, hb⟩).symm
          | cons x a => right; injection h with _ h; exact ⟨a, b, h, hb⟩
      · simp only [if_neg hc, List.tail_cons]
        rw [ih]
        constructor
        · rintro ⟨a, b, rfl, hb⟩; exact ⟨c :: a, b, rfl, hb⟩
        · rintro ⟨a, b, h, hb⟩
          cases a with
          | nil => injection h with h _; exact absurd h hc
          | cons x a => injection h with _ h; exact ⟨a, b, h, hb⟩

open Classical in
theorem option_eq (f : PField) : option f = (f.type, f.quoted) := by
  unfold option
  congr 1
  rw [Bool.eq_iff_iff, decide_eq_true_iff, ← splitComma_tail (by decide)]
  unfold PField.quoted
  simp

/-! ### What `appendStructFields` does with a field -/

theorem decl_time {f : PField} (h : f.anonymous = true) (ht : f.type.isTime = true) (hg : tagText f.tag = []) :
    f.decl = { goName := f.goName, unexported := true, tag := f.tag, kind := .other [] } := by
  unfold PField.decl
  rw [splitComma_head]
  simp [h, ht, hg]

theorem decl_other {f : PField} (h : ¬ (f.anonymous = true ∧ f.type.isTime = true ∧ tagText f.tag = [])) :
    f.decl = { goName := f.goName, anonymous := f.anonymous, unexported := f.unexported, tag := f.tag, kind := f.type.fkind } := by
  unfold PField.decl
  rw [if_neg]
  rw [splitComma_head]
  simpa [and_assoc] using h

/-- The three cases. -/
inductive ClassP (letter : Nat → Bool) (f : PField) : Prop
  | skip : ¬ Shown f → classify letter f.decl = .skip → ClassP letter f
  | direct (n : Bytes) (t : Bool) : Shown f → embeds f = none → classify letter f.decl = .direct n t → ClassP letter f
  | embed (id : Nat) : Shown f → embeds f = some (id, f.type.isPtr) → classify letter f.decl = .embed id → ClassP letter f

theorem fkind_embeds (t : GT) : t.fkind.embeds = match t with
    | .struct id => some id
    | .ptr (.struct id) => some id
    | _ => none := by
  cases t with
  | ptr e => cases e <;> rfl
  | _ => rfl

theorem classP (letter : Nat → Bool) {f : PField} (hn : f.goName ≠ bs! "-") : ClassP letter f := by
  by_cases htime : f.anonymous = true ∧ f.type.isTime = true ∧ tagText f.tag = []
  · refine .skip (fun h => ?_) ?_
    · have := (h.2.2 htime.1 htime.2.2).1; rw [htime.2.1] at this; cases this
    · rw [decl_time htime.1 htime.2.1 htime.2.2]; simp [classify]
  · have hd := decl_other htime
    have hign : (if tagText f.tag ≠ [] then tagText f.tag else f.goName) = bs! "-" ∧ (splitComma f.tag).length = 1 ↔ f.tag = bs! "-" := by
      rw [← ignored_iff (t := f.tag)]
      by_cases h : tagText f.tag = []
      · simp only [h, ne_eq, not_true_eq_false, if_false]
        constructor
        · rintro ⟨h1, _⟩; exact absurd h1 hn
        · rintro ⟨h1, _⟩; cases h1
      · simp only [ne_eq, h, not_false_eq_true, if_true]
    have hcl : classify letter f.decl =
        if f.unexported && !f.anonymous then .skip
        else if f.tag = bs! "-" then .skip
        else
          let name := if isValidTag letter (if tagText f.tag ≠ [] then tagText f.tag else f.goName) then (if tagText f.tag ≠ [] then tagText f.tag else f.goName) else f.goName
          if f.anonymous && !decide (tagText f.tag ≠ []) then
            match f.type.fkind.embeds with
            | some id => .embed id
            | none => if f.unexported then .skip else .direct name (decide (tagText f.tag ≠ []))
          else .direct name (decide (tagText f.tag ≠ [])) := by
      rw [hd]
      unfold classify
      simp only [splitComma_head, decide_eq_true_eq]
      simp only [hign]
      rfl
    by_cases h1 : f.unexported = true ∧ f.anonymous = false
    · refine .skip (fun h => ?_) ?_
      · have := h.2.1 h1.1; rw [h1.2] at this; cases this
      · rw [hcl]; simp [h1.1, h1.2]
    · have h1' : (f.unexported && !f.anonymous) = false := by
        cases hu : f.unexported <;> cases ha : f.anonymous <;> simp_all
      by_cases h2 : f.tag = bs! "-"
      · refine .skip (fun h => h.1 h2) ?_
        rw [hcl, h1', if_neg (by simp), if_pos h2]
      · rw [h1', if_neg (by simp), if_neg h2] at hcl
        have hun : f.unexported = true → f.anonymous = true := by
          intro hu
          cases ha : f.anonymous with
          | true => rfl
          | false => exact absurd ⟨hu, ha⟩ h1
        by_cases h3 : f.anonymous = true ∧ tagText f.tag = []
        · have hnt : f.type.isTime = false := by
            cases ht : f.type.isTime with
            | false => rfl
            | true => exact absurd ⟨h3.1, ht, h3.2⟩ htime
          have he : embeds f = embeds f := rfl
          conv at he => rhs; unfold embeds; rw [if_pos h3]
          simp only [h3.1, h3.2, ne_eq, not_true_eq_false, decide_false, Bool.not_false, Bool.and_self, if_true, if_false] at hcl
          rw [fkind_embeds] at hcl
          have sh : (f.unexported = true → embeds f ≠ none) → Shown f := fun h => ⟨h2, hun, fun _ _ => ⟨hnt, h⟩⟩
          have other : embeds f = none → classify letter f.decl = (if f.unexported then .skip else .direct (if isValidTag letter f.goName then f.goName else f.goName) false) → ClassP letter f := by
            intro he hcl
            cases hu : f.unexported with
            | true =>
              rw [hu] at hcl
              exact .skip (fun h => (h.2.2 h3.1 h3.2).2 hu he) hcl
            | false =>
              rw [hu] at hcl
              exact .direct _ _ (sh (fun h => by rw [hu] at h; cases h)) he hcl
          cases ht : f.type with
          | struct id =>
            rw [ht] at hcl he
            exact .embed id (sh (fun _ => by rw [he]; simp)) (by rw [he, ht]; rfl) hcl
          | ptr e =>
            cases e with
            | struct id =>
              rw [ht] at hcl he
              exact .embed id (sh (fun _ => by rw [he]; simp)) (by rw [he, ht]; rfl) hcl
            | _ => rw [ht] at hcl he; exact other he hcl
          | _ => rw [ht] at hcl he; exact other he hcl
        · have h3' : (f.anonymous && !decide (tagText f.tag ≠ [])) = false := by
            cases ha : f.anonymous with
            | false => rfl
            | true =>
              have : tagText f.tag ≠ [] := fun h => h3 ⟨ha, h⟩
              simp [this]
          rw [h3'] at hcl
          refine .direct _ _ ⟨h2, hun, fun ha hg => absurd ⟨ha, hg⟩ h3⟩ ?_ hcl
          unfold embeds; rw [if_neg h3]

/-! ### Where members come from -/

theorem directsP_mem {s : PSField} : ∀ {i : Nat} {es : List PEntry}, s ∈ directsP i es →
    ∃ j n t c, es[j]? = some (.direct n t c) ∧ s.sf.path = [i + j] ∧ s.via = [] ∧ s.codec = c
  | _, [], h => by simp [directsP] at h
  | i, .direct n t c :: es, h => by
    simp only [directsP, List.mem_cons] at h
    rcases h with rfl | h
    · exact ⟨0, n, t, c, rfl, rfl, rfl, rfl⟩
    · obtain ⟨j, n, t, c, h1, h2, h3, h4⟩ := directsP_mem h
      exact ⟨j + 1, n, t, c, h1, by rw [h2]; congr 1; omega, h3, h4⟩
  | i, .skip :: es, h => by
    simp only [directsP] at h
    obtain ⟨j, n, t, c, h1, h2, h3, h4⟩ := directsP_mem h
    exact ⟨j + 1, n, t, c, h1, by rw [h2]; congr 1; omega, h3, h4⟩
  | i, .embed p u ss :: es, h => by
    simp only [directsP] at h
    obtain ⟨j, n, t, c, h1, h2, h3, h4⟩ := directsP_mem h
    exact ⟨j + 1, n, t, c, h1, by rw [h2]; congr 1; omega, h3, h4⟩

theorem embeddedOfP_mem {s : PSField} {i : Nat} {p u : Bool} : ∀ {j : Nat} {ss : List PSField}, s ∈ embeddedOfP i j p u ss →
    ∃ x ∈ ss, s.sf.path = i :: x.sf.path ∧ s.via = (if p then u :: x.via else x.via) ∧ s.codec = x.codec
  | _, [], h => by simp [embeddedOfP] at h
  | j, x :: ss, h => by
    simp only [embeddedOfP, List.mem_cons] at h
    rcases h with rfl | h
    · exact ⟨x, by simp, rfl, rfl, rfl⟩
    · obtain ⟨y, hy, h⟩ := embeddedOfP_mem h
      exact ⟨y, by simp [hy], h⟩

theorem embeddedsP_mem {s : PSField} : ∀ {i : Nat} {es : List PEntry}, s ∈ embeddedsP i es →
    ∃ j p u ss x, es[j]? = some (.embed p u ss) ∧ x ∈ ss ∧ s.sf.path = (i + j) :: x.sf.path ∧ s.via = (if p then u :: x.via else x.via) ∧ s.codec = x.codec
  | _, [], h => by simp [embeddedsP] at h
  | i, .embed p u ss :: es, h => by
    simp only [embeddedsP, List.mem_append] at h
    rcases h with h | h
    · obtain ⟨x, hx, h⟩ := embeddedOfP_mem h
      exact ⟨0, p, u, ss, x, rfl, hx, h⟩
    · obtain ⟨j, p, u, ss, x, h1, hx, h2, h3⟩ := embeddedsP_mem h
      exact ⟨j + 1, p, u, ss, x, h1, hx, by rw [h2]; congr 1; omega, h3⟩
  | i, .skip :: es, h => by
    simp only [embeddedsP] at h
    obtain ⟨j, p, u, ss, x, h1, hx, h2, h3⟩ := embeddedsP_mem h
    exact ⟨j + 1, p, u, ss, x, h1, hx, by rw [h2]; congr 1; omega, h3⟩
  | i, .direct n t c :: es, h => by
    simp only [embeddedsP] at h
    obtain ⟨j, p, u, ss, x, h1, hx, h2, h3⟩ := embeddedsP_mem h
    exact ⟨j + 1, p, u, ss, x, h1, hx, by rw [h2]; congr 1; omega, h3⟩

theorem insertFieldP_mem {s x : PSField} : ∀ {l : List PSField}, x ∈ insertFieldP s l → x = s ∨ x ∈ l
  | [], h => by simpa [insertFieldP] using h
  | t :: l, h => by
    unfold insertFieldP at h
    split at h
    · simpa using h
    · rcases List.mem_cons.1 h with rfl | h
      · right; simp
      · rcases insertFieldP_mem h with h | h
        · exact .inl h
        · right; simp [h]

theorem sortFieldsP_mem {x : PSField} : ∀ {l : List PSField}, x ∈ sortFieldsP l → x ∈ l
  | [], h => h
  | s :: l, h => by
    rcases insertFieldP_mem h with rfl | h
    · simp
    · exact List.mem_cons_of_mem _ (sortFieldsP_mem h)

/-- The member comes from a field that is reached, and its codec from a context in `P`. -/
def Origin (env : PEnv) (P : Nat → Bool → Prop) (id : Nat) (s : PSField) : Prop :=
  ∃ k f a, Reaches env id s.sf.path k f s.via ∧ P k a ∧ s.codec = fieldAt env.ty a (f.type, f.quoted)

/-- What is known of an entry. -/
def EntryOk (env : PEnv) (P : Nat → Bool → Prop) (a : Bool) (f : PField) : PEntry → Prop
  | .skip => True
  | .direct _ _ c => Shown f ∧ embeds f = none ∧ c = fieldAt env.ty a (f.type, f.quoted)
  | .embed p u ss => u = f.unexported ∧ ∃ id', Shown f ∧ embeds f = some (id', p) ∧ ∀ s ∈ ss, Origin env P id' s

theorem resolveP_origin {env : PEnv} {P : Nat → Bool → Prop} {id : Nat} {a : Bool} (hp : P id a) {es : List PEntry}
    (h : ∀ (i : Nat) e, es[i]? = some e → ∃ f, (env id).fields[i]? = some f ∧ EntryOk env P a f e) {s : PSField} (hs : s ∈ resolveP es) : Origin env P id s := by
  have hs := sortFieldsP_mem hs
  rw [List.mem_append] at hs
  rcases hs with hs | hs
  · obtain ⟨j, n, t, c, h1, h2, h3, h4⟩ := directsP_mem hs
    obtain ⟨f, hf, hsh, he, hc⟩ := h j _ h1
    refine ⟨id, f, a, ?_, hp, by rw [h4, hc]⟩
    rw [h2, h3, Nat.zero_add]
    exact .here id j f hf hsh he
  · obtain ⟨x, hx, rfl⟩ := List.mem_map.1 hs
    have hx := (List.mem_filter.1 hx).1
    obtain ⟨j, p, u, ss, y, h1, hy, h2, h3, h4⟩ := embeddedsP_mem hx
    obtain ⟨f, hf, rfl, id', hsh, he, ho⟩ := h j _ h1
    obtain ⟨k, g, a', hr, hp', hc⟩ := ho y hy
    refine ⟨k, g, a', ?_, hp', by rw [← hc]; exact h4⟩
    show Reaches env id x.sf.path k g x.via
    rw [h2, h3, Nat.zero_add]
    exact .there id j f id' p _ k g _ hf hsh he hr

/-! ### What `seen` holds -/

/-- Entries stay. -/
def GrowsP (s s' : PSeen) : Prop := ∀ id, s id ≠ none → s' id ≠ none

/-- How many types were not met yet. -/
def missingP (count : Nat) (seen : PSeen) : Nat := ((List.range count).filter (fun id => (seen id).isNone)).length

theorem GrowsP.missing {s s' : PSeen} (h : GrowsP s s') (count : Nat) : missingP count s' ≤ missingP count s := by
  unfold missingP
  apply filter_length_le
  intro id hid
  have := h id
  cases hs : s id with
  | none => rfl
  | some x =>
    have h2 := this (by rw [hs]; simp)
    cases hs' : s' id with
    | none => exact absurd hs' h2
    | some y => rw [hs'] at hid; simp at hid

theorem missingP_set {s : PSeen} {id count : Nat} (hid : id < count) (hs : s id = none) (x : Option (List PSField)) :
    missingP count (s.set id x) < missingP count s := by
  have e1 : missingP count s = JC.missing count (fun i => (s i).map fun _ => none) := by
    unfold missingP JC.missing; congr 2; funext i; cases h : s i <;> simp [h]
  have e2 : missingP count (s.set id x) = JC.missing count (CSeen.set (fun i => (s i).map fun _ => none) id none) := by
    unfold missingP JC.missing; congr 2; funext i
    unfold PSeen.set CSeen.set
    split
    · rfl
    · cases h : s i <;> simp [h]
  rw [e1, e2]
  exact missing_set hid (by rw [hs]; rfl) none

/-- The invariant: the members of complete structs have their origin, and all structs in their fields are known. -/
structure KnownP (env : PEnv) (P : Nat → Bool → Prop) (s : PSeen) : Prop where
  entry : ∀ id ss, s id = some (some ss) → ∀ x ∈ ss, Origin env P id x
  fields : ∀ id ss, s id = some (some ss) → ∀ f ∈ (env id).fields, Shown f → ∀ a, ∀ x ∈ ctx f.type a, s x.1 ≠ none

/-- A predicate that holds for the contexts of fields. -/
def PassesP (P : Nat → Bool → Prop) (a : Bool) (f : PField) : Prop :=
  Shown f → (embeds f = none → ∀ x ∈ ctx f.type a, P x.1 x.2) ∧ ∀ id' p, embeds f = some (id', p) → P id' a

section
variable {letter : Nat → Bool} {env : PEnv} {P : Nat → Bool → Prop} {count : Nat}

/-- What constructing a struct does. -/
def ConstructsP (env : PEnv) (P : Nat → Bool → Prop) (count n : Nat) (c : Nat → Bool → PSeen → PSeen) : Prop :=
  ∀ id a seen, P id a → missingP count seen ≤ n → KnownP env P seen → GrowsP seen (c id a seen) ∧ KnownP env P (c id a seen) ∧ (c id a seen) id ≠ none ∧
    ∀ y, (c id a seen) y = some none → seen y = some none

theorem meetAllP {n : Nat} {c : Nat → Bool → PSeen → PSeen} (hc : ConstructsP env P count n c) : ∀ (l : List (Nat × Bool)) (seen : PSeen),
    (∀ x ∈ l, P x.1 x.2) → missingP count seen ≤ n → KnownP env P seen →
    GrowsP seen (meetAll c l seen) ∧ KnownP env P (meetAll c l seen) ∧ (∀ x ∈ l, (meetAll c l seen) x.1 ≠ none) ∧ ∀ y, (meetAll c l seen) y = some none → seen y = some none
  | [], seen, _, _, hk => ⟨fun _ h => h, hk, by simp, fun _ h => h⟩
  | x :: l, seen, hP, hn, hk => by
    obtain ⟨g1, k1, e1, o1⟩ := hc x.1 x.2 seen (hP x (by simp)) hn hk
    obtain ⟨g2, k2, e2, o2⟩ := meetAllP hc l (c x.1 x.2 seen) (fun y hy => hP y (by simp [hy])) (Nat.le_trans (g1.missing count) hn) k1
    refine ⟨fun y h => g2 y (g1 y h), k2, ?_, fun y hy => o1 y (o2 y hy)⟩
    intro y hy
    rcases List.mem_cons.1 hy with rfl | hy
    · exact g2 _ e1
    · exact e2 y hy

/-- Structs in the type of a field that embeds one: only that one. -/
theorem embeds_ctx {f : PField} {id : Nat} {p : Bool} (h : embeds f = some (id, p)) (a : Bool) : ∀ x ∈ ctx f.type a, x = (id, a || p) := by
  unfold embeds at h
  split at h
  · split at h
    · rename_i ht
      cases h
      intro x hx
      rw [ht] at hx
      simpa [ctx] using hx
    · rename_i ht
      cases h
      intro x hx
      rw [ht] at hx
      simpa [ctx] using hx
    · cases h
  · cases h

theorem embeds_mem {f : PField} {id : Nat} {p : Bool} (h : embeds f = some (id, p)) (a : Bool) : (id, a || p) ∈ ctx f.type a := by
  unfold embeds at h
  split at h
  · split at h
    · rename_i ht
      cases h
      rw [ht]
      simp [ctx]
    · rename_i ht
      cases h
      rw [ht]
      simp [ctx]
    · cases h
  · cases h

theorem visitP_constructs {n : Nat} {c : Nat → Bool → PSeen → PSeen} (hc : ConstructsP env P count n c) (a : Bool) : ∀ (fs : List PField) (seen : PSeen),
    (∀ f ∈ fs, f.goName ≠ bs! "-" ∧ PassesP P a f) → missingP count seen ≤ n → KnownP env P seen →
    GrowsP seen (visitP letter env.ty c fs a seen).2 ∧ KnownP env P (visitP letter env.ty c fs a seen).2 ∧
    (∀ f ∈ fs, Shown f → ∀ b, ∀ x ∈ ctx f.type b, (visitP letter env.ty c fs a seen).2 x.1 ≠ none) ∧
    (∀ y, (visitP letter env.ty c fs a seen).2 y = some none → seen y = some none) ∧
    ∀ (i : Nat) e, (visitP letter env.ty c fs a seen).1[i]? = some e → ∃ f, fs[i]? = some f ∧ EntryOk env P a f e
  | [], seen, _, _, hk => ⟨fun _ h => h, hk, by simp, fun _ h => h, by intro i e h; simp [visitP] at h⟩
  | f :: fs, seen, hP, hn, hk => by
    have hf := hP f (by simp)
    have hP' : ∀ g ∈ fs, g.goName ≠ bs! "-" ∧ PassesP P a g := fun g hg => hP g (by simp [hg])
    cases classP letter hf.1 with
    | skip hsh hcl =>
      obtain ⟨g, k, e, o, r⟩ := visitP_constructs hc a fs seen hP' hn hk
      simp only [visitP, hcl]
      refine ⟨g, k, ?_, o, ?_⟩
      · intro f' hf' hs' b x hx
        rcases List.mem_cons.1 hf' with rfl | hf'
        · exact absurd hs' hsh
        · exact e f' hf' hs' b x hx
      · intro i en hi
        cases i with
        | zero => cases hi; exact ⟨f, rfl, trivial⟩
        | succ i => exact r i en hi
    | embed id hsh hem hcl =>
      obtain ⟨g1, k1, e1, o1⟩ := hc id a seen ((hf.2 hsh).2 _ _ hem) hn hk
      obtain ⟨g, k, e, o, r⟩ := visitP_constructs hc a fs (c id a seen) hP' (Nat.le_trans (g1.missing count) hn) k1
      simp only [visitP, hcl]
      refine ⟨fun y h => g y (g1 y h), k, ?_, fun y hy => o1 y (o y hy), ?_⟩
      · intro f' hf' hs' b x hx
        rcases List.mem_cons.1 hf' with rfl | hf'
        · have := embeds_ctx hem b x hx
          rw [this]; exact g _ e1
        · exact e f' hf' hs' b x hx
      · intro i en hi
        cases i with
        | zero =>
          cases hi
          refine ⟨f, rfl, rfl, id, hsh, hem, ?_⟩
          intro s hs
          unfold PSeen.subs at hs
          cases hx : c id a seen id with
          | none => rw [hx] at hs; simp at hs
          | some x =>
            cases x with
            | none => rw [hx] at hs; simp at hs
            | some ss => rw [hx] at hs; exact k1.entry id ss hx s hs
        | succ i => exact r i en hi
    | direct nm t hsh hem hcl =>
      obtain ⟨g1, k1, e1, o1⟩ := meetAllP hc (ctx f.type a) seen ((hf.2 hsh).1 hem) hn hk
      obtain ⟨g, k, e, o, r⟩ := visitP_constructs hc a fs (meetAll c (ctx f.type a) seen) hP' (Nat.le_trans (g1.missing count) hn) k1
      simp only [visitP, hcl, constructCodec_eq]
      refine ⟨fun y h => g y (g1 y h), k, ?_, fun y hy => o1 y (o y hy), ?_⟩
      · intro f' hf' hs' b x hx
        rcases List.mem_cons.1 hf' with rfl | hf'
        · obtain ⟨c', hx⟩ := ctx_mem hx a
          exact g _ (e1 (x.1, c') hx)
        · exact e f' hf' hs' b x hx
      · intro i en hi
        cases i with
        | zero => cases hi; exact ⟨f, rfl, hsh, hem, rfl⟩
        | succ i => exact r i en hi

theorem constructP_constructs (hname : Named env) (hP : ∀ id a, P id a → ∀ f ∈ (env id).fields, PassesP P a f) (hlt : ∀ id a, P id a → id < count) :
    ∀ n, ConstructsP env P count n (constructP letter env n) := by
  intro n
  induction n with
  | zero =>
    intro id a seen hp hn hk
    rw [constructP]
    refine ⟨fun _ h => h, hk, ?_, fun _ h => h⟩
    intro hs
    have := missingP_set (hlt id a hp) hs none
    omega
  | succ n ih =>
    intro id a seen hp hn hk
    rw [constructP]
    cases hs : seen id with
    | some x => exact ⟨fun _ h => h, hk, (fun h => by simp only [hs] at h; cases h), fun _ h => h⟩
    | none =>
      simp only
      have hk0 : KnownP env P (seen.set id none) := by
        constructor
        · intro y ss hy
          unfold PSeen.set at hy
          split at hy
          · cases hy
          · exact hk.entry y ss hy
        · intro y ss hy f hf hsh b x hx
          have hy' : seen y = some (some ss) := by
            unfold PSeen.set at hy
            split at hy
            · cases hy
            · exact hy
          unfold PSeen.set
          split
          · simp
          · exact hk.fields y ss hy' f hf hsh b x hx
      have hn0 : missingP count (seen.set id none) ≤ n := by have := missingP_set (hlt id a hp) hs none; omega
      obtain ⟨g, k, e, o, r⟩ := visitP_constructs (letter := letter) ih a (env id).fields (seen.set id none)
        (fun f hf => ⟨hname id f hf, hP id a hp f hf⟩) hn0 hk0
      generalize visitP letter env.ty (constructP letter env n) (env id).fields a (seen.set id none) = s' at g k e o r ⊢
      have hset : ∀ y, y ≠ id → (s'.2.set id (some (resolveP s'.1))) y = s'.2 y := by
        intro y hy; simp [PSeen.set, hy]
      have hid : (s'.2.set id (some (resolveP s'.1))) id = some (some (resolveP s'.1)) := by simp [PSeen.set]
      have h0 : ∀ y, y ≠ id → (seen.set id none) y = seen y := by intro y hy; simp [PSeen.set, hy]
      have known : ∀ y, s'.2 y ≠ none → (s'.2.set id (some (resolveP s'.1))) y ≠ none := by
        intro y hy
        by_cases h : y = id
        · subst h; rw [hid]; simp
        · rw [hset y h]; exact hy
      refine ⟨?_, ⟨?_, ?_⟩, by rw [hid]; simp, ?_⟩
      · intro y hy
        by_cases h : y = id
        · subst h; rw [hid]; simp
        · rw [hset y h]; exact g y (by rw [h0 y h]; exact hy)
      · intro y ss hy x hx
        by_cases h : y = id
        · subst h; rw [hid] at hy; cases hy; exact resolveP_origin hp r hx
        · rw [hset y h] at hy; exact k.entry y ss hy x hx
      · intro y ss hy f hf hsh b x hx
        apply known
        by_cases h : y = id
        · subst h
          exact e f hf hsh b x hx
        · rw [hset y h] at hy; exact k.fields y ss hy f hf hsh b x hx
      · intro y hy
        by_cases h : y = id
        · subst h; rw [hid] at hy; cases hy
        · rw [hset y h] at hy; have := o y hy; rw [h0 y h] at this; exact this
end

theorem treats_passes (env : PEnv) (t : GT) : ∀ id a, Treats env t id a → ∀ f ∈ (env id).fields, PassesP (Treats env t) a f :=
  fun _ _ h _ hf hsh => ⟨fun he _ hx => .field h hf hsh he hx, fun _ _ he => .embed h hf hsh he⟩

theorem treats_lt {env : PEnv} {count : Nat} {t : GT} (hc : ClosedP env count t) {id : Nat} {a : Bool} (h : Treats env t id a) : id < count := by
  induction h with
  | root h => exact hc.1 _ h
  | field _ hf _ _ hx ih =>
    obtain ⟨c, hx⟩ := ctx_mem hx false
    exact hc.2 _ ih _ hf _ hx
  | embed _ hf _ he ih => exact hc.2 _ ih _ hf _ (embeds_mem he false)

/-- The codec of the type, and for every struct that is met the members with the codecs of one of the contexts. -/
theorem codecP_spec {letter : Nat → Bool} {env : PEnv} {count : Nat} {t : GT} (hname : Named env) (hc : ClosedP env count t) :
    (codecP letter env count t).1 = codecAt env.ty t t.isPtr ∧
    ∀ id a, Contains env t id a → ∃ ss, (codecP letter env count t).2 id = some (some ss) ∧ ∀ s ∈ ss, Origin env (Treats env t) id s := by
  unfold codecP
  rw [constructCodec_eq]
  refine ⟨rfl, ?_⟩
  have hk0 : KnownP env (Treats env t) (fun _ => none) := ⟨(fun _ _ h => by cases h), (fun _ _ h => by cases h)⟩
  have hm : missingP count (fun _ => none) ≤ count := by
    have := List.length_filter_le (fun _ => true) (List.range count)
    rw [List.length_range] at this
    exact this
  obtain ⟨g, k, e, o⟩ := meetAllP (constructP_constructs (letter := letter) hname (treats_passes env t) (fun id a h => treats_lt hc h) count)
    (ctx t t.isPtr) (fun _ => none) (by rw [ctx_root]; exact fun x hx => .root hx) hm hk0
  generalize meetAll (constructP letter env count) (ctx t t.isPtr) (fun _ => none) = s at g k e o
  have full : ∀ id, s id ≠ none → ∃ ss, s id = some (some ss) := by
    intro id h
    cases hs : s id with
    | none => exact absurd hs h
    | some x =>
      cases x with
      | none => have := o id hs; cases this
      | some ss => exact ⟨ss, rfl⟩
  intro id a hm
  have : s id ≠ none := by
    induction hm with
    | root h => rw [ctx_root] at e; exact e _ h
    | field _ hf hsh hx ih =>
      obtain ⟨ss, hs⟩ := full _ ih
      exact k.fields _ ss hs _ hf hsh _ _ hx
  obtain ⟨ss, hs⟩ := full id this
  exact ⟨ss, hs, k.entry id ss hs⟩

/-! ### The members are those of `Model/Fields.lean` -/

/-- An entry without codecs. -/
def PEntry.base : PEntry → FEntry
  | .skip => .skip
  | .direct n t _ => .direct n t
  | .embed _ _ ss => .embed (ss.map (·.sf))

theorem directsP_base : ∀ (i : Nat) (es : List PEntry), (directsP i es).map (·.sf) = directs i (es.map PEntry.base)
  | _, [] => rfl
  | i, .skip :: es => by simp [directsP, directs, PEntry.base, directsP_base (i + 1) es]
  | i, .direct n t c :: es => by simp [directsP, directs, PEntry.base, directsP_base (i + 1) es]
  | i, .embed p u ss :: es => by simp [directsP, directs, PEntry.base, directsP_base (i + 1) es]

theorem embeddedOfP_base (i : Nat) (p u : Bool) : ∀ (j : Nat) (ss : List PSField), (embeddedOfP i j p u ss).map (·.sf) = embeddedOf i j (ss.map (·.sf))
  | _, [] => rfl
  | j, s :: ss => by simp [embeddedOfP, embeddedOf, embeddedOfP_base i p u (j + 1) ss]

theorem embeddedsP_base : ∀ (i : Nat) (es : List PEntry), (embeddedsP i es).map (·.sf) = embeddeds i (es.map PEntry.base)
  | _, [] => rfl
  | i, .skip :: es => by simp [embeddedsP, embeddeds, PEntry.base, embeddedsP_base (i + 1) es]
  | i, .direct n t c :: es => by simp [embeddedsP, embeddeds, PEntry.base, embeddedsP_base (i + 1) es]
  | i, .embed p u ss :: es => by simp [embeddedsP, embeddeds, PEntry.base, embeddedsP_base (i + 1) es, embeddedOfP_base]

theorem insertFieldP_base (s : PSField) : ∀ l, (insertFieldP s l).map (·.sf) = insertField s.sf (l.map (·.sf))
  | [] => rfl
  | t :: l => by
    unfold insertFieldP
    simp only [List.map_cons, insertField]
    split
    · rfl
    · simp [insertFieldP_base s l]

theorem sortFieldsP_base : ∀ l, (sortFieldsP l).map (·.sf) = sortFields (l.map (·.sf))
  | [] => rfl
  | s :: l => by simp [sortFieldsP, sortFields, insertFieldP_base, sortFieldsP_base l]

theorem resolveP_base (es : List PEntry) : (resolveP es).map (·.sf) = resolve (es.map PEntry.base) := by
  unfold resolveP resolve
  simp only [sortFieldsP_base, List.map_append, directsP_base, List.map_map]
  rw [← directsP_base, ← embeddedsP_base]
  congr 2
  rw [List.filter_map, List.map_map, List.map_map]
  rfl

/-- `seen` without codecs. -/
def PSeen.base (s : PSeen) : Seen := fun id => (s id).map fun x => (x.getD []).map (·.sf)

theorem PSeen.base_set (s : PSeen) (id : Nat) (x : Option (List PSField)) : (s.set id x).base = s.base.set id ((x.getD []).map (·.sf)) := by
  funext y
  unfold PSeen.base PSeen.set Seen.set
  split <;> rfl

theorem PSeen.base_subs (s : PSeen) (id : Nat) : (s.subs id).map (·.sf) = (s.base id).getD [] := by
  unfold PSeen.subs PSeen.base
  cases s id with
  | none => rfl
  | some x => cases x <;> rfl

/-- Names, tags and types as `Model/Fields.lean` has them. -/
def PEnv.decls (env : PEnv) : Nat → List FieldDecl := fun id => (env id).fields.map PField.decl

theorem structs_ctx (t : GT) : ∀ a, t.structs = (ctx t a).map Prod.fst := by
  induction t with
  | array n e m ih => intro a; simp only [GT.structs, ctx]; exact ih a
  | slice e m ih => intro a; simp only [GT.structs, ctx]; exact ih _
  | map k e m ih => intro a; simp only [GT.structs, ctx]; exact ih _
  | ptr e ih => intro a; simp only [GT.structs, ctx]; exact ih _
  | _ => intro a; simp [GT.structs, ctx]

theorem fkind_refs (t : GT) : t.fkind.refs = t.structs := by
  cases t with
  | ptr e => cases e <;> rfl
  | _ => rfl

theorem meetAll_base {c : Nat → Bool → PSeen → PSeen} {d : Nat → Seen → Seen} (h : ∀ id a s, (c id a s).base = d id s.base) :
    ∀ (l : List (Nat × Bool)) (s : PSeen), (meetAll c l s).base = constructs d (l.map Prod.fst) s.base
  | [], s => rfl
  | x :: l, s => by
    have ih := meetAll_base h l (c x.1 x.2 s)
    simp only [meetAll, List.foldl_cons, List.map_cons, constructs] at ih ⊢
    rw [ih, h]

theorem visitP_base {letter : Nat → Bool} {ty : TyEnv} {c : Nat → Bool → PSeen → PSeen} {d : Nat → Seen → Seen} (h : ∀ id a s, (c id a s).base = d id s.base) (a : Bool) :
    ∀ (fs : List PField) (s : PSeen), ((visitP letter ty c fs a s).1.map PEntry.base, (visitP letter ty c fs a s).2.base) =
      visit letter d (fs.map PField.decl) s.base
  | [], s => rfl
  | f :: fs, s => by
    simp only [visitP, List.map_cons, visit]
    cases hcl : classify letter f.decl with
    | skip =>
      have ih := visitP_base (letter := letter) (ty := ty) h a fs s
      simp only [List.map_cons, PEntry.base, ← ih]
    | embed id =>
      have ih := visitP_base (letter := letter) (ty := ty) h a fs (c id a s)
      rw [h] at ih
      simp only [List.map_cons, PEntry.base, ← ih, PSeen.base_subs, h]
    | direct n t =>
      have hr : f.decl.kind.refs = (ctx f.type a).map Prod.fst := by
        unfold PField.decl at hcl ⊢
        split
        · rename_i ht
          exfalso
          rw [if_pos ht] at hcl
          simp [classify] at hcl
        · rw [fkind_refs, structs_ctx _ a]
      have ih := visitP_base (letter := letter) (ty := ty) h a fs (meetAll c (ctx f.type a) s)
      rw [meetAll_base h] at ih
      simp only [constructCodec_eq, List.map_cons, PEntry.base, hr, ← ih]

theorem constructP_base (letter : Nat → Bool) (env : PEnv) : ∀ (n id : Nat) (a : Bool) (s : PSeen),
    (constructP letter env n id a s).base = construct letter env.decls n id s.base
  | 0, id, a, s => rfl
  | n + 1, id, a, s => by
    rw [constructP, construct]
    cases hs : s id with
    | some x => simp [PSeen.base, hs]
    | none =>
      have hb : s.base id = none := by simp [PSeen.base, hs]
      rw [hb]
      have := visitP_base (letter := letter) (ty := env.ty) (constructP_base letter env n) a (env id).fields (s.set id none)
      simp only [PSeen.base_set] at this ⊢
      have e : env.decls id = (env id).fields.map PField.decl := rfl
      rw [e, ← show ((none : Option (List PSField)).getD []).map (·.sf) = [] from rfl, ← this]
      simp [resolveP_base]

theorem codecP_base (letter : Nat → Bool) (env : PEnv) (count : Nat) (t : GT) :
    (codecP letter env count t).2.base = constructs (construct letter env.decls count) t.structs (fun _ => none) := by
  unfold codecP
  rw [constructCodec_eq, structs_ctx t t.isPtr]
  exact meetAll_base (constructP_base letter env count) _ _

end JC

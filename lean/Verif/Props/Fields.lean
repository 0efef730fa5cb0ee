import Verif.Lemmas.FieldsEnv
/-!
C40: which members a struct has.

Full statement: a struct's members are its non-ignored exported fields in order of declaration, with
the promoted fields of embedded structs in place, where of several fields of one name Go's rule
(`Spec.Dominant`) chooses.

It fails for the choice among promoted fields, see the `C40_fails` theorems. The order, the treatment of
direct fields and the uniqueness of promoted ones are proved for all types, recursive ones included;
Go's rule for types that do not embed themselves and are `Tame`.
-/
namespace JC.Props
open JC Spec

section
variable {letter : Nat → Bool} {env : Nat → List FieldDecl}

/-- C40: members are in order of declaration, promoted fields in the place of the field they come
from; no field occurs twice. -/
theorem C40_order {count root : Nat} (hc : 0 < count) :
    ((structFields letter env count root).map (·.path)).Pairwise Before := by
  obtain ⟨es, he, hs, _⟩ := structFields_es (letter := letter) (env := env) (root := root) hc
  rw [he]
  exact (sound_resolve hs).1

/-- C40: `Before` is a strict order. -/
theorem C40_before_irrefl (p : List Nat) : ¬ Before p p := before_irrefl p

theorem C40_before_trans : ∀ (p q r : List Nat), Before p q → Before q r → Before p r
  | [], q, r, h, _ => by cases q <;> exact h.elim
  | i :: p, [], r, h, _ => h.elim
  | i :: p, j :: q, [], _, h => h.elim
  | i :: p, j :: q, k :: r, h1, h2 => by
    simp only [Before] at *
    rcases h1 with h1 | ⟨rfl, h1⟩ <;> rcases h2 with h2 | ⟨rfl, h2⟩
    · exact .inl (by omega)
    · exact .inl h1
    · exact .inl h2
    · exact .inr ⟨rfl, C40_before_trans p q r h1 h2⟩

/-- C40: the direct fields of a struct are exactly those that Go takes as such, under the names it
gives them. -/
theorem C40_direct {count root : Nat} (hc : 0 < count) (hp : ∀ f ∈ env root, PlainName letter f) (i : Nat) (n : Bytes) (tree : Nat → List SItem) :
    (∃ s ∈ structFields letter env count root, s.path = [i] ∧ s.name = n) ↔
      ∃ f t, (env root)[i]? = some f ∧ goItem letter tree f = .direct n t := by
  obtain ⟨es, he, hs, hf⟩ := structFields_es (letter := letter) (env := env) (root := root) hc
  rw [he]
  have key : ∀ f, f ∈ env root → ((∃ t, goItem letter tree f = .direct n t) ↔ ∃ t, classify letter f = .direct n t) := by
    intro f hfm
    rcases hp f hfm with h | ⟨h1, h2, h3⟩
    · rw [← item_plain h]
      unfold item
      cases classify letter f <;> simp
    · exact classify_name h1 h2 h3 tree n
  constructor
  · rintro ⟨s, hm, hpath, rfl⟩
    rcases mem_resolve.1 hm with h | ⟨u, hu, _, rfl⟩
    · obtain ⟨k, m, t, hk, rfl⟩ := mem_directs.1 h
      simp only [Nat.zero_add, List.cons.injEq, and_true] at hpath
      subst hpath
      obtain ⟨f, hf1, hf2⟩ := (hf.direct k m t).1 hk
      obtain ⟨t', ht'⟩ := (key f (List.mem_of_getElem? hf1)).2 ⟨t, hf2⟩
      exact ⟨f, t', hf1, ht'⟩
    · exfalso
      obtain ⟨k, subs, hk, v, hv, e⟩ := mem_embeddeds.1 ⟨u, hu, rfl⟩
      have := (hs subs (List.mem_of_getElem? hk)).2 v hv
      simp only [SField.cand, Cand.under, Cand.mk.injEq] at e
      rw [show ({ u with tag := false } : SField).path = u.path from rfl, e.1] at hpath
      simp only [List.cons.injEq] at hpath
      exact this hpath.2
  · rintro ⟨f, t, hf1, hf2⟩
    obtain ⟨t, ht⟩ := (key f (List.mem_of_getElem? hf1)).1 ⟨t, hf2⟩
    have hk := (hf.direct i n t).2 ⟨f, hf1, ht⟩
    exact ⟨⟨n, t, [0 + i], (0 + i, 0)⟩, mem_resolve.2 (.inl (mem_directs.2 ⟨i, n, t, hk, rfl⟩)), by simp, rfl⟩

/-- C40: of two members of the same name, both are direct fields. So a direct field hides the
promoted ones of its name, and no two promoted fields of one name are members. -/
theorem C40_unique {count root : Nat} (hc : 0 < count) {s u : SField} (hs : s ∈ structFields letter env count root)
    (hu : u ∈ structFields letter env count root) (hn : s.name = u.name) (hne : s.path ≠ u.path) :
    s.path.length = 1 ∧ u.path.length = 1 := by
  obtain ⟨es, he, hso, _⟩ := structFields_es (letter := letter) (env := env) (root := root) hc
  rw [he] at hs hu
  have ho : SubsOrder es := fun subs h => (hso subs h).1
  have dlen : ∀ d ∈ directs 0 es, d.path.length = 1 := by
    intro d hd
    obtain ⟨k, m, t, _, rfl⟩ := mem_directs.1 hd
    rfl
  rcases mem_resolve.1 hs with h1 | ⟨a, ha, hka, rfl⟩ <;> rcases mem_resolve.1 hu with h2 | ⟨b, hb, hkb, rfl⟩
  · exact ⟨dlen _ h1, dlen _ h2⟩
  · exact absurd hn (((keeps_iff ho hb).1 hkb).1 s h1)
  · exact absurd hn.symm (((keeps_iff ho ha).1 hka).1 u h2)
  · have e1 := ((keeps_iff ho ha).1 hka).2 b hb hn.symm (fun e => hne e.symm)
    have e2 := ((keeps_iff ho hb).1 hkb).2 a ha hn hne
    rw [e1.1] at e2
    cases e2.2

/-- C40, the choice: on types that do not embed themselves, with ordinary tags, and with no two fields of
one name unless one is in a struct that embeds the other at any depth, or both are one level
deep, the members are those of Go's rule.

Missing from the full statement: names that collide otherwise, where the rule fails, see below. -/
theorem C40_choice_partial {count root : Nat} {rank : Nat → Nat} {tree : Nat → List SItem} (hr : root < count)
    (hl : Layered env count rank) (hp : ∀ id, ∀ f ∈ env id, Plain letter f) (hu : Unfolds letter env tree) (ht : Tame (tree root))
    (n : Bytes) (p : List Nat) :
    (∃ s ∈ structFields letter env count root, s.path = p ∧ s.name = n) ↔ ∃ t, Dominant (tree root) ⟨p, n, t⟩ := by
  have hi : ∀ id, tree id = (env id).map (item letter tree) := by
    intro id
    rw [hu id]
    apply List.map_congr_left
    intro f hf
    exact (item_plain (hp id f hf) tree).symm
  rw [structFields_tree hl hi hr, ← picks_dominant ht]
  constructor
  · rintro ⟨s, hs, rfl, rfl⟩
    exact ⟨s.tag, s, hs, rfl⟩
  · rintro ⟨t, s, hs, he⟩
    simp only [SField.cand, Cand.mk.injEq] at he
    exact ⟨s, hs, he.1, he.2.1⟩

/-- C40: every such set of types has its unfolding. -/
theorem C40_unfolds {count : Nat} {rank : Nat → Nat} (hl : Layered env count rank) : ∃ tree, Unfolds letter env tree := exists_unfold hl

end

/-! ### Examples and failures -/

/-- ASCII letters and digits. -/
def asciiLetter (r : Nat) : Bool := (65 ≤ r && r ≤ 90) || (97 ≤ r && r ≤ 122) || (48 ≤ r && r ≤ 57)

/-- A field without a tag. -/
def fld (n : Bytes) : FieldDecl := { goName := n, kind := .other [] }
/-- A field with a tag. -/
def tagged (n t : Bytes) : FieldDecl := { goName := n, tag := t, kind := .other [] }
/-- An embedded struct. -/
def emb (id : Nat) : FieldDecl := { goName := bs! "E", anonymous := true, kind := .struct id }

/-- The treatment of a field without a name in its tag. -/
theorem goItem_fld (tree : Nat → List SItem) (n : Bytes) : goItem asciiLetter tree (fld n) = .direct n false := by
  have : ¬ GoodName asciiLetter (tagText []) := fun h => h.1 rfl
  simp [goItem, fld, this]

theorem goItem_emb (tree : Nat → List SItem) (id : Nat) : goItem asciiLetter tree (emb id) = .embed (tree id) := by
  have : ¬ GoodName asciiLetter (tagText []) := fun h => h.1 rfl
  simp [goItem, emb, this]

theorem goItem_tagged (tree : Nat → List SItem) (n t : Bytes) (h1 : t ≠ bs! "-") (h2 : GoodName asciiLetter (tagText t)) :
    goItem asciiLetter tree (tagged n t) = .direct (tagText t) true := by
  simp [goItem, tagged, h1, h2]

/-- `type R struct { A; X int; B; Z int }`, `type A struct { X, Y, W int }`,
`type B struct { Y int; V int "json:\"W\"" }` -/
def mixEnv : Nat → List FieldDecl
  | 0 => [emb 1, fld (bs! "X"), emb 2, fld (bs! "Z")]
  | 1 => [fld (bs! "X"), fld (bs! "Y"), fld (bs! "W")]
  | 2 => [fld (bs! "Y"), tagged (bs! "V") (bs! "W")]
  | _ => []

def mixTree : Nat → List SItem
  | 0 => [.embed [.direct (bs! "X") false, .direct (bs! "Y") false, .direct (bs! "W") false], .direct (bs! "X") false,
      .embed [.direct (bs! "Y") false, .direct (bs! "W") true], .direct (bs! "Z") false]
  | 1 => [.direct (bs! "X") false, .direct (bs! "Y") false, .direct (bs! "W") false]
  | 2 => [.direct (bs! "Y") false, .direct (bs! "W") true]
  | _ => []

/-- `X` of `A` is hidden, the two `Y` annihilate, the tagged `W` wins. -/
example : (structFields asciiLetter mixEnv 3 0).map (fun s => (s.name, s.path)) =
    [(bs! "X", [1]), (bs! "W", [2, 1]), (bs! "Z", [3])] := by decide +kernel

/-- These types meet the conditions of `C40_choice_partial`. -/
example : Unfolds asciiLetter mixEnv mixTree ∧ Tame (mixTree 0) ∧ Layered mixEnv 3 (fun id => if id = 0 then 1 else 0) := by
  refine ⟨?_, by unfold Tame Hides; decide +kernel, ?_, ?_, ?_⟩
  · intro id
    match id with
    | 0 | 1 => simp [mixEnv, mixTree, goItem_fld, goItem_emb]
    | 2 =>
      simp only [mixEnv, mixTree, List.map_cons, List.map_nil, goItem_fld]
      rw [goItem_tagged _ _ _ (by decide) (by unfold GoodName; decide +kernel)]
      rfl
    | n + 3 => rfl
  all_goals
    intro id f hf
    match id with
    | 0 | 1 | 2 => revert hf; simp only [mixEnv, List.mem_cons, List.not_mem_nil, or_false]; rintro (rfl | rfl | rfl | rfl | _) <;> simp_all [emb, fld, tagged, FKind.refs]
    | n + 3 => simp [mixEnv] at hf

/-- `type R struct { A; B }`, `type A struct { X int }`, `type B struct { C }`, `type C struct { X int }` -/
def depthEnv : Nat → List FieldDecl
  | 0 => [emb 1, emb 2]
  | 1 => [fld (bs! "X")]
  | 2 => [emb 3]
  | 3 => [fld (bs! "X")]
  | _ => []

def depthTree : Nat → List SItem
  | 0 => [.embed [.direct (bs! "X") false], .embed [.embed [.direct (bs! "X") false]]]
  | 1 => [.direct (bs! "X") false]
  | 2 => [.embed [.direct (bs! "X") false]]
  | 3 => [.direct (bs! "X") false]
  | _ => []

/-- C40 fails: a promoted field at a lesser depth does not win, both are dropped. -/
theorem C40_fails_depth : Unfolds asciiLetter depthEnv depthTree ∧
    Dominant (depthTree 0) ⟨[0, 0], bs! "X", false⟩ ∧ structFields asciiLetter depthEnv 4 0 = [] := by
  refine ⟨?_, by unfold Dominant; decide +kernel, by decide +kernel⟩
  intro id
  match id with
  | 0 | 1 | 2 | 3 => simp [depthEnv, depthTree, goItem_fld, goItem_emb]
  | n + 4 => rfl

/-- `type R struct { B; C }`, `type B struct { D; E }`, `type C struct { D }`, `type D struct { X int }`,
`type E struct { X int }` -/
def annihilEnv : Nat → List FieldDecl
  | 0 => [emb 1, emb 2]
  | 1 => [emb 3, emb 4]
  | 2 => [emb 3]
  | 3 => [fld (bs! "X")]
  | 4 => [fld (bs! "X")]
  | _ => []

def annihilTree : Nat → List SItem
  | 0 => [.embed [.embed [.direct (bs! "X") false], .embed [.direct (bs! "X") false]], .embed [.embed [.direct (bs! "X") false]]]
  | 1 => [.embed [.direct (bs! "X") false], .embed [.direct (bs! "X") false]]
  | 2 => [.embed [.direct (bs! "X") false]]
  | 3 => [.direct (bs! "X") false]
  | 4 => [.direct (bs! "X") false]
  | _ => []

/-- C40 fails: of three fields at the same depth two annihilate and the third remains. -/
theorem C40_fails_annihilated : Unfolds asciiLetter annihilEnv annihilTree ∧
    (∀ t, ¬ Dominant (annihilTree 0) ⟨[1, 0, 0], bs! "X", t⟩) ∧
    (structFields asciiLetter annihilEnv 5 0).map (·.path) = [[1, 0, 0]] := by
  refine ⟨?_, fun t => by unfold Dominant; cases t <;> decide +kernel, by decide +kernel⟩
  intro id
  match id with
  | 0 | 1 | 2 | 3 | 4 => simp [annihilEnv, annihilTree, goItem_fld, goItem_emb]
  | n + 5 => rfl

/-- `type R struct { A; B }`, `type A struct { C }`, `type B struct { D }`, `type C struct { V int "json:\"X\"" }`,
`type D struct { X int }` -/
def deepTagEnv : Nat → List FieldDecl
  | 0 => [emb 1, emb 2]
  | 1 => [emb 3]
  | 2 => [emb 4]
  | 3 => [tagged (bs! "V") (bs! "X")]
  | 4 => [fld (bs! "X")]
  | _ => []

def deepTagTree : Nat → List SItem
  | 0 => [.embed [.embed [.direct (bs! "X") true]], .embed [.embed [.direct (bs! "X") false]]]
  | 1 => [.embed [.direct (bs! "X") true]]
  | 2 => [.embed [.direct (bs! "X") false]]
  | 3 => [.direct (bs! "X") true]
  | 4 => [.direct (bs! "X") false]
  | _ => []

/-- C40 fails: a tag two levels down does not count. -/
theorem C40_fails_deep_tag : Unfolds asciiLetter deepTagEnv deepTagTree ∧
    Dominant (deepTagTree 0) ⟨[0, 0, 0], bs! "X", true⟩ ∧ structFields asciiLetter deepTagEnv 5 0 = [] := by
  refine ⟨?_, by unfold Dominant; decide +kernel, by decide +kernel⟩
  intro id
  match id with
  | 0 | 1 | 2 | 4 => simp [deepTagEnv, deepTagTree, goItem_fld, goItem_emb]
  | 3 =>
    simp only [deepTagEnv, deepTagTree, List.map_cons, List.map_nil]
    rw [goItem_tagged _ _ _ (by decide) (by unfold GoodName; decide +kernel)]
    rfl
  | n + 5 => rfl

/-- `type R struct { V int "json:\"X\""; X int "json:\"X\"" }` -/
def dupEnv : Nat → List FieldDecl
  | 0 => [tagged (bs! "V") (bs! "X"), tagged (bs! "X") (bs! "X")]
  | _ => []

/-- C40 fails: direct fields of the same name are both members, so the object has a key twice. -/
theorem C40_fails_direct_twice :
    (structFields asciiLetter dupEnv 1 0).map (fun s => (s.name, s.path)) = [(bs! "X", [0]), (bs! "X", [1])] ∧
    ∀ i t, ¬ Dominant [.direct (bs! "X") true, .direct (bs! "X") true] ⟨[i], bs! "X", t⟩ := by
  refine ⟨by decide +kernel, ?_⟩
  rintro i t ⟨hm, hd⟩
  have h0 := hd ⟨[0], bs! "X", true⟩ (by decide +kernel) rfl
  have h1 := hd ⟨[1], bs! "X", true⟩ (by decide +kernel) rfl
  by_cases hi : i = 0
  · subst hi; simp at h1
  · have := h0 (by simpa using fun e => hi e.symm)
    simp at this

/-- C40 fails: an embedded field of an unexported type that is not a struct is a member if it has a
tag; Go ignores it. -/
theorem C40_fails_unexported (tree : Nat → List SItem) :
    let f : FieldDecl := { goName := bs! "num", anonymous := true, unexported := true, tag := bs! "n", kind := .other [] }
    (structFields asciiLetter (fun _ => [f]) 1 0).map (·.name) = [bs! "n"] ∧ goItem asciiLetter tree f = .skip := by
  refine ⟨by decide +kernel, ?_⟩
  simp [goItem]

/-- C40 fails: a tag with a name that is not valid makes an embedded struct a member of its own;
Go promotes its fields. -/
theorem C40_fails_invalid_name :
    let f : FieldDecl := { goName := bs! "A", anonymous := true, tag := bs! "a'b", kind := .struct 1 }
    (structFields asciiLetter (fun | 0 => [f] | 1 => [fld (bs! "X")] | _ => []) 2 0).map (·.name) = [bs! "A"] ∧
    goItem asciiLetter (fun | 1 => [.direct (bs! "X") false] | _ => []) f = .embed [.direct (bs! "X") false] := by
  refine ⟨by decide +kernel, ?_⟩
  have : ¬ GoodName asciiLetter (tagText (bs! "a'b")) := by unfold GoodName; decide +kernel
  simp [goItem, this]

/-- C40 fails: a name with a semicolon is not taken from the tag. -/
theorem C40_fails_semicolon (tree : Nat → List SItem) :
    (structFields asciiLetter (fun _ => [tagged (bs! "A") (bs! "a;b")]) 1 0).map (·.name) = [bs! "A"] ∧
    goItem asciiLetter tree (tagged (bs! "A") (bs! "a;b")) = .direct (bs! "a;b") true := by
  refine ⟨by decide +kernel, ?_⟩
  rw [goItem_tagged _ _ _ (by decide) (by unfold GoodName; decide +kernel)]
  rfl

/-- `type A struct { X int; Next *B }`, `type B struct { *A; Y int }` -/
def loopEnv : Nat → List FieldDecl
  | 0 => [fld (bs! "X"), { goName := bs! "Next", kind := .ptr 1 }]
  | 1 => [{ goName := bs! "A", anonymous := true, kind := .ptr 0 }, fld (bs! "Y")]
  | _ => []

/-- C40 fails: a type that embeds the one it is first met in loses the promoted fields. `B` has the
members `X`, `Next` and `Y` when it is encoded first, but only `Y` inside an `A`. -/
theorem C40_fails_recursive :
    (structFields asciiLetter loopEnv 2 1).map (·.name) = [bs! "X", bs! "Next", bs! "Y"] ∧
    (construct asciiLetter loopEnv 2 0 (fun _ => none) 1).map (·.map (·.name)) = some [bs! "Y"] :=
  ⟨by decide +kernel, by decide +kernel⟩

end JC.Props

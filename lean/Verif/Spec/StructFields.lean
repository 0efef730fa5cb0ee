import Verif.Model.Fields
/-!
Specification for C40: Go's rule for the JSON members of a struct type, as documented in
`encoding/json` ("Marshal") and the Go specification (selectors).

A struct type is given by its fields: ignored ones, ones that are members of their own, and
embedded structs. A candidate is a field reached through embedded structs; its path is the list of
field numbers to it.
-/
namespace JC.Spec
open JC

inductive SItem where
  | skip
  /-- a member; `tag`: its name is given by a tag -/
  | direct (name : Bytes) (tag : Bool)
  | embed (fs : List SItem)

structure Cand where
  path : List Nat
  name : Bytes
  tag : Bool
deriving DecidableEq, Repr

/-- Candidate `c` of field number `i`. -/
def Cand.under (i : Nat) (c : Cand) : Cand := { c with path := i :: c.path }

mutual
def candI : SItem → List Cand
  | .skip => []
  | .direct name tag => [⟨[], name, tag⟩]
  | .embed fs => candL 0 fs
def candL (i : Nat) : List SItem → List Cand
  | [] => []
  | x :: xs => (candI x).map (Cand.under i) ++ candL (i + 1) xs
end

/-- All candidates of a struct. -/
def cands (fs : List SItem) : List Cand := candL 0 fs

/-- Go's rule: a candidate is a member unless another one of the same name is at a lesser depth, or
at the same depth without the candidate being the only tagged one there. -/
def Dominant (fs : List SItem) (c : Cand) : Prop :=
  c ∈ cands fs ∧ ∀ d ∈ cands fs, d.name = c.name → d.path ≠ c.path →
    c.path.length < d.path.length ∨ c.path.length = d.path.length ∧ c.tag = true ∧ d.tag = false

/-- Candidate `p` is a field of a struct in which `q` is embedded deeper. -/
def Hides (p q : List Nat) : Prop := p.length < q.length ∧ p.dropLast <+: q

/-- Order of declaration, with the fields of embedded structs in place. -/
def Before : List Nat → List Nat → Prop
  | i :: p, j :: q => i < j ∨ i = j ∧ Before p q
  | _, _ => False

/-- No two candidates have the same name, except that one hides the other, or that both are fields
of structs embedded in the outermost one. -/
def Tame (fs : List SItem) : Prop := ∀ c ∈ cands fs, ∀ d ∈ cands fs, c.name = d.name → c.path ≠ d.path →
  Hides c.path d.path ∨ Hides d.path c.path ∨ c.path.length = 2 ∧ d.path.length = 2

/-- The text of a tag before the first comma. -/
def tagText (tag : Bytes) : Bytes := tag.takeWhile (· ≠ ch! ',')

/-- A name that a tag can give: not empty, and made of letters, digits and ASCII punctuation other
than quotes, backslash and comma. -/
def GoodName (letter : Nat → Bool) (name : Bytes) : Prop :=
  name ≠ [] ∧ ∀ r ∈ runes name, letter r = true ∨ r ∈ (bs! "!#$%&()*+-./:;<=>?@[]^_{|}~ ").map (·.toNat)

open Classical in
/-- Go's treatment of one field; `tree` gives the fields of the struct types. -/
noncomputable def goItem (letter : Nat → Bool) (tree : Nat → List SItem) (f : FieldDecl) : SItem :=
  if f.unexported = true ∧ (f.anonymous = false ∨ ∃ refs, f.kind = .other refs) then .skip
  else if f.tag = bs! "-" then .skip
  else if GoodName letter (tagText f.tag) then .direct (tagText f.tag) true
  else if f.anonymous = true then
    match f.kind with
    | .struct id => .embed (tree id)
    | .ptr id => .embed (tree id)
    | .other _ => .direct f.goName false
  else .direct f.goName false

/-- `tree` gives the fields of each of the struct types `env`, with those they embed. -/
def Unfolds (letter : Nat → Bool) (env : Nat → List FieldDecl) (tree : Nat → List SItem) : Prop :=
  ∀ id, tree id = (env id).map (goItem letter tree)

/-- An ordinary declaration: the tag, if it gives a name, gives one that the package knows as valid, and
is not on an embedded field of an unexported type other than a struct. -/
def Plain (letter : Nat → Bool) (f : FieldDecl) : Prop :=
  f.goName ≠ bs! "-" ∧ (tagText f.tag = [] ∨ GoodName letter (tagText f.tag) ∧ (ch! ';').toNat ∉ runes (tagText f.tag)) ∧
  ¬ (f.unexported = true ∧ f.anonymous = true ∧ (∃ refs, f.kind = .other refs) ∧ tagText f.tag ≠ [])

/-- Ordinary, or not embedded and without a semicolon in the name. -/
def PlainName (letter : Nat → Bool) (f : FieldDecl) : Prop :=
  Plain letter f ∨ f.anonymous = false ∧ f.goName ≠ bs! "-" ∧ (ch! ';').toNat ∉ runes (tagText f.tag)

/-- The types do not embed themselves, not even by way of the types of other fields. -/
structure Layered (env : Nat → List FieldDecl) (count : Nat) (rank : Nat → Nat) : Prop where
  closed : ∀ id, ∀ f ∈ env id, ∀ r ∈ f.kind.refs, r < count
  embed : ∀ id, ∀ f ∈ env id, f.anonymous = true → ∀ r, f.kind = .struct r ∨ f.kind = .ptr r → rank r < rank id
  field : ∀ id, ∀ f ∈ env id, ∀ r ∈ f.kind.refs, rank r ≤ rank id

end JC.Spec

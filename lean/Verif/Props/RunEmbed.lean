import Verif.Lemmas.RunFlat
import Verif.Lemmas.RunEnough
import Verif.Props.Run
/-!
Property C85: `Unmarshal` into a variable of a declared type with embedded structs stores every member in the field that Go's
rule names.
-/
namespace JC.Props
open JC Spec

/-- **C85** Full statement: for all declared types that do not embed themselves, with the members that Go's rule gives.
Refuted by `C85_fails`; see `C85_unmarshal_partial`. -/
def C85_statement : Prop := ∀ c w letter env count rank tree mem (z : NTy → DV) n k t b p, GoEnvP env → Named env → GoType t → ClosedP env count t →
  (∀ t, z (.base t) = zero t) → Layered env.decls count rank → Unfolds letter env.decls tree → (∀ id, MembersOf (tree id) (mem id)) →
  unmarshalV c w letter env count (fun t => z (reading w env.ty t)) (fun id => z (.ref id)) n k t b p = unmarshalS c w env mem z n k t b p

/-- No map has keys of type `time.Duration`. -/
def NoDurKeysP (env : PEnv) (t : GT) : Prop :=
  NoDurKeys t ∧ ∀ id a, Contains env t id a → ∀ f ∈ (env id).fields, Shown f → embeds f = none → NoDurKeys f.type

/-- The conditions of C40, C79 and C82: types are fair, tags are ordinary, types do not embed themselves, names do not collide but as `Tame` says. -/
structure Ordinary (letter : Nat → Bool) (env : PEnv) (count : Nat) (rank : Nat → Nat) (tree : Nat → List SItem) (t : GT) : Prop where
  go : GoEnvP env
  named : Named env
  type : GoType t
  closed : ClosedP env count t
  fair : AllFairDecP env t
  keys : NoDurKeysP env t
  layered : Layered env.decls count rank
  plain : ∀ id, ∀ f ∈ env.decls id, Plain letter f
  unfolds : Unfolds letter env.decls tree
  tame : ∀ id a, Contains env t id a → Tame (tree id)

/-- The members of C40 are Go's, where C40 says so. -/
theorem members_of {letter : Nat → Bool} {env : PEnv} {count : Nat} {rank : Nat → Nat} {tree : Nat → List SItem} {id : Nat} (hid : id < count)
    (hl : Layered env.decls count rank) (hp : ∀ id, ∀ f ∈ env.decls id, Plain letter f)
    (hu : Unfolds letter env.decls tree) (ht : Tame (tree id)) : MembersOf (tree id) ((structFields letter env.decls count id).map fun s => (s.name, s.path)) := by
  refine ⟨?_, ?_⟩
  · rw [List.map_map]
    exact C40_order (letter := letter) (env := env.decls) (root := id) (show 0 < count by omega)
  · intro n p
    rw [← C40_choice_partial hid hl hp hu ht]
    simp only [List.mem_map, Prod.mk.injEq]
    constructor
    · rintro ⟨s, h1, h2, h3⟩; exact ⟨s, h1, h3, h2⟩
    · rintro ⟨s, h1, h2, h3⟩; exact ⟨s, h1, h3, h2⟩

section
variable {c : DCfg} {w : Decls} {letter : Nat → Bool} {env : PEnv} {count : Nat} {rank : Nat → Nat} {tree : Nat → List SItem}
  {mem : Nat → List (Bytes × List Nat)} {z : NTy → DV} {t : GT}

/-- **C85** (partial: for ordinary types, see `Ordinary`) For every input and every variable, `Unmarshal` has the result of storing each
member where Go's rule says, through embedded structs and pointers, decoded as the declared type of the field says; for structs in
any place within the variable, recursive ones too. -/
theorem C85_unmarshal_partial (ho : Ordinary letter env count rank tree t) (hm : ∀ id a, Contains env t id a → MembersOf (tree id) (mem id))
    (hz : ∀ t, z (.base t) = zero t) (n k : Nat) (b : Bytes) (p : DV) :
    unmarshalV c w letter env count (fun t => z (reading w env.ty t)) (fun id => z (.ref id)) n k t b p = unmarshalS c w env mem z n k t b p := by
  have hr := C79_dec_partial (letter := letter) ho.go ho.named ho.type ho.closed ho.fair
  have hrun := run_goDec (c := c) (dyn := dynN c k) (w := w) (env := env.ty) (z := fun t => z (reading w env.ty t)) (z' := z)
    (S := runStructP c (dynN c k) w env (codecP letter env count t).2 (fun t => z (reading w env.ty t)) (fun id => z (.ref id)) n)
    (S' := structS c (dynN c k) w env mem z n) (fun _ => rfl) t false ho.keys.1
    (fun x hx => runStructP_eq hz hr ho.closed ho.keys.2 ho.layered ho.plain ho.unfolds ho.tame hm n x.1 x.2 (.root hx))
  unfold unmarshalV unmarshalS
  simp only []
  rw [hr.1, hrun]
  rfl

/-- `Unmarshal` into a flat struct with these names and functions for its fields. -/
def unmarshalFlat (c : DCfg) (names : List Bytes) (decs : List Dec) (b : Bytes) (xs : List DV) : URes :=
  match parseInto (decodeStruct c names decs) b (.struct xs) with
  | .crash x => .crash x
  | .ok v r => .done v (if r ≠ [] then some .syntax else none)
  | .err v r e => .done v (if r ≠ [] then some .syntax else some e)

/-- **C85** (partial: for ordinary types) A variable of a struct type takes from any text what a flat struct with the promoted
fields would take, with the same error: `qs` are the places of the promoted fields, `HasField` says that the variable has the shape of its
type, and no field is behind a nil pointer of unexported type. -/
theorem C85_flat_partial {id : Nat} (ho : Ordinary letter env count rank tree (.struct id)) (hmeth : (env id).meths.ptr.jsonU = false ∧ (env id).meths.ptr.textU = false)
    (hm : ∀ id' a, Contains env (.struct id) id' a → MembersOf (tree id') (mem id')) (hz : ∀ t, z (.base t) = zero t)
    {qs : List Place} (hq : (mem id).map (fun m => place env id m.2) = qs.map some) {vs : List DV}
    (hf : ∀ q ∈ qs, HasField (fun id => z (.ref id)) q.way q.idx (.struct vs)) (hb : ∀ q ∈ qs, barred (fun id => z (.ref id)) q.way (.struct vs) = false)
    (n k : Nat) (b : Bytes) :
    let flat := unmarshalFlat c ((mem id).map (·.1))
      (qs.map fun q => decWith c (dynN c k) (structS c (dynN c k) w env mem z n) z (fieldReading w env.ty (option q.field))) b
      (flatten (fun id => z (.ref id)) qs (.struct vs))
    let r := unmarshalV c w letter env count (fun t => z (reading w env.ty t)) (fun id => z (.ref id)) (n + 1) k (.struct id) b (.struct vs)
    (∀ x, flat = .crash x → r = .crash x) ∧
    ∀ x e, flat = .done x e → ∃ u, r = .done u e ∧ x = .struct (flatten (fun id => z (.ref id)) qs u) := by
  simp only []
  rw [C85_unmarshal_partial ho hm hz]
  have hroot : Contains env (.struct id) id false := .root (by simp [ctx])
  have hid := contains_lt ho.closed hroot
  have hr := C79_dec_partial (letter := letter) ho.go ho.named ho.type ho.closed ho.fair
  obtain ⟨ss, h1, h2⟩ := hr.2 id false hroot
  have htab := codecP_table ho.closed ho.layered ho.plain ho.unfolds hid h1
  have hmem := members_eq hid ho.layered ho.plain ho.unfolds (ho.tame id false hroot) (hm id false hroot)
  rw [← htab, List.map_map] at hmem
  have hreach : ∀ m ∈ mem id, ∃ k f via, Reaches env id m.2 k f via := by
    intro m hmm
    rw [hmem, List.mem_map] at hmm
    obtain ⟨s, hs, rfl⟩ := hmm
    obtain ⟨k, f, hre, _⟩ := h2 s hs
    exact ⟨k, f, s.via, hre⟩
  have hpw := (hm id false hroot).1
  have hget : ∀ (i : Nat) (q : Place), qs[i]? = some q → ∃ m, (mem id)[i]? = some m ∧ place env id m.2 = some q := by
    intro i q hi
    have := congrArg (·[i]?) hq
    simp only [List.getElem?_map, hi, Option.map_some] at this
    cases hmi : (mem id)[i]? with
    | none => rw [hmi] at this; cases this
    | some m => rw [hmi] at this; simp only [Option.map_some, Option.some.injEq] at this; exact ⟨m, rfl, this⟩
  have hflat : PromFlat (fun id => z (.ref id)) qs (.struct vs) := by
    refine ⟨?_, hf, hb⟩
    intro i j q q' hij hi hj
    obtain ⟨m, m1, m2⟩ := hget i q hi
    obtain ⟨m', m1', m2'⟩ := hget j q' hj
    obtain ⟨_, _, _, hre⟩ := hreach m (List.mem_of_getElem? m1)
    obtain ⟨_, _, _, hre'⟩ := hreach m' (List.mem_of_getElem? m1')
    refine place_apart hre hre' ?_ m2 m2'
    intro e
    rw [List.pairwise_iff_getElem] at hpw
    obtain ⟨l1, g1⟩ := List.getElem?_eq_some_iff.1 m1
    obtain ⟨l2, g2⟩ := List.getElem?_eq_some_iff.1 m1'
    rcases Nat.lt_or_gt_of_ne hij with h | h
    · have := hpw i j (by simpa using l1) (by simpa using l2) h
      simp only [List.getElem_map, g1, g2, e] at this
      exact C40_before_irrefl _ this
    · have := hpw j i (by simpa using l2) (by simpa using l1) h
      simp only [List.getElem_map, g1, g2, e] at this
      exact C40_before_irrefl _ this
  have hread : reading w env.ty (.struct id) = .ref id := by
    unfold reading byMethod
    have e1 : (env.ty id).meths = (env id).meths := rfl
    simp [e1, hmeth.1, hmeth.2]
  have hdecs : structS c (dynN c k) w env mem z (n + 1) id = decodeStructV c ((mem id).map (·.1)) (qs.map fun q =>
      intoPlace (fun id => z (.ref id)) q (decWith c (dynN c k) (structS c (dynN c k) w env mem z n) z (fieldReading w env.ty (option q.field)))) := by
    rw [structS]
    congr 1
    apply List.ext_getElem?
    intro i
    have := congrArg (·[i]?) hq
    simp only [List.getElem?_map] at this ⊢
    cases hmi : (mem id)[i]? with
    | none =>
      rw [hmi] at this
      cases hqi : qs[i]? with
      | none => rfl
      | some q => rw [hqi] at this; cases this
    | some m =>
      rw [hmi] at this
      cases hqi : qs[i]? with
      | none => rw [hqi] at this; cases this
      | some q =>
        rw [hqi] at this
        simp only [Option.map_some, Option.some.injEq] at this
        simp only [Option.map_some, this]
  have hsame := decodeStructV_flat (c := c) (names := (mem id).map (·.1))
    (decs := fun q => decWith c (dynN c k) (structS c (dynN c k) w env mem z n) z (fieldReading w env.ty (option q.field))) hflat rfl (skipSpaces b)
  unfold unmarshalFlat unmarshalS parseInto
  rw [hread, decWith, hdecs]
  revert hsame
  generalize decodeStructV c _ _ (skipSpaces b) (.struct vs) = r1
  generalize decodeStruct c _ _ (skipSpaces b) (.struct (flatten _ qs (.struct vs))) = r2
  intro hsame
  cases hsame with
  | ok v r h => simp
  | err v r e h => simp
  | crash x => simp

/-- **C85** (partial: for ordinary types) The stack: as in C80, one call of `decodeStruct` more than the text has opening braces is enough;
embedded structs take none. -/
theorem C85_enough_partial (ho : Ordinary letter env count rank tree t) (hz : ∀ t, z (.base t) = zero t) (n m k : Nat) (b : Bytes) (p : DV)
    (hn : braces b < n) (hm : braces b < m) :
    unmarshalV c w letter env count (fun t => z (reading w env.ty t)) (fun id => z (.ref id)) n k t b p =
      unmarshalV c w letter env count (fun t => z (reading w env.ty t)) (fun id => z (.ref id)) m k t b p := by
  have hmem : ∀ id a, Contains env t id a → MembersOf (tree id) ((structFields letter env.decls count id).map fun s => (s.name, s.path)) := fun id a h =>
    members_of (contains_lt ho.closed h) ho.layered ho.plain ho.unfolds (ho.tame id a h)
  rw [C85_unmarshal_partial ho hmem hz, C85_unmarshal_partial ho hmem hz]
  have hd := dynN_suff c k
  unfold unmarshalS parseInto
  rw [decWith_same (S' := structS c (dynN c k) w env _ z m) hd (structS_suff hd w env _ z n) (b := skipSpaces b) ?_ _ _ (List.suffix_refl _)]
  intro id b' hb p
  have := braces_suf (hb.trans (skip_suf b))
  exact structS_enough hd w env _ z n m id b' p (by omega) (by omega)

/-- **C85** (partial: for ordinary types) And it returns, whatever the text and the contents of the variable; zero values have nothing in
interfaces. -/
theorem C85_returns_partial (ho : Ordinary letter env count rank tree t) (hz : ∀ t, z (.base t) = zero t) (hh : ∀ k t, Held (fun _ => True) (z t) k) (p : DV) :
    ∃ k0, ∀ k, k0 ≤ k → ∀ b n, braces b < n →
      ∃ v e, unmarshalV c w letter env count (fun t => z (reading w env.ty t)) (fun id => z (.ref id)) n k t b p = .done v e := by
  obtain ⟨k0, h0⟩ := held_exists p
  refine ⟨k0, fun k hk b n hn => ?_⟩
  have hle : braces b ≤ b.length := List.count_le_length
  rw [C85_enough_partial ho hz n (b.length + 1) k b p hn (by omega)]
  have hr := C79_dec_partial (letter := letter) ho.go ho.named ho.type ho.closed ho.fair
  classical
  let mem : Nat → List (Bytes × List Nat) := fun id => if ∃ a, Contains env t id a then (structFields letter env.decls count id).map fun s => (s.name, s.path) else []
  have hmem : ∀ id a, Contains env t id a → MembersOf (tree id) (mem id) := by
    intro id a h
    have : mem id = (structFields letter env.decls count id).map fun s => (s.name, s.path) := if_pos ⟨a, h⟩
    rw [this]
    exact members_of (contains_lt ho.closed h) ho.layered ho.plain ho.unfolds (ho.tame id a h)
  have hled : ∀ id, ∀ m ∈ mem id, ∃ q, place env id m.2 = some q := by
    intro id m hm
    by_cases h : ∃ a, Contains env t id a
    · obtain ⟨a, h⟩ := h
      have hid := contains_lt ho.closed h
      obtain ⟨ss, h1, h2⟩ := hr.2 id a h
      have htab := codecP_table ho.closed ho.layered ho.plain ho.unfolds hid h1
      have heq := members_eq hid ho.layered ho.plain ho.unfolds (ho.tame id a h) (hmem id a h)
      rw [← htab, List.map_map] at heq
      rw [heq, List.mem_map] at hm
      obtain ⟨s, hs, rfl⟩ := hm
      obtain ⟨_, _, hre, _⟩ := h2 s hs
      obtain ⟨q, hq, _⟩ := atPath_place (zs := fun _ => .ptrNil) (dec := fun _ _ _ => .crash .panic) hre
      exact ⟨q, hq⟩
    · have : mem id = [] := if_neg h
      rw [this] at hm
      cases hm
  rw [C85_unmarshal_partial ho hmem hz]
  have hnc := decWith_nc (c := c) (dynN_nc c k) (dynN_pres c k) (dynN_prog c k) (hh k)
    (structS_nc (c := c) (dynN_nc c k) (dynN_pres c k) (dynN_prog c k) (hh k) w env mem hled (b.length + 1)) (structS_prog (dynN_prog c k) w env mem _)
    (reading w env.ty t)
  unfold unmarshalS
  split
  · rename_i x h
    exact absurd h (parseInto_nc hnc b (Nat.lt_succ_self _) p (h0 k hk) x)
  · exact ⟨_, _, rfl⟩
  · exact ⟨_, _, rfl⟩

/-- **C85** On types without embedded fields this is C82. -/
theorem C85_plain (depth : Nat) {names : Nat → List Bytes} (hm : ∀ id, mem id = (names id).zip ((List.range (env id).fields.length).map fun i => [i]))
    (hn : ∀ id, (names id).length = (env id).fields.length) (n k : Nat) (b : Bytes) (p : DV) :
    let E : REnv := fun id => (names id).zip ((env id).fields.map fun f => fieldReading w env.ty (option f))
    unmarshalS c w env mem (zeroR E depth) n k t b p = unmarshalR c E depth n k (reading w env.ty t) b p := by
  intro E
  have hs : ∀ dyn n id, structS c dyn w env mem (zeroR E depth) n id = structR c dyn E depth n id := by
    intro dyn n
    induction n with
    | zero => intro id; rfl
    | succ n ih =>
      intro id
      have ih' : structS c dyn w env mem (zeroR E depth) n = structR c dyn E depth n := funext ih
      have e1 : (mem id).map (·.1) = (E id).map (·.1) := by
        rw [hm id, zip_fst _ _ (by simp [hn id]), zip_fst _ _ (by simp [hn id])]
      rw [structS, structR, e1, ih']
      refine decodeStructV_plain ?_
      intro i
      simp only [E, hm id, List.getElem?_map, List.zip, List.getElem?_zipWith]
      cases hi : (names id)[i]? with
      | none => simp
      | some nm =>
        obtain ⟨hlt, _⟩ := List.getElem?_eq_some_iff.1 hi
        rw [hn id] at hlt
        simp only [List.getElem?_range hlt, Option.map_some, List.getElem?_eq_getElem hlt, place]
        rfl
  unfold unmarshalS unmarshalR
  have : structS c (dynN c k) w env mem (zeroR E depth) n = structR c (dynN c k) E depth n := funext (hs _ n)
  rw [this]
  cases k <;> rfl
end

/-! ### Examples and failures -/

/-- `type T struct { A int; *E; Kids []T }`, `type E struct { A, B bool; *f }`, `type f struct { C string }` -/
def kidsEnv : PEnv
  | 0 => ⟨[{ goName := bs! "A", type := .basic (.int .int) {} }, { goName := bs! "E", anonymous := true, type := .ptr (.struct 1) },
      { goName := bs! "Kids", type := .slice (.struct 0) {} }], {}⟩
  | 1 => ⟨[{ goName := bs! "A", type := .basic .bool {} }, { goName := bs! "B", type := .basic .bool {} },
      { goName := bs! "f", anonymous := true, unexported := true, type := .ptr (.struct 2) }], {}⟩
  | 2 => ⟨[{ goName := bs! "C", type := .basic .string {} }], {}⟩
  | _ => ⟨[], {}⟩

def kidsTree : Nat → List SItem
  | 0 => [.direct (bs! "A") false, .embed [.direct (bs! "A") false, .direct (bs! "B") false, .embed [.direct (bs! "C") false]], .direct (bs! "Kids") false]
  | 1 => [.direct (bs! "A") false, .direct (bs! "B") false, .embed [.direct (bs! "C") false]]
  | 2 => [.direct (bs! "C") false]
  | _ => []

theorem noTag : ¬ GoodName asciiLetter (tagText []) := fun h => h.1 rfl

/-- These types are ordinary. -/
theorem kids_ordinary : Ordinary asciiLetter kidsEnv 3 (fun id => 2 - id) kidsTree (.struct 0) := by
  refine ⟨?_, ?_, trivial, ⟨?_, ?_⟩, ⟨trivial, ?_⟩, ⟨trivial, ?_⟩, ⟨?_, ?_, ?_⟩, ?_, ?_, ?_⟩
  · rintro (_ | _ | _ | id) <;> simp [kidsEnv, GoType, Declarable, MethsLe]
  · rintro (_ | _ | _ | id) <;> simp [kidsEnv]
  · simp [ctx]
  · rintro (_ | _ | _ | id) <;> simp [kidsEnv, ctx]
  · rintro (_ | _ | _ | id) a _ <;> simp [kidsEnv, FairDec]
  · rintro (_ | _ | _ | id) a _ <;> simp [kidsEnv, NoDurKeys]
  · rintro (_ | _ | _ | id) <;> simp [PEnv.decls, kidsEnv, PField.decl, GT.isTime, GT.fkind, GT.structs, FKind.refs]
  · rintro (_ | _ | _ | id) <;> simp [PEnv.decls, kidsEnv, PField.decl, GT.isTime, GT.fkind, GT.structs]
  · rintro (_ | _ | _ | id) <;> simp [PEnv.decls, kidsEnv, PField.decl, GT.isTime, GT.fkind, GT.structs, FKind.refs]
  · rintro (_ | _ | _ | id) <;> simp [PEnv.decls, kidsEnv, PField.decl, GT.isTime, GT.fkind, GT.structs, Plain, tagText]
  · rintro (_ | _ | _ | id) <;> simp [PEnv.decls, kidsEnv, kidsTree, PField.decl, GT.isTime, GT.fkind, GT.structs, goItem, noTag]
  · rintro (_ | _ | _ | id) a _ <;> unfold Tame Hides
    · decide +kernel
    · decide +kernel
    · decide +kernel
    · simp [kidsTree, cands, candL]

/-- Their members. -/
def kidsMem (id : Nat) : List (Bytes × List Nat) := (structFields asciiLetter kidsEnv.decls 3 id).map fun s => (s.name, s.path)

theorem kids_members : ∀ id a, Contains kidsEnv (.struct 0) id a → MembersOf (kidsTree id) (kidsMem id) := fun _ _ h =>
  members_of (contains_lt kids_ordinary.closed h) kids_ordinary.layered kids_ordinary.plain kids_ordinary.unfolds (kids_ordinary.tame _ _ h)

example : kidsMem 0 = [(bs! "A", [0]), (bs! "B", [1, 1]), (bs! "C", [1, 2, 0]), (bs! "Kids", [2])] := by decide +kernel

/-- Their zero values. -/
def kidsZero : NTy → DV := zeroS demoDecls kidsEnv 3

/-- Concrete case: the embedded pointer is set where there is a member behind it, in the outer struct and in the second one in the
slice. The member `A` goes to the outer field. -/
example : (match unmarshalV { lib := noLib } demoDecls asciiLetter kidsEnv 3 (fun t => kidsZero (reading demoDecls kidsEnv.ty t)) (fun id => kidsZero (.ref id)) 3 0
      (.struct 0) (bs! "{\"A\":1,\"B\":true,\"Kids\":[{\"A\":2},{\"B\":true}]}") (kidsZero (.ref 0)) with
    | .done (.struct [.int 1, .ptr (.struct [.bool false, .bool true, .ptrNil]),
        .slice [.struct [.int 2, .ptrNil, .sliceNil], .struct [.int 0, .ptr (.struct [.bool false, .bool true, .ptrNil]), .sliceNil]] _]) none => true
    | _ => false) = true := by decide +kernel

/-- Concrete case: the field `C` cannot be set, for its pointer is of unexported type; the pointer before it is set. -/
example : (match unmarshalV { lib := noLib } demoDecls asciiLetter kidsEnv 3 (fun t => kidsZero (reading demoDecls kidsEnv.ty t)) (fun id => kidsZero (.ref id)) 3 0
      (.struct 0) (bs! "{\"A\":1,\"C\":\"x\"}") (kidsZero (.ref 0)) with
    | .done (.struct [.int 1, .ptr (.struct [.bool false, .bool false, .ptrNil]), .sliceNil]) (some (.other 3)) => true
    | _ => false) = true := by decide +kernel

/-- Concrete case: decoding into these types returns, from any text and into any variable. -/
example (b : Bytes) (p : DV) : ∃ k v e, unmarshalV { lib := noLib } demoDecls asciiLetter kidsEnv 3 (fun t => kidsZero (reading demoDecls kidsEnv.ty t))
    (fun id => kidsZero (.ref id)) (braces b + 1) k (.struct 0) b p = .done v e := by
  obtain ⟨k, h⟩ := C85_returns_partial (c := { lib := noLib }) (w := demoDecls) (z := kidsZero) kids_ordinary (fun t => rfl) (fun _ t => held_zeroS _ _ _ t) p
  exact ⟨k, h k (Nat.le_refl _) b _ (Nat.lt_succ_self _)⟩

/-- Concrete case: one brace, one call, though three structs are within each other; with no room there is no result. -/
example : (match unmarshalV { lib := noLib } demoDecls asciiLetter kidsEnv 3 (fun t => kidsZero (reading demoDecls kidsEnv.ty t)) (fun id => kidsZero (.ref id)) 1 0
      (.struct 0) (bs! "{\"B\":true}") (kidsZero (.ref 0)),
    unmarshalV { lib := noLib } demoDecls asciiLetter kidsEnv 3 (fun t => kidsZero (reading demoDecls kidsEnv.ty t)) (fun id => kidsZero (.ref id)) 1 0
      (.struct 0) (bs! "{\"Kids\":[{}]}") (kidsZero (.ref 0)) with
    | .done (.struct [.int 0, .ptr (.struct [.bool false, .bool true, .ptrNil]), .sliceNil]) none, .crash .fuel => true
    | _, _ => false) = true := by decide +kernel

/-- `type R struct { A; B }`, `type A struct { X bool }`, `type B struct { C }`, `type C struct { X bool }` -/
def deepEnv : PEnv
  | 0 => ⟨[{ goName := bs! "A", anonymous := true, type := .struct 1 }, { goName := bs! "B", anonymous := true, type := .struct 2 }], {}⟩
  | 1 => ⟨[{ goName := bs! "X", type := .basic .bool {} }], {}⟩
  | 2 => ⟨[{ goName := bs! "C", anonymous := true, type := .struct 3 }], {}⟩
  | 3 => ⟨[{ goName := bs! "X", type := .basic .bool {} }], {}⟩
  | _ => ⟨[], {}⟩

/-- Go's members. -/
def deepMem : Nat → List (Bytes × List Nat)
  | 0 => [(bs! "X", [0, 0])]
  | 1 => [(bs! "X", [0])]
  | 2 => [(bs! "X", [0, 0])]
  | 3 => [(bs! "X", [0])]
  | _ => []

theorem deep_unfolds : Unfolds asciiLetter deepEnv.decls depthTree := by
  rintro (_ | _ | _ | _ | id) <;> simp [PEnv.decls, deepEnv, depthTree, PField.decl, GT.isTime, GT.fkind, GT.structs, goItem, noTag]

theorem deep_members : ∀ id, MembersOf (depthTree id) (deepMem id) := by
  rintro (_ | _ | _ | _ | id)
  all_goals
    refine ⟨by simp [deepMem], ?_⟩
    intro n p
    simp only [deepMem, List.mem_singleton, Prod.mk.injEq, List.not_mem_nil, false_iff]
    simp only [Dominant, cands, candL, candI, depthTree, List.map_cons, List.map_nil, List.append_nil, List.nil_append, List.cons_append, Cand.under, List.mem_cons, List.not_mem_nil, or_false, Cand.mk.injEq]
  · constructor
    · rintro ⟨rfl, rfl⟩
      refine ⟨false, .inl ⟨rfl, rfl, rfl⟩, ?_⟩
      rintro d (rfl | rfl) _ h
      · exact absurd rfl h
      · simp
    · rintro ⟨t, ⟨rfl, rfl, rfl⟩ | ⟨rfl, rfl, rfl⟩, h⟩
      · exact ⟨rfl, rfl⟩
      · have := h ⟨[0, 0], bs! "X", false⟩ (.inl rfl) rfl (by simp)
        simp at this
  · constructor
    · rintro ⟨rfl, rfl⟩
      exact ⟨false, ⟨rfl, rfl, rfl⟩, by rintro d rfl _ h; exact absurd rfl h⟩
    · rintro ⟨t, ⟨rfl, rfl, rfl⟩, _⟩; exact ⟨rfl, rfl⟩
  · constructor
    · rintro ⟨rfl, rfl⟩
      exact ⟨false, ⟨rfl, rfl, rfl⟩, by rintro d rfl _ h; exact absurd rfl h⟩
    · rintro ⟨t, ⟨rfl, rfl, rfl⟩, _⟩; exact ⟨rfl, rfl⟩
  · constructor
    · rintro ⟨rfl, rfl⟩
      exact ⟨false, ⟨rfl, rfl, rfl⟩, by rintro d rfl _ h; exact absurd rfl h⟩
    · rintro ⟨t, ⟨rfl, rfl, rfl⟩, _⟩; exact ⟨rfl, rfl⟩
  · rintro ⟨t, h, _⟩; exact h.elim

def deepZero : NTy → DV := zeroS demoDecls deepEnv 4

/-- The document `{"X":true}` is lost: the package finds two fields of this name and takes none, whereas by Go's rule it takes the one
that is less deep. -/
theorem C85_fails_depth :
    unmarshalV { lib := noLib } demoDecls asciiLetter deepEnv 4 (fun t => deepZero (reading demoDecls deepEnv.ty t)) (fun id => deepZero (.ref id)) 2 0 (.struct 0)
      (bs! "{\"X\":true}") (deepZero (.ref 0)) = .done (.struct [.struct [.bool false], .struct [.struct [.bool false]]]) none ∧
    unmarshalS { lib := noLib } demoDecls deepEnv deepMem deepZero 2 0 (.struct 0) (bs! "{\"X\":true}") (deepZero (.ref 0)) =
      .done (.struct [.struct [.bool true], .struct [.struct [.bool false]]]) none := by
  refine ⟨by with_unfolding_all rfl, ?_⟩
  unfold unmarshalS
  rw [structS_structQ]
  with_unfolding_all rfl

/-- The full statement is false. -/
theorem C85_fails : ¬ C85_statement := by
  intro h
  have := h { lib := noLib } demoDecls asciiLetter deepEnv 4 (fun id => 4 - id) depthTree deepMem deepZero 2 0 (.struct 0) (bs! "{\"X\":true}") (deepZero (.ref 0))
    (by rintro (_ | _ | _ | _ | id) <;> simp [deepEnv, GoType, Declarable, MethsLe])
    (by rintro (_ | _ | _ | _ | id) <;> simp [deepEnv])
    trivial
    ⟨by simp [ctx], by rintro (_ | _ | _ | _ | id) <;> simp [deepEnv, ctx]⟩
    (fun t => rfl)
    ⟨by rintro (_ | _ | _ | _ | id) <;> simp [PEnv.decls, deepEnv, PField.decl, GT.isTime, GT.fkind, GT.structs, FKind.refs],
      by rintro (_ | _ | _ | _ | id) <;> simp [PEnv.decls, deepEnv, PField.decl, GT.isTime, GT.fkind, GT.structs],
      by rintro (_ | _ | _ | _ | id) <;> simp [PEnv.decls, deepEnv, PField.decl, GT.isTime, GT.fkind, GT.structs, FKind.refs]⟩
    deep_unfolds deep_members
  rw [C85_fails_depth.1, C85_fails_depth.2] at this
  cases this

end JC.Props

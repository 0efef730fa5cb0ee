import Verif.Lemmas.RunEncE
import Verif.Props.RunEmbed
import Verif.Props.RunEnc
/-!
Property C86: `Marshal` of a variable of a declared type with embedded structs writes the members that Go's rule gives.
-/
namespace JC.Props
open JC Spec

/-- **C86** Full statement: for all declared types that do not embed themselves, with the members that Go's rule gives.
Refuted by `C86_fails`; see `C86_seen_partial`, `C86_view_partial` and `C86_settled_partial`. -/
def C86_statement : Prop := ∀ cf w d word letter env count rank tree mem t v, GoEnvP env → Named env → GoType t → ClosedP env count t →
  Layered env.decls count rank → Unfolds letter env.decls tree → (∀ id, MembersOf (tree id) (mem id)) →
  appendP cf w d word letter env count t v = enc cf (viewS none w d env mem v t)

/-- The conditions of C40, C79 and C83: types are fair, a field is encoded in the same way wherever its struct is, tags are ordinary, types do not embed
themselves, names do not collide but as `Tame` says. -/
structure OrdinaryEnc (letter : Nat → Bool) (env : PEnv) (count : Nat) (rank : Nat → Nat) (tree : Nat → List SItem) (t : GT) : Prop where
  go : GoEnvP env
  named : Named env
  type : GoType t
  closed : ClosedP env count t
  fair : AllFairEncP env t
  oneWay : OneWayP env t
  keys : NoDurKeysP env t
  layered : Layered env.decls count rank
  plain : ∀ id, ∀ f ∈ env.decls id, Plain letter f
  unfolds : Unfolds letter env.decls tree
  tame : ∀ id a, Contains env t id a → Tame (tree id)

section
variable {w : Decls} {d : MDecls} {word : GT → Bool → Bool} {letter : Nat → Bool} {env : PEnv} {count : Nat} {rank : Nat → Nat} {tree : Nat → List SItem}
  {mem : Nat → List (Bytes × List Nat)} {t : GT}

/-- **C86** (partial: for ordinary types, see `OrdinaryEnc`) For every variable, what the package writes: the members of Go's rule in order of
declaration, at any place within the variable, each written as the declared type of its field, its options, its methods and its addressability say. A field
behind a nil embedded pointer is rolled back, and the test for `omitempty` of a field behind any embedded pointer is that of `word`. -/
theorem C86_seen_partial (ho : OrdinaryEnc letter env count rank tree t) (hm : ∀ id a, Contains env t id a → MembersOf (tree id) (mem id)) (cf : Cfg) (v : DV) :
    appendP cf w d word letter env count t v = enc cf (viewS (some word) w d env mem v t) := by
  have hr := C79_enc_partial (letter := letter) ho.go ho.named ho.type ho.closed ho.fair ho.oneWay
  unfold appendP viewS
  simp only []
  rw [hr.1, goEnc_split, seeP_choose (seeP_kind hr ho.closed ho.keys.2 ho.layered ho.plain ho.unfolds ho.tame hm (sizeOf v) v t false (Nat.le_refl _) ho.keys.1
    fun x hx => .root hx)]

/-- **C86** (partial: for ordinary types, and variables in which nil embedded pointers come first and the test for `omitempty` answers as for the field itself, see
`Neat`) What is written is what `encoding/json` writes: fields behind nil pointers leave no trace. -/
theorem C86_view_partial (ho : OrdinaryEnc letter env count rank tree t) (hm : ∀ id a, Contains env t id a → MembersOf (tree id) (mem id)) (cf : Cfg) (v : DV)
    (hn : Neat cf (viewS (some word) w d env mem v t)) : appendP cf w d word letter env count t v = enc cf (viewS none w d env mem v t) := by
  rw [C86_seen_partial ho hm, ← enc_prune cf _ hn]
  unfold viewS
  rw [prune_answered, (kindS_prune _ _ _ _).1]

/-- **C86** (partial: for ordinary types) The same for variables in which no embedded pointer is nil and no field behind one has the option `omitempty`; in
particular if no pointers are embedded. -/
theorem C86_settled_partial (ho : OrdinaryEnc letter env count rank tree t) (hm : ∀ id a, Contains env t id a → MembersOf (tree id) (mem id)) (cf : Cfg) (v : DV)
    (hs : Settled env mem t v) : appendP cf w d word letter env count t v = enc cf (viewS none w d env mem v t) :=
  C86_view_partial ho hm cf v (answered_neat (settled_neat hs _ _)).1
end

/-! ### Concrete types -/

theorem kids_ordinaryEnc : OrdinaryEnc asciiLetter kidsEnv 3 (fun id => 2 - id) kidsTree (.struct 0) := by
  obtain ⟨h1, h2, h3, h4, h5, h6, h7, h8, h9, h10⟩ := kids_ordinary
  refine ⟨h1, h2, h3, h4, ⟨?_, ?_⟩, ?_, h6, h7, h8, h9, h10⟩
  · simp [FairEnc, Unmixed, kidsEnv, PEnv.ty]
  · rintro (_ | _ | _ | id) a _ <;> simp [kidsEnv, FairEnc, FairQuote, Unmixed, option_eq, PField.quoted, splitComma, PEnv.ty]
  · rintro (_ | _ | _ | id) a a' _ _ <;> simp [kidsEnv, option_eq, PField.quoted, splitComma, goFieldEnc, goEnc, goChoose, Shown, embeds, tagText]

/-- Nothing next to a pointer looks like an empty value, but for the nil pointer itself. -/
def kidsWord : GT → Bool → Bool := fun _ isNil => isNil

/-- Concrete case: the embedded pointers are set. -/
def kidsVar : DV := .struct [.int 1, .ptr (.struct [.bool true, .bool false, .ptr (.struct [.string (bs! "x")])]),
  .slice [.struct [.int 2, .ptr (.struct [.bool false, .bool true, .ptr (.struct [.string []])]), .sliceNil]] []]

example : appendP {} demoDecls mapMeths kidsWord asciiLetter kidsEnv 3 (.struct 0) kidsVar [] 0 =
    .done (bs! "{\"A\":1,\"B\":false,\"C\":\"x\",\"Kids\":[{\"A\":2,\"B\":true,\"C\":\"\",\"Kids\":null}]}") 0 none := by
  with_unfolding_all rfl

theorem kids_places : kidsMem 0 = [(bs! "A", [0]), (bs! "B", [1, 1]), (bs! "C", [1, 2, 0]), (bs! "Kids", [2])] := by decide +kernel

theorem kidsVar_settled : Settled kidsEnv kidsMem (.struct 0) kidsVar := by
  have key : ∀ a b c e ks, Settled kidsEnv kidsMem (.slice (.struct 0) {}) ks →
      Settled kidsEnv kidsMem (.struct 0) (.struct [.int a, .ptr (.struct [.bool b, .bool c, .ptr (.struct [.string e])]), ks]) := by
    intro a b c e ks hk
    refine .struct ?_ ?_
    · intro m hm q hq
      rw [kids_places] at hm
      simp only [List.mem_cons, List.not_mem_nil, or_false] at hm
      rcases hm with rfl | rfl | rfl | rfl <;> (simp [place, kidsEnv, embeds, tagText] at hq; subst hq; simp [found, DV.fields, far, HasOption])
    · intro m hm q x hq hx
      rw [kids_places] at hm
      simp only [List.mem_cons, List.not_mem_nil, or_false] at hm
      rcases hm with rfl | rfl | rfl | rfl <;>
        (simp [place, kidsEnv, embeds, tagText] at hq; subst hq; simp [found, DV.fields] at hx; subst hx)
      · exact .flat rfl
      · exact .flat rfl
      · exact .flat rfl
      · exact hk
  refine key _ _ _ _ _ (.slice ?_)
  intro x hx
  rw [List.mem_singleton.1 hx]
  exact key _ _ _ _ _ (.flat rfl)

example (cf : Cfg) : appendP cf demoDecls mapMeths kidsWord asciiLetter kidsEnv 3 (.struct 0) kidsVar = enc cf (viewS none demoDecls mapMeths kidsEnv kidsMem kidsVar (.struct 0)) :=
  C86_settled_partial kids_ordinaryEnc kids_members cf kidsVar kidsVar_settled

/-- `type P struct { *Q; N int; O []P }`, `type Q struct { M int ",omitempty" }` -/
def leadEnv : PEnv
  | 0 => ⟨[{ goName := bs! "Q", anonymous := true, type := .ptr (.struct 1) }, { goName := bs! "N", type := .basic (.int .int) {} },
      { goName := bs! "O", type := .slice (.struct 0) {} }], {}⟩
  | 1 => ⟨[{ goName := bs! "M", tag := bs! ",omitempty", type := .basic (.int .int) {} }], {}⟩
  | _ => ⟨[], {}⟩

def leadTree : Nat → List SItem
  | 0 => [.embed [.direct (bs! "M") false], .direct (bs! "N") false, .direct (bs! "O") false]
  | 1 => [.direct (bs! "M") false]
  | _ => []

def leadMem (id : Nat) : List (Bytes × List Nat) := (structFields asciiLetter leadEnv.decls 2 id).map fun s => (s.name, s.path)

theorem lead_ordinaryEnc : OrdinaryEnc asciiLetter leadEnv 2 (fun id => 1 - id) leadTree (.struct 0) := by
  refine ⟨?_, ?_, trivial, ⟨?_, ?_⟩, ⟨?_, ?_⟩, ?_, ⟨trivial, ?_⟩, ⟨?_, ?_, ?_⟩, ?_, ?_, ?_⟩
  · rintro (_ | _ | id) <;> simp [leadEnv, GoType, Declarable, MethsLe]
  · rintro (_ | _ | id) <;> simp [leadEnv]
  · simp [ctx]
  · rintro (_ | _ | id) <;> simp [leadEnv, ctx]
  · simp [FairEnc, Unmixed, leadEnv, PEnv.ty]
  · rintro (_ | _ | id) a _ <;> simp [leadEnv, FairEnc, FairQuote, Unmixed, option_eq, PField.quoted, splitComma, PEnv.ty]
  · rintro (_ | _ | id) a a' _ _ <;> simp [leadEnv, option_eq, PField.quoted, splitComma, goFieldEnc, goEnc, goChoose, Shown, embeds, tagText]
  · rintro (_ | _ | id) a _ <;> simp [leadEnv, NoDurKeys]
  · rintro (_ | _ | id) <;> simp [PEnv.decls, leadEnv, PField.decl, GT.isTime, GT.fkind, GT.structs, FKind.refs]
  · rintro (_ | _ | id) <;> simp [PEnv.decls, leadEnv, PField.decl, GT.isTime, GT.fkind, GT.structs]
  · rintro (_ | _ | id) <;> simp [PEnv.decls, leadEnv, PField.decl, GT.isTime, GT.fkind, GT.structs, FKind.refs]
  · rintro (_ | _ | id) <;> simp [PEnv.decls, leadEnv, PField.decl, GT.isTime, GT.fkind, GT.structs, Plain, tagText]
  · rintro (_ | _ | id) <;> simp [PEnv.decls, leadEnv, leadTree, PField.decl, GT.isTime, GT.fkind, GT.structs, goItem, noTag, splitComma, GoodName, tagText]
  · rintro (_ | _ | id) a _ <;> unfold Tame Hides
    · decide +kernel
    · decide +kernel
    · simp [leadTree, cands, candL]


theorem lead_members : ∀ id a, Contains leadEnv (.struct 0) id a → MembersOf (leadTree id) (leadMem id) := fun _ _ h =>
  members_of (contains_lt lead_ordinaryEnc.closed h) lead_ordinaryEnc.layered lead_ordinaryEnc.plain lead_ordinaryEnc.unfolds (lead_ordinaryEnc.tame _ _ h)

/-- Concrete case: nil pointers that come first leave no trace, in the variable and in the structs of its slice. -/
def leadVar : DV := .struct [.ptrNil, .int 1, .slice [.struct [.ptrNil, .int 2, .sliceNil], .struct [.ptr (.struct [.int 4]), .int 3, .sliceNil]] []]

theorem lead_view : viewS (some kidsWord) demoDecls mapMeths leadEnv leadMem leadVar (.struct 0) = .struct [(⟨bs! "M", true⟩, .embNil true), (⟨bs! "N", false⟩, .int 1),
    (⟨bs! "O", false⟩, .slice [.struct [(⟨bs! "M", true⟩, .embNil true), (⟨bs! "N", false⟩, .int 2), (⟨bs! "O", false⟩, .sliceNil)],
      .struct [(⟨bs! "M", true⟩, .emb (.int 4) false), (⟨bs! "N", false⟩, .int 3), (⟨bs! "O", false⟩, .sliceNil)]])] := by
  unfold viewS
  rw [kindS_kindQ]
  with_unfolding_all rfl

example : appendP {} demoDecls mapMeths kidsWord asciiLetter leadEnv 2 (.struct 0) leadVar [] 0 =
    .done (bs! "{\"N\":1,\"O\":[{\"N\":2,\"O\":null},{\"M\":4,\"N\":3,\"O\":null}]}") 0 none := by
  with_unfolding_all rfl

example (cf : Cfg) : appendP cf demoDecls mapMeths kidsWord asciiLetter leadEnv 2 (.struct 0) leadVar = enc cf (viewS none demoDecls mapMeths leadEnv leadMem leadVar (.struct 0)) := by
  refine C86_view_partial lead_ordinaryEnc lead_members cf leadVar ?_
  rw [lead_view]
  have first : ∀ m g h : FMeta × GV, isRollback g.2 = false → isRollback h.2 = false → NilsFirst [m, g, h] := by
    rintro m g h hg hh i (_ | _ | _ | j) f x hi hj hf hb
    · rcases i with _ | i
      · simp at hi hj; subst hi; subst hj; exact absurd hb.2 (by simp [hf.2])
      · omega
    · simp at hj; subst hj; exact absurd hb.2 (by simp [hg])
    · simp at hj; subst hj; exact absurd hb.2 (by simp [hh])
    · simp at hj
  simp only [Neat, NeatF, NeatL]
  refine ⟨first _ _ _ rfl rfl, .inr (.inl (by simp [pruneF])), ⟨by simp, trivial, ⟨by simp, trivial, by simp, ⟨⟨first _ _ _ rfl rfl, .inr (.inl (by simp [pruneF])), ?_⟩,
    ⟨first _ _ _ rfl rfl, .inr (.inl (by simp [pruneF])), ?_⟩, trivial⟩, trivial⟩⟩⟩
  · exact ⟨by simp, trivial, by simp, trivial, by simp, trivial, trivial⟩
  · refine ⟨?_, trivial, by simp, trivial, by simp, trivial, trivial⟩
    intro _ g z h
    cases h
    simp [prune, isEmpty]

/-! ### Where it fails -/

/-- A nil pointer that comes later leaves commas. -/
theorem C86_fails_comma :
    appendP {} demoDecls mapMeths kidsWord asciiLetter kidsEnv 3 (.struct 0) (.struct [.int 1, .ptrNil, .sliceNil]) [] 0 = .done (bs! "{\"A\":1,,,\"Kids\":null}") 0 none ∧
    enc {} (viewS none demoDecls mapMeths kidsEnv kidsMem (.struct [.int 1, .ptrNil, .sliceNil]) (.struct 0)) [] 0 = .done (bs! "{\"A\":1,\"Kids\":null}") 0 none := by
  refine ⟨by with_unfolding_all rfl, ?_⟩
  unfold viewS
  rw [kindS_kindQ]
  with_unfolding_all rfl

/-- The option `omitempty` does not drop a zero behind a pointer. -/
theorem C86_fails_omitempty :
    appendP {} demoDecls mapMeths kidsWord asciiLetter leadEnv 2 (.struct 0) (.struct [.ptr (.struct [.int 0]), .int 1, .sliceNil]) [] 0 =
      .done (bs! "{\"M\":0,\"N\":1,\"O\":null}") 0 none ∧
    enc {} (viewS none demoDecls mapMeths leadEnv leadMem (.struct [.ptr (.struct [.int 0]), .int 1, .sliceNil]) (.struct 0)) [] 0 =
      .done (bs! "{\"N\":1,\"O\":null}") 0 none := by
  refine ⟨by with_unfolding_all rfl, ?_⟩
  unfold viewS
  rw [kindS_kindQ]
  with_unfolding_all rfl

/-- A field that Go's rule finds is not written, as in C85. -/
theorem C86_fails_depth :
    appendP {} demoDecls mapMeths kidsWord asciiLetter deepEnv 4 (.struct 0) (.struct [.struct [.bool true], .struct [.struct [.bool false]]]) [] 0 = .done (bs! "{}") 0 none ∧
    enc {} (viewS none demoDecls mapMeths deepEnv deepMem (.struct [.struct [.bool true], .struct [.struct [.bool false]]]) (.struct 0)) [] 0 =
      .done (bs! "{\"X\":true}") 0 none := by
  refine ⟨by with_unfolding_all rfl, ?_⟩
  unfold viewS
  rw [kindS_kindQ]
  with_unfolding_all rfl

/-- The full statement is false. -/
theorem C86_fails : ¬ C86_statement := by
  intro h
  have := h {} demoDecls mapMeths kidsWord asciiLetter deepEnv 4 (fun id => 4 - id) depthTree deepMem (.struct 0) (.struct [.struct [.bool true], .struct [.struct [.bool false]]])
    (by rintro (_ | _ | _ | _ | id) <;> simp [deepEnv, GoType, Declarable, MethsLe])
    (by rintro (_ | _ | _ | _ | id) <;> simp [deepEnv])
    trivial
    ⟨by simp [ctx], by rintro (_ | _ | _ | _ | id) <;> simp [deepEnv, ctx]⟩
    ⟨by rintro (_ | _ | _ | _ | id) <;> simp [PEnv.decls, deepEnv, PField.decl, GT.isTime, GT.fkind, GT.structs, FKind.refs],
      by rintro (_ | _ | _ | _ | id) <;> simp [PEnv.decls, deepEnv, PField.decl, GT.isTime, GT.fkind, GT.structs],
      by rintro (_ | _ | _ | _ | id) <;> simp [PEnv.decls, deepEnv, PField.decl, GT.isTime, GT.fkind, GT.structs, FKind.refs]⟩
    deep_unfolds deep_members
  have h2 := C86_fails_depth
  rw [this, h2.2] at h2
  injection h2.1 with h3
  revert h3
  decide

end JC.Props

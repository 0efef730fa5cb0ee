import Verif.Lemmas.EmbedMembers
/-!
C66: decoding into structs with embedded structs and embedded pointers to structs.

Full statement: a struct with embedded structs and pointers takes from a text exactly what a flat struct with the
promoted fields would take, with the same error; a field behind a nil pointer counts as zero; a nil embedded
pointer is set exactly when a member is stored behind it, and never if its type is unexported.

`C66_flat` and `C66_grows` are for all inputs. That a pointer is set exactly when a member goes behind it is
`C66_members_partial`; missing there are the cases that C42 leaves out.
-/
namespace JC.Props
open JC Spec

/-- The flat struct type with the promoted fields of `fs`. -/
def flatTy (fs : List EF) : Ty := .struct ((promoted fs).map fun a => (a.1, a.2.2))

mutual
/-- A field as `Model/Fields.lean` sees it, for C40. -/
def EFbase : EF → FEntry
  | .skip _ => .skip
  | .leaf name isTag _ => .direct name isTag
  | .val fs => .embed (resolve (EFbases fs))
  | .ptr _ fs => .embed (resolve (EFbases fs))
def EFbases : List EF → List FEntry
  | [] => []
  | f :: fs => EFbase f :: EFbases fs
end

mutual
theorem entry_base : ∀ (o : Nat) (f : EF), (entryE o f).base = EFbase f
  | _, .skip _ => by simp only [entryE, EEntry.base, EFbase]
  | _, .leaf _ _ _ => by simp only [entryE, EEntry.base, EFbase]
  | _, .val fs => by simp only [entryE, EEntry.base, EFbase, resolveE_sf, entries_base 0 fs]
  | _, .ptr _ fs => by simp only [entryE, EEntry.base, EFbase, resolveE_sf, entries_base 0 fs]
theorem entries_base : ∀ (o : Nat) (fs : List EF), (entriesE o fs).map EEntry.base = EFbases fs
  | _, [] => by simp only [entriesE, List.map_nil, EFbases]
  | o, f :: fs => by simp only [entriesE, List.map_cons, EFbases, entry_base o f, entries_base _ fs]
end

/-- **C66** The promoted fields are those of C40: offsets and codecs play no part in the choice. -/
theorem C66_fields (fs : List EF) : (fieldsE fs).map (·.sf) = resolve (EFbases fs) := by
  rw [fieldsE, resolveE_sf, entries_base]

theorem parseInto_struct {c : DCfg} {n : Nat} {fs : List EF} : ∃ ds : List Dec,
    (∀ i : Nat, ds[i]? = (promoted fs)[i]?.map fun a => decN c n a.2.2) ∧ decN c n (flatTy fs) = decodeStruct c ((promoted fs).map (·.1)) ds := by
  obtain ⟨ds, h1, h2⟩ := decN_struct (c := c) (n := n) (fs := (promoted fs).map fun a => (a.1, a.2.2))
  refine ⟨ds, fun i => ?_, ?_⟩
  · rw [h1 i, List.getElem?_map, Option.map_map]; rfl
  · rw [flatTy, h2, List.map_map]; rfl

/-- **C66** Decoding any input, with or without success, does to the promoted fields what it would do to the
fields of a flat struct, and gives the same error. (`Views`: a field behind a nil pointer counts as zero. `AllOpen`:
no field is behind a nil pointer of unexported type.) -/
theorem C66_flat (c : DCfg) (n : Nat) (fs : List EF) (b : Bytes) {vs : List EV} {xs : List DV} (hs : ShapeL fs vs) (hv : Views fs vs xs)
    (ho : AllOpen fs vs) :
    (∀ x e, unmarshal c n (flatTy fs) b (.struct xs) = .done x e →
      ∃ ys ws, x = .struct ys ∧ unmarshalE c n fs b (memL vs) = .done (memL ws) e ∧ ShapeL fs ws ∧ Views fs ws ys) ∧
    ∀ q, unmarshal c n (flatTy fs) b (.struct xs) = .crash q → unmarshalE c n fs b (memL vs) = .crash q := by
  obtain ⟨ds, h1, h2⟩ := parseInto_struct (c := c) (n := n) (fs := fs)
  have h := struct_same h1 (skipSpaces b) hs hv ho
  simp only [unmarshal, parseInto, h2, unmarshalE]
  generalize decodeStructE c n (fieldsE fs) (skipSpaces b) (memL vs) = r1 at h
  generalize decodeStruct c ((promoted fs).map (·.1)) ds (skipSpaces b) (.struct xs) = r2 at h
  cases h with
  | ok ws ys r h1 h2 h3 =>
    simp only [URes.done.injEq, reduceCtorEq, false_implies, implies_true, and_true]
    rintro x e ⟨rfl, rfl⟩
    exact ⟨ys, ws, rfl, rfl, h1, h3⟩
  | err ws ys r e h1 h2 h3 =>
    simp only [URes.done.injEq, reduceCtorEq, false_implies, implies_true, and_true]
    rintro x e ⟨rfl, rfl⟩
    exact ⟨ys, ws, rfl, rfl, h1, h3⟩
  | crash q => simp

/-- **C66** Whatever the input, the memory afterwards is that of a value of the type, in which only named fields have
changed and nil pointers of exported type have become pointers to what was a zero value. So a pointer that was
not nil is not replaced, fields that are left out are not touched, and nil pointers of unexported type stay nil. -/
theorem C66_grows (c : DCfg) (n : Nat) (fs : List EF) (b : Bytes) {vs : List EV} (hs : ShapeL fs vs) {m : List Cell} {e : Option Err}
    (h : unmarshalE c n fs b (memL vs) = .done m e) : ∃ ws, m = memL ws ∧ ShapeL fs ws ∧ GrowsL fs vs ws := by
  have hk := struct_kept (c := c) (N := n) (skipSpaces b) hs
  unfold unmarshalE at h
  generalize decodeStructE c n (fieldsE fs) (skipSpaces b) (memL vs) = r1 at h hk
  cases hk with
  | ok ws r h1 h2 => injection h with h; exact ⟨ws, h.symm, h1, h2⟩
  | err ws r e h1 h2 => injection h with h; exact ⟨ws, h.symm, h1, h2⟩
  | crash q => cases h

/-- **C66** for objects: success means that the members can be stored one after the other, and then that is
the result. -/
def C66_statement : Prop := ∀ (c : DCfg) (n : Nat) (fs : List EF) (ms : List (Bytes × Json)) (b : Bytes) (vs : List EV) (m : List Cell),
  LibOk c.lib → JText (.obj ms) b → ShapeL fs vs → HeldE n fs vs →
  (unmarshalE c n fs b (memL vs) = .done m none ↔ ∃ ws, m = memL ws ∧ MembersE c n fs (promoted fs) ms vs ws)

/-- **C66** (partial) Decoding an object succeeds exactly when each member in turn can be decoded and stored, as `Unmarshal`
and `Stores` say, and then that is the result. So a nil pointer is set exactly when a member, even `null`, goes to a field behind it,
and a member for a field behind a nil pointer of unexported type is an error. Missing: non-ASCII names and keys
when case is ignored, raw messages and `Unmarshaler`s as fields. -/
theorem C66_members_partial {c : DCfg} (hl : LibOk c.lib) {n : Nat} {fs : List EF} (ht : ∀ a ∈ promoted fs, a.2.2.tree) {ms : List (Bytes × Json)} {b : Bytes}
    (hj : JText (.obj ms) b) (ha : c.noFold = true ∨ ((∀ a ∈ promoted fs, Ascii a.1) ∧ ∀ m ∈ ms, ∀ k, KeyMeans m.1 k → Ascii k))
    {vs : List EV} (hs : ShapeL fs vs) (hh : HeldE n fs vs) (m : List Cell) :
    unmarshalE c n fs b (memL vs) = .done m none ↔ ∃ ws, m = memL ws ∧ MembersE c n fs (promoted fs) ms vs ws := by
  have hjo := jsonOk_members (jtext_ok hj)
  obtain ⟨w1, v, w2, rfl, h1, h2, hv⟩ := hj
  have hd := object_E (N := n) hl ht hv w2 hs hh
  have e1 : skipSpaces (w1 ++ v ++ w2) = v ++ w2 := by
    rw [List.append_assoc]
    exact skip_ws_value h1 hv w2
  have e2 : skipSpaces w2 = [] := skipSpaces_ws h2
  simp only [← mj_iff hl ht ms hjo ha vs _ hs hh]
  unfold unmarshalE
  rw [e1]
  cases e : decodeStructE c n (fieldsE fs) (v ++ w2) (memL vs) with
  | crash q =>
    simp only [reduceCtorEq, false_iff]
    rintro ⟨ws, rfl, hm⟩
    rw [(hd (memL ws) w2).2 ⟨rfl, ws, rfl, hm⟩] at e; cases e
  | err m' r er =>
    constructor
    · intro h
      injection h with _ h
      split at h <;> cases h
    · rintro ⟨ws, rfl, hm⟩
      rw [(hd (memL ws) w2).2 ⟨rfl, ws, rfl, hm⟩] at e; cases e
  | ok m' r =>
    obtain ⟨rfl, ws, rfl, hm⟩ := (hd m' r).1 e
    simp only [e2, ne_eq, not_true_eq_false, if_false, ERes.done.injEq, and_true]
    constructor
    · rintro rfl; exact ⟨ws, rfl, hm⟩
    · rintro ⟨ws', rfl, hm'⟩
      rw [(hd (memL ws') r).2 ⟨rfl, ws', rfl, hm'⟩] at e
      injection e with e; exact e.symm

/-- **C66** fails where C42 fails: the member `éA` is not stored in the field `éa`. -/
theorem C66_fails_unicode : ¬ C66_statement := by
  intro h
  have hk : JString [0x22, 0xc3, 0xa9, 0x41, 0x22] := .mk [0xc3, 0xa9, 0x41]
    (.plain _ _ (by decide) (by decide) (by decide) (.plain _ _ (by decide) (by decide) (by decide) (.plain _ _ (by decide) (by decide) (by decide) .nil)))
  have hj : JText (.obj [([0x22, 0xc3, 0xa9, 0x41, 0x22], .tru)]) [0x7b, 0x22, 0xc3, 0xa9, 0x41, 0x22, 0x3a, 0x74, 0x72, 0x75, 0x65, 0x7d] := by
    refine ⟨[], _, [], (List.append_nil _).symm, ws_nil, ws_nil, ?_⟩
    exact .obj _ [0x22, 0xc3, 0xa9, 0x41, 0x22, 0x3a, 0x74, 0x72, 0x75, 0x65] (.memOne [] [] [] [] _ _ _ ws_nil ws_nil ws_nil ws_nil hk .tru)
  have hl : LibOk accentLib := ⟨noLib_ok.1, noLib_ok.2⟩
  have ep : promoted [.leaf [0xc3, 0xa9, 0x61] false .bool] = [([0xc3, 0xa9, 0x61], [0], .bool)] := rfl
  have hheld : HeldE 0 [.leaf [0xc3, 0xa9, 0x61] false .bool] [.leaf (.bool false)] := by
    intro a ha x hx
    rw [ep, List.mem_singleton] at ha
    subst ha
    have := reads_unique hx (.leaf _ _ 0 _ _ _ (.bool false) rfl rfl)
    subst this
    simp [Held]
  have h := (h { lib := accentLib } 0 [.leaf [0xc3, 0xa9, 0x61] false .bool] _ _ [.leaf (.bool false)] _ hl hj (by simp [ShapeL, Shape]) hheld).1
    (by with_unfolding_all rfl)
  obtain ⟨ws, hm, hme⟩ := h
  have hsel : Selects true [[0xc3, 0xa9, 0x61]] [0xc3, 0xa9, 0x41] 0 :=
    .inr ⟨by decide, rfl, ⟨_, rfl, .cons _ _ _ _ (.inl rfl) (.cons _ _ _ _ (.inl rfl) (.cons _ _ _ _ (.inr (.inr (by decide))) .nil))⟩,
      fun j nm hj => absurd hj (by omega)⟩
  have hun : unq [0x22, 0xc3, 0xa9, 0x41, 0x22] = [0xc3, 0xa9, 0x41] := by decide +kernel
  have hkm := keyMeans_unq hk
  rw [ep] at hme
  cases hme with
  | skip _ k _ _ _ _ hk hno =>
    rw [(hkm k).1 hk, hun] at hno
    exact hno 0 hsel
  | field _ k i nm p t v x _ b _ _ us _ hk hse hpr hr hb hu hst hms =>
    have hi : i = 0 := by
      have := (List.getElem?_eq_some_iff.1 hpr).1
      simpa using this
    subst hi
    simp only [List.getElem?_cons_zero, Option.some.injEq, Prod.mk.injEq] at hpr
    obtain ⟨rfl, rfl, rfl⟩ := hpr
    have hv := reads_unique hr (.leaf _ _ 0 _ _ _ (.bool false) rfl rfl)
    subst hv
    have hx := (unmarshal_tree (t := .bool) hl (by simp [Ty.tree]) hb (by simp [Held]) x).1 hu
    have hx : x = .bool true := by
      simp only [decJN, decJ] at hx
      injection hx with hx
      exact hx.symm
    subst hx
    have hus := stores_unique hst (.leaf _ _ 0 _ _ _ (.bool true) rfl)
    subst hus
    cases hms
    simp [memL, EV.mem] at hm

/-- `struct { A bool; inner; *Inner; D bool }` where `inner` is `struct { u bool; E bool }` with `u` not exported and
`Inner` is `struct { B bool; *Deep; A string }`, `Deep` being `struct { C bool }`. The field `A` of `Inner` is hidden. -/
def sample (unexported : Bool) : List EF :=
  [.leaf (bs! "A") false .bool, .val [.skip .bool, .leaf (bs! "E") false .bool],
   .ptr unexported [.leaf (bs! "B") false .bool, .ptr false [.leaf (bs! "C") false .bool], .leaf (bs! "A") false .string], .leaf (bs! "D") false .bool]

example : (promoted (sample false)).map (fun a => (a.1, a.2.1)) =
    [(bs! "A", [0]), (bs! "E", [1, 1]), (bs! "B", [2, 0]), (bs! "C", [2, 1, 0]), (bs! "D", [3])] := by decide +kernel

/-- a member behind two pointers sets both, and nothing else; one that is `null` too; one outside sets none -/
example :
    unmarshalE { lib := noLib } 0 (sample false) (bs! "{\"c\":true,\"e\":true,\"a\":true}") (memL (zeroVs (sample false))) =
      .done (memL [.leaf (.bool true), .val [.leaf (.bool false), .leaf (.bool true)],
        .ptr [.leaf (.bool false), .ptr [.leaf (.bool true)], .leaf (.string [])], .leaf (.bool false)]) none ∧
    unmarshalE { lib := noLib } 0 (sample false) (bs! "{\"B\":null}") (memL (zeroVs (sample false))) =
      .done (memL [.leaf (.bool false), .val [.leaf (.bool false), .leaf (.bool false)],
        .ptr [.leaf (.bool false), .nil, .leaf (.string [])], .leaf (.bool false)]) none ∧
    unmarshalE { lib := noLib } 0 (sample false) (bs! "{\"D\":true,\"Deep\":{\"C\":1}}") (memL (zeroVs (sample false))) =
      .done (memL [.leaf (.bool false), .val [.leaf (.bool false), .leaf (.bool false)], .nil, .leaf (.bool true)]) none :=
  ⟨by with_unfolding_all rfl, by with_unfolding_all rfl, by with_unfolding_all rfl⟩

/-- the pointer's type is unexported: an error if it is nil, else its fields are set -/
example :
    unmarshalE { lib := noLib } 0 (sample true) (bs! "{\"D\":true,\"B\":true}") (memL (zeroVs (sample true))) =
      .done (memL [.leaf (.bool false), .val [.leaf (.bool false), .leaf (.bool false)], .nil, .leaf (.bool true)]) (some (.other 3)) ∧
    unmarshalE { lib := noLib } 0 (sample true) (bs! "{\"B\":true}")
        (memL [.leaf (.bool false), .val [.leaf (.bool false), .leaf (.bool false)], .ptr (zeroVs [.leaf (bs! "B") false .bool, .ptr false [], .leaf (bs! "A") false .string]),
          .leaf (.bool true)]) =
      .done (memL [.leaf (.bool false), .val [.leaf (.bool false), .leaf (.bool false)], .ptr [.leaf (.bool true), .nil, .leaf (.string [])],
        .leaf (.bool true)]) none :=
  ⟨by with_unfolding_all rfl, by with_unfolding_all rfl⟩

end JC.Props

import Verif.Lemmas.DecGen
/-!
Properties of `Unmarshal`: C03 (decoding), C35, C36, C51, C53, C54.
-/
namespace JC.Props
open JC Spec

/-! ### C03 -/

theorem unmarshal_done {c : DCfg} {n : Nat} {t : Ty} {b : Bytes} {p : DV} {Q : Ty → Prop} (hp : Held Q p n) :
    ∃ v e, unmarshal c n t b p = .done v e := by
  unfold unmarshal
  split
  · rename_i x h
    exact absurd h (parseInto_nc (decN_nc c n t (b.length + 1)) b (by omega) p hp x)
  · exact ⟨_, _, rfl⟩
  · exact ⟨_, _, rfl⟩

mutual
theorem held_exists : ∀ v : DV, ∃ n, ∀ m, n ≤ m → Held (fun _ => True) v m
  | .slice xs sp => by
    obtain ⟨n1, h1⟩ := heldL_exists xs
    obtain ⟨n2, h2⟩ := heldL_exists sp
    refine ⟨n1 + n2, fun m hm => ?_⟩
    simp only [Held]; exact ⟨h1 m (by omega), h2 m (by omega)⟩
  | .array xs => by
    obtain ⟨n1, h1⟩ := heldL_exists xs
    exact ⟨n1, fun m hm => by simp only [Held]; exact h1 m hm⟩
  | .struct xs => by
    obtain ⟨n1, h1⟩ := heldL_exists xs
    exact ⟨n1, fun m hm => by simp only [Held]; exact h1 m hm⟩
  | .ptr w => by
    obtain ⟨n1, h1⟩ := held_exists w
    exact ⟨n1, fun m hm => by simp only [Held]; exact h1 m hm⟩
  | .iface t w => by
    obtain ⟨n1, h1⟩ := held_exists w
    refine ⟨n1 + 1, fun m hm => ?_⟩
    obtain ⟨m, rfl⟩ : ∃ k, m = k + 1 := ⟨m - 1, by omega⟩
    have h1 := h1 m (by omega)
    cases t <;> cases w <;> simp only [Held] at * <;> simp_all
  | .bool _ | .int _ | .float _ | .number _ | .string _ | .bytesNil | .bytes _ _ | .time _ | .rawNil | .raw _
  | .ifaceNil | .sliceNil | .mapNil | .map _ | .ptrNil | .user _ => ⟨0, fun m _ => by simp only [Held]⟩
theorem heldL_exists : ∀ vs : List DV, ∃ n, ∀ m, n ≤ m → HeldL (fun _ => True) vs m
  | [] => ⟨0, fun m _ => by simp [HeldL]⟩
  | v :: vs => by
    obtain ⟨n1, h1⟩ := held_exists v
    obtain ⟨n2, h2⟩ := heldL_exists vs
    refine ⟨n1 + n2, fun m hm => ?_⟩
    simp only [HeldL]; exact ⟨h1 m (by omega), h2 m (by omega)⟩
end

/-- **C03** (decoding) `Unmarshal` into a destination of any type with any contents
returns on every input: no decoding loop runs out of fuel and no index is out of
range. (`n` bounds how deep pointers in interfaces are followed; contents are
finite, so all large enough `n` do.) -/
theorem C03_unmarshal (c : DCfg) (t : Ty) (p : DV) :
    ∃ n, ∀ m, n ≤ m → ∀ b, ∃ v e, unmarshal c m t b p = .done v e := by
  obtain ⟨n, h⟩ := held_exists p
  exact ⟨n, fun m hm b => unmarshal_done (h m hm)⟩

/-! ### valid input -/

theorem unmarshal_of_ref {c : DCfg} {n : Nat} {t : Ty} {f : JDec} {Q : Ty → Prop} {N : Nat} (h : RefP (Held Q · n) N (decN c n t) f)
    {j : Json} {b : Bytes} (hj : JText j b) (hN : b.length < N) {p : DV} (hp : Held Q p n) :
    (∀ x, f j p = some x → unmarshal c n t b p = .done x none) ∧
    (f j p = none → ∃ v e, unmarshal c n t b p = .done v (some e)) := by
  obtain ⟨w1, v, w2, rfl, h1, h2, hv⟩ := hj
  simp only [List.length_append] at hN
  obtain ⟨g1, g2⟩ := h j v hv (by omega) w2 (follow_of_numStop (numStop_ws h2)) p hp
  have e : skipSpaces (w1 ++ v ++ w2) = v ++ w2 := by
    rw [List.append_assoc]; exact skip_ws_value h1 hv w2
  obtain ⟨u, er, hu⟩ := unmarshal_done (c := c) (t := t) (b := w1 ++ v ++ w2) hp
  constructor
  · intro x hx
    obtain ⟨_, r', hd, hr⟩ := g1 x hx
    unfold unmarshal parseInto
    rw [e, hd]
    have : skipSpaces r' = [] := by rw [skip_or hr]; exact skipSpaces_ws h2
    simp [this]
  · intro hx
    have hno := g2 hx
    rw [hu]
    unfold unmarshal parseInto at hu
    rw [e] at hu
    cases hd : decN c n t (v ++ w2) p with
    | crash x => rw [hd] at hu; simp at hu
    | ok x r => exact absurd hd (hno x r)
    | err x r e =>
      rw [hd] at hu
      simp only [] at hu
      injection hu with _ hu
      rw [← hu]
      split <;> exact ⟨_, _, rfl⟩

/-! ### C35 -/

/-- contents of an interface that are no non-nil pointer -/
def NoPtr (p : DV) : Prop := ∀ t v, p ≠ .iface (.ptr t) v

theorem iface_noPtr {c : DCfg} {dyn : Ty → Dec} {b : Bytes} {p : DV} (hp : NoPtr p) :
    decodeInterface c dyn b p = ifaceValue c (b.length + 1) b p := by
  unfold decodeInterface
  split
  · exact absurd rfl (hp _ _)
  · rfl

theorem decN_iface {c : DCfg} {n : Nat} {b : Bytes} {p : DV} (hp : NoPtr p) :
    decN c n .iface b p = ifaceValue c (b.length + 1) b p := by
  cases n <;> simp only [decN, dec] <;> exact iface_noPtr hp

theorem unmarshal_iface {c : DCfg} {n : Nat} {b : Bytes} {p : DV} (hp : NoPtr p) :
    unmarshal c n .iface b p = unmarshal c n .iface b .ifaceNil := by
  have : decN c n .iface (skipSpaces b) p = decN c n .iface (skipSpaces b) .ifaceNil := by
    rw [decN_iface hp, decN_iface (fun t v => by simp)]
    rfl
  unfold unmarshal parseInto
  rw [this]

theorem ifaceNil_noPtr : NoPtr .ifaceNil := fun t v => by simp

/-- Decoding a JSON text into a nil interface. -/
theorem unmarshal_gen {c : DCfg} {n : Nat} {j : Json} {b : Bytes} (hj : JText j b) :
    (∀ x, genJ c j = some x → unmarshal c n .iface b .ifaceNil = .done x none) ∧
    (genJ c j = none → ∃ v e, unmarshal c n .iface b .ifaceNil = .done v (some e)) := by
  obtain ⟨w1, v, w2, rfl, h1, h2, hv⟩ := hj
  obtain ⟨g1, g2⟩ := ifaceValue_any (fun _ => True) 0 c (v.length + 1) j v hv (by omega) w2 (follow_of_numStop (numStop_ws h2)) .ifaceNil
    (by simp [Held])
  simp only [] at g1 g2
  have e : skipSpaces (w1 ++ v ++ w2) = v ++ w2 := by
    rw [List.append_assoc]; exact skip_ws_value h1 hv w2
  obtain ⟨u, er, hu⟩ := unmarshal_done (c := c) (t := .iface) (b := w1 ++ v ++ w2) (p := .ifaceNil) (n := n) (Q := fun _ => True) (by simp [Held])
  constructor
  · intro x hx
    obtain ⟨_, r', hd, hr⟩ := g1 x hx
    unfold unmarshal parseInto
    rw [e, decN_iface ifaceNil_noPtr, hd]
    have : skipSpaces r' = [] := by rw [skip_or hr]; exact skipSpaces_ws h2
    simp [this]
  · intro hx
    have hno := g2 hx
    rw [hu]
    unfold unmarshal parseInto at hu
    rw [e, decN_iface ifaceNil_noPtr] at hu
    cases hd : ifaceValue c ((v ++ w2).length + 1) (v ++ w2) .ifaceNil with
    | crash x => rw [hd] at hu; simp at hu
    | ok x r => exact absurd hd (hno x r)
    | err x r e =>
      rw [hd] at hu
      simp only [] at hu
      injection hu with _ hu
      rw [← hu]
      split <;> exact ⟨_, _, rfl⟩

theorem val_text {b r : Bytes} (h : Val b r) (hr : skipSpaces r = []) : IsJson b := by
  obtain ⟨w1, v, w2, j, h1, h2, hj, e⟩ := h
  exact ⟨j, w1, v, w2 ++ r, by rw [e]; simp, h1, ws_append h2 (skipSpaces_eq_nil hr), hj⟩

/-- **C35** `Unmarshal` into an empty interface (which holds no pointer) succeeds
exactly on the JSON texts that denote a tree of generic values, and stores that
tree. -/
theorem C35_generic (c : DCfg) (n : Nat) (b : Bytes) (p : DV) (hp : NoPtr p) (v : DV) :
    unmarshal c n .iface b p = .done v none ↔ ∃ j, JText j b ∧ Denotes c j v := by
  rw [unmarshal_iface hp]
  constructor
  · intro h
    have hb : IsJson b := by
      unfold unmarshal at h
      split at h
      · simp at h
      · rename_i x r hp
        injection h with _ h
        have hr : r = [] := by
          cases r with
          | nil => rfl
          | cons => simp at h
        subst hr
        unfold parseInto at hp
        split at hp
        · simp at hp
        · simp at hp
        · rename_i y r0 hd
          injection hp with _ hp
          rw [decN_iface ifaceNil_noPtr] at hd
          obtain ⟨u, e⟩ := ifaceValue_rest hd
          exact val_text (val_parse e).skip hp
      · rename_i r e _
        injection h with _ h
        by_cases hr : r = [] <;> simp [hr] at h
    obtain ⟨j, hj⟩ := hb
    obtain ⟨g1, g2⟩ := unmarshal_gen (c := c) (n := n) hj
    refine ⟨j, hj, ?_⟩
    cases e : genJ c j with
    | none =>
      obtain ⟨u, er, he⟩ := g2 e
      rw [he] at h; injection h with _ h; simp at h
    | some x =>
      rw [g1 x e] at h
      injection h with h
      subst h
      exact (genJ_iff (jtext_ok hj) _).1 e
  · rintro ⟨j, hj, hd⟩
    exact (unmarshal_gen hj).1 v ((genJ_iff (jtext_ok hj) _).2 hd)

mutual
theorem genJ_some (c : DCfg) : ∀ j, (∃ v, genJ c j = some v) ↔ c.useNumber = true ∨ ∀ s ∈ nums j, (c.lib.parseFloat false s).isSome = true
  | .null | .tru | .fls | .str _ => by simp [genJ, nums]
  | .num s => by
    simp only [genJ, nums, List.mem_singleton, forall_eq]
    by_cases hu : c.useNumber = true
    · simp [hu]
    · cases e : c.lib.parseFloat false s <;> simp [hu]
  | .arr xs => by
    have := genE_some c xs
    simp only [genJ, nums]
    rw [← this]
    cases genE c xs <;> simp
  | .obj ms => by
    have := genM_some c ms []
    simp only [genJ, nums]
    rw [← this]
    cases genM c ms [] <;> simp
theorem genE_some (c : DCfg) : ∀ xs, (∃ v, genE c xs = some v) ↔ c.useNumber = true ∨ ∀ s ∈ numsL xs, (c.lib.parseFloat false s).isSome = true
  | [] => by simp [genE, numsL]
  | j :: xs => by
    have h1 := genJ_some c j
    have h2 := genE_some c xs
    simp only [genE, numsL, List.mem_append]
    cases e : genJ c j with
    | none =>
      rw [e] at h1
      constructor
      · rintro ⟨v, h⟩; simp at h
      · rintro (h | h)
        · have := h1.2 (.inl h); simp at this
        · have := h1.2 (.inr fun s hs => h s (.inl hs)); simp at this
    | some v =>
      rw [e] at h1
      have h1 := h1.1 ⟨v, rfl⟩
      have : (∃ w, (genE c xs).map (v :: ·) = some w) ↔ ∃ w, genE c xs = some w := by cases genE c xs <;> simp
      simp only []
      rw [this, h2]
      constructor
      · rintro (h | h)
        · exact .inl h
        · rcases h1 with h1 | h1
          · exact .inl h1
          · exact .inr fun s hs => hs.elim (h1 s) (h s)
      · rintro (h | h)
        · exact .inl h
        · exact .inr fun s hs => h s (.inr hs)
theorem genM_some (c : DCfg) : ∀ ms m, (∃ v, genM c ms m = some v) ↔ c.useNumber = true ∨ ∀ s ∈ numsM ms, (c.lib.parseFloat false s).isSome = true
  | [], m => by simp [genM, numsM]
  | (raw, j) :: ms, m => by
    have h1 := genJ_some c j
    simp only [genM, numsM, List.mem_append]
    cases e : genJ c j with
    | none =>
      rw [e] at h1
      constructor
      · rintro ⟨v, h⟩; simp at h
      · rintro (h | h)
        · have := h1.2 (.inl h); simp at this
        · have := h1.2 (.inr fun s hs => h s (.inl hs)); simp at this
    | some v =>
      rw [e] at h1
      have h1 := h1.1 ⟨v, rfl⟩
      simp only []
      rw [genM_some c ms]
      constructor
      · rintro (h | h)
        · exact .inl h
        · rcases h1 with h1 | h1
          · exact .inl h1
          · exact .inr fun s hs => hs.elim (h1 s) (h s)
      · rintro (h | h)
        · exact .inl h
        · exact .inr fun s hs => h s (.inr hs)
end

/-- **C35** With `UseNumber` every JSON text denotes a tree of generic values;
without it, exactly those whose numbers `strconv.ParseFloat` accepts. -/
theorem C35_denotes (c : DCfg) {j : Json} {b : Bytes} (hj : JText j b) :
    (∃ v, Denotes c j v) ↔ c.useNumber = true ∨ ∀ s ∈ nums j, (c.lib.parseFloat false s).isSome = true := by
  rw [← genJ_some]
  constructor
  · rintro ⟨v, h⟩; exact ⟨v, (genJ_iff (jtext_ok hj) v).2 h⟩
  · rintro ⟨v, h⟩; exact ⟨v, (genJ_iff (jtext_ok hj) v).1 h⟩

/-- **C35** The tree is determined by the text. -/
theorem C35_unique (c : DCfg) {j j' : Json} {b : Bytes} (hj : JText j b) (hj' : JText j' b) {v v' : DV}
    (h : Denotes c j v) (h' : Denotes c j' v') : v = v' := by
  have := jtext_unique hj hj'
  subst this
  exact denotes_unique c j (jtext_ok hj) _ _ h h'

/-- A library that accepts no floats, durations and times. -/
def noLib : Lib := ⟨fun _ _ => none, fun _ => none, fun _ => none, id, id⟩

theorem noLib_ok : LibOk noLib := ⟨by simp [noLib], by simp [noLib]⟩

/-- `{"b":[1.50,"x"],"a":null,"b":[]}` with `UseNumber`: the last `b` wins; a
trailing comma is an error; without `UseNumber` an unusable number is an error. -/
example : (∃ v, unmarshal { useNumber := true, lib := noLib } 0 .iface (bs! " {\"b\":[1.50,\"x\"],\"a\":[1.50,\"x\"],\"b\":null}") .ifaceNil = .done v none ∧
      v = .iface .mapSI (.map [(.str (bs! "a"), .iface (.slice .iface) (.slice [.iface .number (.number (bs! "1.50")), .iface .string (.string (bs! "x"))] [])),
        (.str (bs! "b"), .ifaceNil)])) ∧
    unmarshal { useNumber := true, lib := noLib } 0 .iface (bs! "[1,]") .ifaceNil = .done .ifaceNil (some .syntax) ∧
    unmarshal { lib := noLib } 0 .iface (bs! "[1]") .ifaceNil = .done .ifaceNil (some .unmarshalType) := by
  refine ⟨⟨_, rfl, rfl⟩, rfl, rfl⟩

/-! ### C36 -/

/-- **C36** as stated: for every type and destination, success means that the
input is valid JSON. It fails, see below. -/
def C36_statement : Prop := ∀ (c : DCfg) (n : Nat) (t : Ty) (b : Bytes) (p v : DV), LibOk c.lib →
  unmarshal c n t b p = .done v none → IsJson b

/-- **C36** (partial) If `Unmarshal` returns nil then the input is valid JSON, for
destinations of every type without Go arrays, whatever they hold (pointers in
interfaces also must point to types without arrays). Missing: arrays, for which
it is false. -/
theorem C36_valid_partial {c : DCfg} (hl : LibOk c.lib) {n : Nat} {t : Ty} (ht : t.noArr) {b : Bytes} {p v : DV}
    (hp : Held Ty.noArr p n) (h : unmarshal c n t b p = .done v none) : IsJson b := by
  unfold unmarshal at h
  split at h
  · simp at h
  · rename_i x r hd
    injection h with _ h
    have hr : r = [] := by
      cases r with
      | nil => rfl
      | cons => simp at h
    subst hr
    exact val_text (parseInto_sound (decN_sound hl n t ht) _ _ _ _ hp hd) rfl
  · rename_i r e _
    injection h with _ h
    by_cases hr : r = [] <;> simp [hr] at h

/-- A struct with a pointer, a map and an interface holding a pointer: the types
are in the scope of the theorem and decoding succeeds. -/
example : ∃ v, unmarshal { lib := noLib } 1 (.struct [(bs! "A", .ptr .bool), (bs! "B", .map (.int .int8) .string), (bs! "C", .iface)])
    (bs! "{\"a\":true,\"B\":{\"-1\":\"x\"},\"C\":[\"y\"]}") (.struct [.ptrNil, .mapNil, .iface (.ptr (.slice .string)) (.ptr .sliceNil)]) = .done v none ∧
    v = .struct [.ptr (.bool true), .map [(.int (-1), .string (bs! "x"))], .iface (.ptr (.slice .string)) (.ptr (.slice [.string (bs! "y")] []))] :=
  ⟨_, rfl, rfl⟩

/-- **C36** fails for arrays: `[true 2]` decodes into a `[1]bool` without error,
because `decodeArray` (`/repo/decode.go:546-564`) accepts surplus elements without
a comma between them. -/
theorem C36_fails_array : ¬ C36_statement := by
  intro h
  have := h { lib := noLib } 0 (.array 1 .bool) (bs! "[true 2]") (.array [.bool false]) (.array [.bool true]) noLib_ok rfl
  rw [← C01_valid_iff] at this
  revert this
  decide +kernel

/-! ### C51 -/

/-- **C51** as stated, for successful decoding: texts of the same document decode
to equal contents, or all fail. It fails for types that get to see the text. -/
def C51_statement : Prop := ∀ (c : DCfg) (n : Nat) (t : Ty) (j : Json) (b1 b2 : Bytes) (p : DV), LibOk c.lib → JText j b1 → JText j b2 →
  ∀ v, unmarshal c n t b1 p = .done v none → unmarshal c n t b2 p = .done v none

/-- **C51** (partial) Two texts of the same document, that is, texts which differ
only in insignificant whitespace, either both unmarshal without error and with
equal results or both fail, for every type without raw messages and
`Unmarshaler`s. Missing: raw messages and `Unmarshaler`s, for which it is false
because they see the text, and the contents after errors. -/
theorem C51_whitespace_partial {c : DCfg} (hl : LibOk c.lib) {n : Nat} {t : Ty} (ht : t.tree) {j : Json} {b1 b2 : Bytes}
    (h1 : JText j b1) (h2 : JText j b2) {p : DV} (hp : Held Ty.tree p n) :
    (∃ v, unmarshal c n t b1 p = .done v none ∧ unmarshal c n t b2 p = .done v none) ∨
    ∃ v1 e1 v2 e2, unmarshal c n t b1 p = .done v1 (some e1) ∧ unmarshal c n t b2 p = .done v2 (some e2) := by
  obtain ⟨f1, g1⟩ := unmarshal_of_ref (decN_ref hl n t ht (b1.length + 1)) h1 (by omega) hp
  obtain ⟨f2, g2⟩ := unmarshal_of_ref (decN_ref hl n t ht (b2.length + 1)) h2 (by omega) hp
  cases e : decJN c n t j p with
  | none =>
    obtain ⟨v1, e1, k1⟩ := g1 e
    obtain ⟨v2, e2, k2⟩ := g2 e
    exact .inr ⟨v1, e1, v2, e2, k1, k2⟩
  | some x => exact .inl ⟨x, f1 x e, f2 x e⟩

example : unmarshal { lib := noLib } 0 (.array 1 (.map .str .bool)) (bs! "[{\"a\":true},2]") (.array [.mapNil]) =
      .done (.array [.map [(.str (bs! "a"), .bool true)]]) none ∧
    unmarshal { lib := noLib } 0 (.array 1 (.map .str .bool)) (bs! " [ { \"a\"\n:\ttrue } , 2 ] ") (.array [.mapNil]) =
      .done (.array [.map [(.str (bs! "a"), .bool true)]]) none := ⟨rfl, rfl⟩

/-- **C51** fails for raw messages, which keep the text. -/
theorem C51_fails_raw : ¬ C51_statement := by
  intro h
  have h1 : JText (.arr []) (bs! "[]") := ⟨[], bs! "[]", [], rfl, ws_nil, ws_nil, .arrNil [] ws_nil⟩
  have h2 : JText (.arr []) (bs! "[ ]") :=
    ⟨[], bs! "[ ]", [], rfl, ws_nil, ws_nil, .arrNil [0x20] (by intro c hc; rw [List.mem_singleton.1 hc]; exact .space)⟩
  have := h { lib := noLib } 0 .raw _ _ _ .rawNil noLib_ok h1 h2 (.raw (bs! "[]")) rfl
  have e : unmarshal { lib := noLib } 0 .raw (bs! "[ ]") .rawNil = .done (.raw (bs! "[ ]")) none := rfl
  rw [e] at this
  injection this with this
  injection this with this
  revert this
  decide

/-! ### C53 -/

theorem denotesM_last {c : DCfg} {ms : List (Bytes × Json)} {k : Bytes} {w : DV} :
    DenotesM c ms k w ↔ ∃ j, LastMember ms k j ∧ Denotes c j w := by
  induction ms with
  | nil =>
    simp only [DenotesM, false_iff]
    rintro ⟨j, ⟨a, raw, b, e, _⟩, _⟩
    simp at e
  | cons m ms ih =>
    obtain ⟨raw, j⟩ := m
    simp only [DenotesM, ih]
    constructor
    · rintro (⟨x, ⟨a, r, b, rfl, h1, h2⟩, hx⟩ | ⟨h1, h2, h3⟩)
      · exact ⟨x, ⟨(raw, j) :: a, r, b, rfl, h1, h2⟩, hx⟩
      · exact ⟨j, ⟨[], raw, ms, rfl, h1, h3⟩, h2⟩
    · rintro ⟨x, ⟨a, r, b, e, h1, h2⟩, hx⟩
      cases a with
      | nil =>
        injection e with e1 e2
        injection e1 with e3 e4
        subst e2 e3 e4
        exact .inr ⟨h1, hx, h2⟩
      | cons y a =>
        injection e with e1 e2
        exact .inl ⟨x, ⟨a, r, b, e2, h1, h2⟩, hx⟩

theorem denotesL_at {c : DCfg} : ∀ {xs : List Json} {vs : List DV}, DenotesL c xs vs → ∀ i : Nat,
    (∀ x, xs[i]? = some x → ∃ v, vs[i]? = some v ∧ Denotes c x v) ∧ (∀ v, vs[i]? = some v → ∃ x, xs[i]? = some x ∧ Denotes c x v)
  | [], vs, h, i => by simp only [DenotesL] at h; subst h; simp
  | j :: xs, vs, h, i => by
    simp only [DenotesL] at h
    obtain ⟨v, vs', rfl, h1, h2⟩ := h
    cases i with
    | zero => simp [h1]
    | succ i => simpa using denotesL_at h2 i

theorem jat_vat {c : DCfg} {j x : Json} {p : List Step} (h : JAt j p x) : ∀ v, Denotes c j v → ∃ w, VAt v p w ∧ Denotes c x w := by
  induction h with
  | here j => intro v hv; exact ⟨v, .here v, hv⟩
  | idx xs i x y p hx _ ih =>
    intro v hv
    simp only [Denotes] at hv
    obtain ⟨vs, hvs, rfl⟩ := hv
    obtain ⟨u, hu, hd⟩ := (denotesL_at hvs i).1 x hx
    obtain ⟨w, hw, hy⟩ := ih u hd
    exact ⟨w, .idx _ _ _ _ _ _ hu hw, hy⟩
  | key ms k x y p hx _ ih =>
    intro v hv
    simp only [Denotes] at hv
    obtain ⟨es, rfl, hall, hso, hst, hes⟩ := hv
    have : ∃ u, Denotes c x u := by
      obtain ⟨a, raw, b, rfl, _⟩ := hx
      clear hes ih
      induction a with
      | nil => exact hall.1
      | cons m a iha => obtain ⟨_, _⟩ := m; exact iha hall.2
    obtain ⟨u, hd⟩ := this
    obtain ⟨w, hw, hy⟩ := ih u hd
    exact ⟨w, .key _ _ _ _ _ ((hes k u).2 (denotesM_last.2 ⟨x, hx, hd⟩)) hw, hy⟩

theorem vat_jat {c : DCfg} {v w : DV} {p : List Step} (h : VAt v p w) : ∀ j, Denotes c j v → ∃ x, JAt j p x ∧ Denotes c x w := by
  induction h with
  | here v => intro j hj; exact ⟨j, .here j, hj⟩
  | idx vs sp i x y p hx _ ih =>
    intro j hj
    cases j with
    | arr xs =>
      simp only [Denotes] at hj
      obtain ⟨vs', hvs, e⟩ := hj
      injection e with _ e
      injection e with e1 e2
      subst e1
      obtain ⟨u, hu, hd⟩ := (denotesL_at hvs i).2 x hx
      obtain ⟨z, hz, hy⟩ := ih u hd
      exact ⟨z, .idx _ _ _ _ _ hu hz, hy⟩
    | num s =>
      simp only [Denotes] at hj
      split at hj
      · simp at hj
      · simp at hj
    | _ => simp [Denotes] at hj
  | key es k x y p hx _ ih =>
    intro j hj
    cases j with
    | obj ms =>
      simp only [Denotes] at hj
      obtain ⟨es', e, hall, hso, hst, hes⟩ := hj
      injection e with _ e
      injection e with e
      subst e
      obtain ⟨u, hu, hd⟩ := denotesM_last.1 ((hes k x).1 hx)
      obtain ⟨z, hz, hy⟩ := ih u hd
      exact ⟨z, .key _ _ _ _ _ hu hz, hy⟩
    | num s =>
      simp only [Denotes] at hj
      split at hj
      · simp at hj
      · simp at hj
    | _ => simp [Denotes] at hj

/-- **C53** With `UseNumber`, every JSON text unmarshals into an interface, and the
`json.Number`s in the result are exactly the numbers of the document: the same
text at the same place (where of several members with the same key the last one
counts). -/
theorem C53_use_number {c : DCfg} (hu : c.useNumber = true) (n : Nat) {j : Json} {b : Bytes} (hj : JText j b) {p : DV} (hp : NoPtr p) :
    ∃ v, unmarshal c n .iface b p = .done v none ∧
      ∀ path s, JAt j path (.num s) ↔ VAt v path (.iface .number (.number s)) := by
  obtain ⟨v, hv⟩ := (C35_denotes c hj).2 (.inl hu)
  refine ⟨v, (C35_generic c n b p hp v).2 ⟨j, hj, hv⟩, ?_⟩
  intro path s
  constructor
  · intro h
    obtain ⟨w, hw, hd⟩ := jat_vat h v hv
    simp only [Denotes, hu, if_true] at hd
    rw [← hd]; exact hw
  · intro h
    obtain ⟨x, hx, hd⟩ := vat_jat h j hv
    cases x with
    | num s' =>
      simp only [Denotes, hu, if_true] at hd
      injection hd with _ hd
      injection hd with hd
      rw [hd]; exact hx
    | _ => simp [Denotes] at hd

/-- **C53** Encoding a `json.Number` that holds a JSON number writes its text. -/
theorem C53_encode {c : Cfg} (hc : c.clrs = none) {s : Bytes} (hs : JNumber s) (b : Bytes) (d : Nat) :
    enc c (.number s) b d = .done (b ++ s) d none := by
  have hp := parseNumber_complete hs NumStop.nil
  rw [List.append_nil] at hp
  have hne : s ≠ [] := by rintro rfl; simp [parseNumber] at hp
  simp only [enc, encodeNumber, if_neg hne, hp, hc]

example : unmarshal { useNumber := true, lib := noLib } 0 .iface (bs! "[-0.10e+05]") .ifaceNil =
    .done (.iface (.slice .iface) (.slice [.iface .number (.number (bs! "-0.10e+05"))] [])) none := rfl

/-! ### C54 -/

/-- **C54** as stated. It fails for `RawMessage`s and pointers to pointers. -/
def C54_statement : Prop := ∀ (c : DCfg) (n : Nat) (t : Ty) (p : DV) (w1 w2 : Bytes), Ws w1 → Ws w2 → t ≠ .unsupported →
  Held (fun _ => True) p n → unmarshal c n t (w1 ++ bs! "null" ++ w2) p = .done (nulled t p) none

/-- Destinations for which C54 holds: no raw messages, no types that cannot be
decoded to, no non-nil pointers to pointers, and no interfaces that hold these. -/
def NullOk : Ty → DV → Prop
  | .raw, _ | .unsupported, _ => False
  | .ptr (.ptr _), .ptr _ => False
  | .iface, .iface (.ptr (.ptr _)) (.ptr _) => False
  | .quoted t, p | .quotedInt t, p => NullOk t p
  | _, _ => True

theorem hasNull_null (r : Bytes) : hasNullPrefix (bs! "null" ++ r) = true := by
  simp [hasNullPrefix]

theorem parse_null (r : Bytes) : parseValue (bs! "null" ++ r) = .ok (bs! "null") r :=
  parseValue_complete (j := .null) .null (by simp [Follow])

theorem iface_null (c : DCfg) (dyn : Ty → Dec) (r : Bytes) (p : DV) (hp : NullOk .iface p) :
    decodeInterface c dyn (bs! "null" ++ r) p = .ok .ifaceNil r := by
  have h := hasNull_null r
  have hd : (bs! "null" ++ r).drop 4 = r := rfl
  unfold decodeInterface
  split
  · rename_i t v
    split
    · rename_i w
      have : t.isPtr = false := by
        cases t <;> simp_all [Ty.isPtr, NullOk]
      simp only [h, this, hd, Bool.not_false, Bool.and_self, if_true]
    · simp only [h, hd, if_true]
  · simp only [ifaceValue, parse_null]
    rfl

theorem dec_null (c : DCfg) (dyn : Ty → Dec) (r : Bytes) (t : Ty) (p : DV) (hp : NullOk t p) :
    dec c dyn t (bs! "null" ++ r) p = .ok (nulled t p) r := by
  have h := hasNull_null r
  have hd : (bs! "null" ++ r).drop 4 = r := rfl
  match t with
  | .quoted t => simp only [dec, decodeFromString, h, if_true, nulled]; exact dec_null c dyn r t p (by simpa [NullOk] using hp)
  | .quotedInt t => simp only [dec, decodeFromStringToInt, h, if_true, nulled]; exact dec_null c dyn r t p (by simpa [NullOk] using hp)
  | .bool => simp only [dec, decodeBool, h, if_true, nulled, hd]; simp
  | .int _ => simp only [dec, decodeInt, h, if_true, nulled, hd]
  | .float32 | .float64 => simp only [dec, decodeFloat, h, if_true, nulled, hd]
  | .number => simp only [dec, decodeNumber, h, if_true, nulled, hd]
  | .string => simp only [dec, decodeString, h, if_true, nulled, hd]
  | .bytes => simp only [dec, decodeBytes, h, if_true, nulled, hd]
  | .duration => simp only [dec, decodeDuration, h, if_true, nulled, hd]
  | .time => simp only [dec, decodeTime, h, if_true, nulled, hd]
  | .raw | .unsupported => simp [NullOk] at hp
  | .iface => simp only [dec, nulled]; exact iface_null c dyn r p hp
  | .ifaceM _ => simp only [dec, decodeIfaceM, h, if_true, nulled, hd]
  | .slice _ => simp only [dec, decodeSlice, h, if_true, nulled, hd]
  | .array _ _ => simp only [dec, decodeArray, h, if_true, nulled, hd]
  | .map _ _ | .mapSI | .mapRaw => simp only [dec, decodeMap, h, if_true, nulled, hd]
  | .struct _ => simp only [dec, decodeStruct, h, if_true, nulled, hd]
  | .ptr t =>
    simp only [dec, decodePointer, h, if_true, nulled, hd]
    cases p <;> simp only []
    have : t.isPtr = false := by
      cases t <;> simp_all [Ty.isPtr, NullOk]
    simp [this]
  | .jsonU f => simp only [dec, decodeJSONUnmarshaler, parse_null, nulled]; rfl
  | .textU f => simp only [dec, decodeTextUnmarshaler, parse_null, nulled]; rfl

theorem decN_null (c : DCfg) (n : Nat) (r : Bytes) (t : Ty) (p : DV) (hp : NullOk t p) :
    decN c n t (bs! "null" ++ r) p = .ok (nulled t p) r := by
  cases n <;> exact dec_null c _ r t p hp

/-- **C54** (partial) Decoding `null`, with whitespace around it, sets pointers, maps,
slices and interfaces to nil, leaves every other destination as it is and is no
error. Missing: raw messages and pointers to pointers, for which it is false, see
below, and types that cannot be decoded to. -/
theorem C54_null_partial (c : DCfg) (n : Nat) (t : Ty) (p : DV) (hp : NullOk t p) {w1 w2 : Bytes} (h1 : Ws w1) (h2 : Ws w2) :
    unmarshal c n t (w1 ++ bs! "null" ++ w2) p = .done (nulled t p) none := by
  have e : skipSpaces (w1 ++ bs! "null" ++ w2) = bs! "null" ++ w2 := by
    rw [List.append_assoc]; exact skip_ws_value h1 (.null) w2
  unfold unmarshal parseInto
  rw [e, decN_null c n w2 t p hp]
  simp [skipSpaces_ws h2]

/-- **C54** (partial) The same inside a container: each decoding function, given
`null` and whatever follows it in the input, stores nil or nothing and consumes
exactly the `null`. -/
theorem C54_inside_partial (c : DCfg) (n : Nat) (t : Ty) (p : DV) (hp : NullOk t p) (r : Bytes) :
    decN c n t (bs! "null" ++ r) p = .ok (nulled t p) r := decN_null c n r t p hp

/-- A struct with a pointer, an integer and a slice: `null` for each of them. -/
example : unmarshal { lib := noLib } 0 (.struct [(bs! "A", .ptr .bool), (bs! "B", .int .int8), (bs! "C", .slice .bool)])
    (bs! "{\"A\":null,\"B\":null,\"C\" : null}") (.struct [.ptr (.bool true), .int 5, .slice [.bool true] []]) =
    .done (.struct [.ptrNil, .int 5, .sliceNil]) none := rfl

/-- **C54** fails for `RawMessage`s, which are slices but get the text `null`. -/
theorem C54_fails_raw : ¬ C54_statement := by
  intro h
  have := h { lib := noLib } 0 .raw .rawNil [] [] ws_nil ws_nil (by simp) (by simp [Held])
  have e : unmarshal { lib := noLib } 0 .raw ([] ++ bs! "null" ++ []) .rawNil = .done (.raw (bs! "null")) none := rfl
  rw [e] at this
  injection this with this
  simp [nulled] at this

/-- **C54** fails for pointers to pointers: the outer pointer stays
(`/repo/decode.go:973-976`). -/
theorem C54_fails_pointer : ¬ C54_statement := by
  intro h
  have := h { lib := noLib } 0 (.ptr (.ptr .bool)) (.ptr (.ptr (.bool true))) [] [] ws_nil ws_nil (by simp) (by simp [Held])
  have e : unmarshal { lib := noLib } 0 (.ptr (.ptr .bool)) ([] ++ bs! "null" ++ []) (.ptr (.ptr (.bool true))) = .done (.ptr .ptrNil) none := rfl
  rw [e] at this
  injection this with this
  simp [nulled] at this

end JC.Props

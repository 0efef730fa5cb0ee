import Verif.Lemmas.Types
import Verif.Props.Codec
/-!
C69: Every type of Go can be encoded and decoded, also one that refers to itself.

It holds when the declaration of the type comes back to itself through structs only.
Otherwise `Marshal` and `Unmarshal` use up the stack before they have looked at the value.
-/
namespace JC.Props
open Spec

/-- All structs that `t` leads to are among the first `count` types. -/
def FewStructs (ts : Types) (count t : Nat) : Prop := ∀ id fs m, LeadsTo ts t id → ts id = .struct fs m → id < count

/-- The full statement does not hold: `type S []S`, `type M map[string]M` and
`type P *P` have no codec, nor has `struct { F S }`. Encoding/json encodes `S{}`
as `[]`. -/
theorem C69_fails_self : ∃ ts : Types, ts 0 = .slice 0 {} ∧ ts 1 = .map ⟨.string, {}⟩ 1 {} ∧ ts 2 = .ptr 2 ∧ ts 3 = .struct [(0, false)] {} ∧
    ∀ n, codecT ts n 0 = none ∧ codecT ts n 1 = none ∧ codecT ts n 2 = none ∧ codecT ts n 3 = none := by
  refine ⟨fun t => if t = 0 then .slice 0 {} else if t = 1 then .map ⟨.string, {}⟩ 1 {} else if t = 2 then .ptr 2 else .struct [(0, false)] {},
    rfl, rfl, rfl, rfl, fun n => ?_⟩
  generalize hts : (fun t => if t = 0 then TNode.slice 0 {} else if t = 1 then .map ⟨.string, {}⟩ 1 {} else if t = 2 then .ptr 2 else .struct [(0, false)] {} : Types) = ts
  have self : ∀ t, (ts t).elem = some t → ¬ Ends ts t := by
    rintro t ht ⟨n, hn⟩
    induction n with
    | zero => simp [elemAt] at hn
    | succ n ih => exact ih (by simpa [elemAt, ht] using hn)
  have none_of : ∀ t u, LeadsTo ts t u → ¬ Ends ts u → codecT ts n t = none := by
    intro t u h1 h2
    cases h : codecT ts n t with
    | none => rfl
    | some r => exact absurd (codecT_ends h u h1) h2
  subst hts
  exact ⟨none_of 0 0 (.refl _) (self 0 rfl), none_of 1 1 (.refl _) (self 1 rfl), none_of 2 2 (.refl _) (self 2 rfl),
    none_of 3 0 (.field 3 _ _ (0, false) 0 rfl (by simp) (.refl _)) (self 0 rfl)⟩

/-- In general: a type has no codec if it leads to one whose element types do not end;
whatever the stack. -/
theorem C69_fails_endless (ts : Types) (t u : Nat) (hu : LeadsTo ts t u) (he : ¬ Ends ts u) (n : Nat) : codecT ts n t = none := by
  cases h : codecT ts n t with
  | none => rfl
  | some r => exact absurd (codecT_ends h u hu) he

/-- Partial: if the element types of all types that `t` leads to end, which leaves
recursion through structs, then with enough stack `t` has a codec, and it is the one
that C59 is about: `g` is `t` written out, `env` its structs. Missing are types that
refer to themselves otherwise. -/
theorem C69_codec_partial (ts : Types) (t count : Nat) (hc : FewStructs ts count t) (he : ∀ u, LeadsTo ts t u → Ends ts u) :
    ∃ env g, EnvOf ts t env ∧ IsType ts t g ∧ Closed env count g ∧ ∃ N, ∀ n, N ≤ n → codecT ts n t = some (codecOf env count g) := by
  obtain ⟨env, henv, hno⟩ := env_exists he
  obtain ⟨n, hn⟩ := he t (.refl _)
  obtain ⟨g, hg⟩ := isType_of_ends n t hn
  refine ⟨env, g, henv, hg, ⟨fun x hx => ?_, fun id _ f hf x hx => ?_⟩, ?_⟩
  · obtain ⟨h1, fs, m, h2⟩ := isType_ctx hg false x hx
    exact hc x.1 fs m h1 h2
  · by_cases hl : LeadsTo ts t id
    · by_cases hs : ∃ fs m, ts id = .struct fs m
      · obtain ⟨fs, m, hs⟩ := hs
        obtain ⟨_, h2, h3⟩ := henv id fs m hl hs
        obtain ⟨i, hi⟩ := List.mem_iff_getElem?.1 hf
        have hi' : i < fs.length := by have := (List.getElem?_eq_some_iff.1 hi).1; omega
        obtain ⟨_, h4⟩ := h3 i fs[i] f (List.getElem?_eq_getElem hi') hi
        obtain ⟨h5, fs', m', h6⟩ := isType_ctx h4 false x hx
        exact hc x.1 fs' m' (LeadsTo.trans hl (.field id fs m fs[i] x.1 hs (List.getElem_mem hi') h5)) h6
      · rw [hno id (.inr fun fs m h => hs ⟨fs, m, h⟩)] at hf; simp at hf
    · rw [hno id (.inl hl)] at hf; simp at hf
  · obtain ⟨N, hN⟩ := simulates henv hc count t g (.refl _) hg (ts t).isPtr (fun _ => none) (missing_le count _)
    refine ⟨N, fun n hn => ?_⟩
    rw [codecT, hN n hn, codecOf, isType_isPtr hg]

/-- So a type has a codec exactly if the element types of all types it leads to end. -/
theorem C69_exact (ts : Types) (t count : Nat) (hc : FewStructs ts count t) : (∃ n, codecT ts n t ≠ none) ↔ ∀ u, LeadsTo ts t u → Ends ts u := by
  constructor
  · rintro ⟨n, hn⟩ u hu
    cases h : codecT ts n t with
    | none => exact absurd h hn
    | some r => exact codecT_ends h u hu
  · intro he
    obtain ⟨env, g, _, _, _, N, hN⟩ := C69_codec_partial ts t count hc he
    exact ⟨N, by rw [hN N (Nat.le_refl _)]; simp⟩

/-- The codec does not depend on the stack there is. -/
theorem C69_stack (ts : Types) (t n m : Nat) (r : Codec × CSeen) (h : codecT ts n t = some r) (hm : n ≤ m) : codecT ts m t = some r :=
  constructT_le hm h

/-! ### Cases -/

/-- `type T struct { Next *T; Kids []T; ByName map[string]*T }`: type 0, with the others
behind it. -/
def selfTypes : Types := fun t =>
  if t = 0 then .struct [(1, false), (2, false), (3, false)] {}
  else if t = 1 then .ptr 0
  else if t = 2 then .slice 0 {}
  else if t = 3 then .map ⟨.string, {}⟩ 1 {}
  else .basic .bool {}

theorem selfTypes_leads : ∀ t u, LeadsTo selfTypes t u → t < 4 → u < 4 := by
  intro t u h
  induction h with
  | refl => exact id
  | elem t e u he _ ih =>
    intro ht
    apply ih
    obtain rfl | rfl | rfl | rfl : t = 0 ∨ t = 1 ∨ t = 2 ∨ t = 3 := by omega
    · cases he
    · cases he; decide
    · cases he; decide
    · cases he; decide
  | field t fs m f u hs hf _ ih =>
    intro ht
    apply ih
    obtain rfl | rfl | rfl | rfl : t = 0 ∨ t = 1 ∨ t = 2 ∨ t = 3 := by omega
    · cases hs
      simp at hf
      rcases hf with rfl | rfl | rfl <;> decide
    all_goals cases hs

/-- The hypotheses of `C69_codec_partial` hold for it. -/
example : FewStructs selfTypes 1 0 ∧ ∀ u, LeadsTo selfTypes 0 u → Ends selfTypes u := by
  refine ⟨fun id fs m h hs => ?_, fun u h => ?_⟩
  · have := selfTypes_leads 0 id h (by decide)
    obtain rfl | rfl | rfl | rfl : id = 0 ∨ id = 1 ∨ id = 2 ∨ id = 3 := by omega
    · decide
    all_goals cases hs
  · have := selfTypes_leads 0 u h (by decide)
    obtain rfl | rfl | rfl | rfl : u = 0 ∨ u = 1 ∨ u = 2 ∨ u = 3 := by omega
    all_goals exact ⟨3, by decide⟩

/-- Its codecs: those of the three fields. -/
example : (codecT selfTypes 9 0).map (fun r => (r.1.1, (r.2 0).map (Option.map (List.map Prod.fst)))) =
    some (.struct 0, some (some [.ptr (.struct 0), .slice (.struct 0), .map .key (.ptr (.struct 0))])) := by decide +kernel
/-- Too little stack. -/
example : (codecT selfTypes 2 0).isNone = true := by decide +kernel

end JC.Props

import Verif.Spec.Iface
/-!
Property C58: the encoder reads the value that an interface, or an entry of a map, holds.
-/
namespace JC.Props
open JC Spec

/-- **C58** Full statement: the codec of a type is called with the address of the value that the interface holds.
Refuted by `C58_fails_array` and `C58_fails_func`; see `C58_exact`. -/
def C58_statement : Prop := ∀ h t v w, Holds h t v w → readAt h t (valuePtr t w) = some v

/-- For keys of maps. Refuted by `C58_fails_key`; see `C58_keys_exact`. -/
def C58_keys_statement : Prop := ∀ h t v w, Holds h t v w → readAt h t (keyPtr w) = some v

/-- The package's rule is a subset of Go's, and equal to it for the usual types. -/
theorem inlined_direct : ∀ t : RTy, inlined t = true → direct t = true
  | .flat => by simp [inlined]
  | .ptr => by simp [direct]
  | .map => by simp [direct]
  | .word => by simp [direct]
  | .array _ _ => by simp [inlined]
  | .struct [] => by simp [inlined]
  | .struct [f] => by simp only [inlined, direct]; exact inlined_direct f
  | .struct (_ :: _ :: _) => by simp [inlined]

theorem usual_iff : ∀ t : RTy, Usual t ↔ inlined t = direct t
  | .flat => by simp [Usual, inlined, direct]
  | .ptr => by simp [Usual, inlined, direct]
  | .map => by simp [Usual, inlined, direct]
  | .word => by simp [Usual, inlined, direct]
  | .array n e => by
    simp only [Usual, inlined, direct]
    by_cases hn : n = 1 <;> simp [hn]
  | .struct [] => by simp [Usual, inlined, direct]
  | .struct [f] => by simp only [Usual, inlined, direct]; exact usual_iff f
  | .struct (_ :: _ :: _) => by simp [Usual, inlined, direct]

/-- A local variable with the only word of a value is that value. -/
theorem wordAs_only : ∀ (t : RTy) (v : MV) (w : Nat), inlined t = true → Shaped t v → OnlyWord v w → wordAs t w = v
  | .ptr, v, w, _, hs, ho => by
    cases v with
    | word x => simp only [OnlyWord] at ho; subst ho; rfl
    | _ => simp [Shaped] at hs
  | .map, v, w, _, hs, ho => by
    cases v with
    | word x => simp only [OnlyWord] at ho; subst ho; rfl
    | _ => simp [Shaped] at hs
  | .flat, _, _, hi, _, _ => by simp [inlined] at hi
  | .word, _, _, hi, _, _ => by simp [inlined] at hi
  | .array _ _, _, _, hi, _, _ => by simp [inlined] at hi
  | .struct [], _, _, hi, _, _ => by simp [inlined] at hi
  | .struct [f], v, w, hi, hs, ho => by
    cases v with
    | many xs =>
      simp only [Shaped, ShapedF] at hs
      obtain ⟨y, ys, rfl, hy, rfl⟩ := hs
      simp only [OnlyWord] at ho
      simp only [inlined] at hi
      rw [wordAs, wordAs_only f y w hi hy ho]
    | _ => simp [Shaped] at hs
  | .struct (_ :: _ :: _), _, _, hi, _, _ => by simp [inlined] at hi

/-- Every type that Go stores directly has a value with a given word, and its shape is not flat. -/
theorem direct_value : ∀ (t : RTy), direct t = true → ∀ w, ∃ v, Shaped t v ∧ OnlyWord v w ∧ v ≠ .flat 0
  | .flat, hd, _ => by simp [direct] at hd
  | .ptr, _, w => ⟨.word w, trivial, rfl, by simp⟩
  | .map, _, w => ⟨.word w, trivial, rfl, by simp⟩
  | .word, _, w => ⟨.word w, trivial, rfl, by simp⟩
  | .array n e, hd, w => by
    simp only [direct, Bool.and_eq_true, beq_iff_eq] at hd
    obtain ⟨v, h1, h2, _⟩ := direct_value e hd.2 w
    exact ⟨.many [v], by simp [Shaped, hd.1, h1], h2, by simp⟩
  | .struct [], hd, _ => by simp [direct] at hd
  | .struct [f], hd, w => by
    simp only [direct] at hd
    obtain ⟨v, h1, h2, _⟩ := direct_value f hd w
    exact ⟨.many [v], by simp [Shaped, ShapedF, h1], h2, by simp⟩
  | .struct (_ :: _ :: _), hd, _ => by simp [direct] at hd

/-- **C58** (partial: channels, functions and arrays of one pointer or map are excluded) The codec reads the value that
the interface holds. -/
theorem C58_value_partial {h : Heap} {t : RTy} (ht : Usual t) {v : MV} {w : Nat} (hh : Holds h t v w) : readAt h t (valuePtr t w) = some v := by
  obtain ⟨hs, hh⟩ := hh
  have e := (usual_iff t).1 ht
  unfold valuePtr
  by_cases hi : inlined t = true
  · rw [if_pos (e ▸ hi)] at hh
    rw [if_pos hi, readAt, wordAs_only t v w hi hs hh]
  · rw [if_neg (e ▸ hi)] at hh
    rw [if_neg hi, readAt, hh]

/-- **C58** For exactly these types: for every other one some memory makes the codec read another value. -/
theorem C58_exact (t : RTy) : (∀ h v w, Holds h t v w → readAt h t (valuePtr t w) = some v) ↔ Usual t := by
  refine ⟨fun hall => ?_, fun ht h v w hh => C58_value_partial ht hh⟩
  rw [usual_iff]
  by_cases hi : inlined t = true
  · rw [hi, inlined_direct t hi]
  · cases hd : direct t with
    | false => simpa using hi
    | true =>
      obtain ⟨v, h1, h2, h3⟩ := direct_value t hd 7
      have := hall (fun _ => some (.flat 0)) v 7 ⟨h1, by rw [if_pos hd]; exact h2⟩
      rw [valuePtr, if_neg hi, readAt, Option.some.injEq] at this
      exact absurd this.symm h3

/-- **C58** The key codecs read the key for exactly the types that Go does not store directly. -/
theorem C58_keys_exact (t : RTy) : (∀ h v w, Holds h t v w → readAt h t (keyPtr w) = some v) ↔ direct t = false := by
  refine ⟨fun hall => ?_, fun hd h v w hh => ?_⟩
  · cases hd : direct t with
    | false => rfl
    | true =>
      obtain ⟨v, h1, h2, h3⟩ := direct_value t hd 7
      have := hall (fun _ => some (.flat 0)) v 7 ⟨h1, by rw [if_pos hd]; exact h2⟩
      rw [keyPtr, readAt, Option.some.injEq] at this
      exact absurd this.symm h3
  · have := hh.2
    rw [hd, if_neg (by simp)] at this
    exact this

/-- `Append` of a `[1]*T`: the `T` that the pointer points to is read as the array. -/
theorem C58_fails_array : ¬ C58_statement := fun h =>
  absurd (fun hh v w => h hh (.array 1 .ptr) v w) (mt (C58_exact (.array 1 .ptr)).1 (by simp [Usual, direct]))

/-- `Append` of a function with a `MarshalJSON` method: the code of the function is read as the function. -/
theorem C58_fails_func : ¬ C58_statement := fun h =>
  absurd (fun hh v w => h hh .word v w) (mt (C58_exact .word).1 (by simp [Usual]))

/-- A map with keys that are pointers (to a `TextMarshaler`): what a key points to is read as the key. -/
theorem C58_fails_key : ¬ C58_keys_statement := fun h =>
  absurd (fun hh v w => h hh .ptr v w) (mt (C58_keys_exact .ptr).1 (by simp [direct]))

/-- Concrete case: a struct with a single field that is a pointer is found in the data word. -/
example : readAt (fun a => if a = 3 then some (.flat 42) else none) (.struct [.ptr]) (valuePtr (.struct [.ptr]) 3) = some (.many [.word 3]) := rfl

/-- Concrete case: a struct with two pointers is found at the data word. -/
example : readAt (fun a => if a = 3 then some (.many [.word 1, .word 2]) else none) (.struct [.ptr, .ptr]) (valuePtr (.struct [.ptr, .ptr]) 3) =
    some (.many [.word 1, .word 2]) := rfl

/-- Concrete case: of an array of one pointer, the number is read that the pointer leads to. -/
example : readAt (fun a => if a = 3 then some (.flat 42) else none) (.array 1 .ptr) (valuePtr (.array 1 .ptr) 3) = some (.flat 42) := rfl

end JC.Props

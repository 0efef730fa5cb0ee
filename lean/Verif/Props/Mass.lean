import Verif.Lemmas.MassAll
/-!
C96: how much memory what is decoded takes.
-/
namespace JC.Props
open JC Spec

/-- **C96** After `Unmarshal`, with or without an error, the contents of the destination take at most `rate` more for
each byte of the text than before, whatever they were.  `S` lists the types that pointers in interfaces of the
destination lead to, and `n` is how deep they nest. -/
theorem C96_typed (c : DCfg) (n : Nat) (t : Ty) (S : List Ty) (b : Bytes) (p v : DV) (e : Option Err) (hp : Held (· ∈ S) p n)
    (h : unmarshal c n t b p = .done v e) : mass v ≤ mass p + rate (reach S n) t * (b.length + 1) := by
  have h0 := parseInto_grow (decN_grow c S n t) b p hp
  have he : rate (reach S n) t * (b.length + 1) = rate (reach S n) t * b.length + rate (reach S n) t := by rw [Nat.mul_add, Nat.mul_one]
  unfold unmarshal at h
  split at h
  · cases h
  · rename_i hd; rw [hd] at h0
    injection h with h _; subst h
    simp only [Got] at h0; omega
  · rename_i hd; rw [hd] at h0
    injection h with h _; subst h
    simp only [Got] at h0; omega

theorem reach_nil (n : Nat) : reach [] n = 3 := by cases n <;> rfl

/-- **C96** Into a new variable: no pointers are in its interfaces, so the bound is of the type alone. -/
theorem C96_new (c : DCfg) (n : Nat) (t : Ty) (b : Bytes) (v : DV) (e : Option Err) (h : unmarshal c n t b (zero t) = .done v e) :
    mass v ≤ room t + rate 3 t * (b.length + 1) := by
  have := C96_typed c n t [] b (zero t) v e (held_zero _ n t) h
  rwa [reach_nil, mass_zero] at this

/-- **C96** What is decoded into an interface takes at most three for each byte of the text. -/
theorem C96_any (c : DCfg) (n : Nat) (b : Bytes) (v : DV) (h : unmarshal c n .iface b .ifaceNil = .done v none) : mass v ≤ 3 * b.length := by
  have hd : ∀ b', decN c n .iface b' .ifaceNil = ifaceValue c (b'.length + 1) b' .ifaceNil := by
    intro b'
    cases n <;> rfl
  have hs := skipSpaces_length_le b
  have h0 := ifaceValue_got c ((skipSpaces b).length + 1) (skipSpaces b) .ifaceNil
  unfold unmarshal parseInto at h
  rw [hd] at h
  cases hi : ifaceValue c ((skipSpaces b).length + 1) (skipSpaces b) .ifaceNil with
  | ok w r =>
    rw [hi] at h h0
    simp only [URes.done.injEq] at h
    obtain ⟨rfl, _⟩ := h
    simp only [Got] at h0; omega
  | err w r x =>
    rw [hi] at h
    simp only [URes.done.injEq] at h
    split at h <;> simp at h
  | crash x => rw [hi] at h; cases h

/-- **C96** The type counts: no number for each byte is enough for all types.  One `null` makes an element, which may
be an array of any length. -/
theorem C96_type_matters (c : DCfg) (k : Nat) : ∃ t v, unmarshal c 0 t (bs! "[null]") (zero t) = .done v none ∧ k * (bs! "[null]").length < mass v := by
  refine ⟨.slice (.array (6 * k) .bool), .slice [zero (.array (6 * k) .bool)] [], ?_, ?_⟩
  · rfl
  · have : (bs! "[null]").length = 6 := rfl
    simp only [mass, massL, mass_zero, room, this]; omega

/-- **C96** Two for each byte are not enough: each byte of a string that is not UTF-8 becomes the three bytes of the replacement
character. -/
theorem C96_three (c : DCfg) : ∃ v, unmarshal c 0 .iface (bs! "\"\\n" ++ List.replicate 40 0xff ++ bs! "\"") .ifaceNil = .done v none ∧
    2 * (bs! "\"\\n" ++ List.replicate 40 0xff ++ bs! "\"").length < mass v := by
  refine ⟨_, by with_unfolding_all rfl, ?_⟩
  decide +kernel

/-- A struct with a map, an array and a string with the `string` option: the contents take 19 instead of 4, where
nine for each byte of the text are allowed. -/
example (c : DCfg) : let t : Ty := .struct [(bs! "a", .map .str (.ptr (.array 2 .bool))), (bs! "b", .slice .string), (bs! "c", .quoted .string)]
    let b := bs! "{\"b\":[\"x\",\"yz\"],\"a\":{\"k\":[true],\"l\":null},\"c\":\"\\\"q\\\"\"}"
    ∃ v, unmarshal c 0 t b (zero t) = .done v none ∧ room t = 4 ∧ mass v = 19 ∧ rate 3 t = 9 ∧ b.length = 54 := by
  refine ⟨_, by with_unfolding_all rfl, ?_⟩
  decide +kernel

/-- A slice of integers takes at most one for each byte of the text, a slice of arrays of four at most six. -/
example : rate 3 (.slice (.int .int)) = 1 ∧ rate 3 (.slice (.array 4 .bool)) = 6 ∧ room (.array 4 .bool) = 5 := by decide +kernel

/-- A pointer in an interface to a slice with memory: what is there is kept, and what the text needs is added. -/
example (c : DCfg) : let p : DV := .iface (.ptr (.slice .bytes)) (.ptr (.slice [.bytes [1, 2, 3] []] [.bytes [4] []]))
    ∃ v, unmarshal c 1 .iface (bs! "[\"AAAA\",null,[7,8]]") p = .done v none ∧ Held (· ∈ [.slice .bytes]) p 1 ∧ mass p = 9 ∧ mass v = 11 ∧
      reach [.slice .bytes] 1 = 4 := by
  refine ⟨_, by with_unfolding_all rfl, ?_, ?_, ?_, ?_⟩
  · simp [Held, HeldL]
  all_goals decide +kernel

end JC.Props

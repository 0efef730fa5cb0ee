import Verif.Lemmas.SizeEnc
import Verif.Model.Encoder
/-!
C93: how much text is written for a value.
-/
namespace JC.Props
open JC Spec

/-- **C93** What is appended for a value, with or without an error, takes at most `perUnit` bytes for each unit of the
size of the value.  The nesting level of the Indenter rises at most by the size, and indentation at most so far. -/
theorem C93_size (c : Cfg) (hlib : c.trustRaw = true → IndentLib c.jsonIndent) (v : GV) (b : Bytes) (d : Int) (b' : Bytes) (d' : Int) (e : Option Err)
    (h : enc c v b d = .done b' d' e) :
    b'.length ≤ b.length + perUnit c (d.toNat + size v) * size v ∧ d' ≤ d + size v :=
  enc_size hlib v b d b' d' e (by omega) (by omega) h

/-- **C93** `Marshal` writes at most six bytes for each unit of the size of a value. -/
theorem C93_marshal (v : GV) (out : Bytes) (h : marshal v = some (.ok out)) : out.length ≤ 6 * size v := by
  unfold marshal at h
  cases hr : enc {} v [] 0 with
  | panic => rw [hr] at h; simp at h
  | done b d e =>
    rw [hr] at h
    cases e with
    | some x => simp at h
    | none =>
      simp only [Option.some.injEq, Except.ok.injEq] at h
      subst h
      have := (C93_size {} (fun h => by cases h) v [] 0 b d none hr).1
      simpa [perUnit, perColor, perLine] using this

/-- **C93** What one call of `Encode` writes: the text and a newline. -/
theorem C93_encode (ji : Bytes → Bytes → Bytes → Option Bytes) (hji : IndentLib ji) (e e' : Encoder) (v : GV) (w : Bytes → Option Err)
    (ret : Option Err) (ws : List Bytes) (h : e.encode ji v w = .done e' ret ws) :
    (ws.map List.length).sum ≤ perUnit (e.cfg ji) (e.depth.toNat + size v) * size v + 1 := by
  unfold Encoder.encode at h
  cases he : e.err with
  | some x => rw [he] at h; simp only [EncodeR.done.injEq] at h; obtain ⟨_, _, rfl⟩ := h; simp
  | none =>
    rw [he] at h
    simp only [] at h
    cases hr : enc (e.cfg ji) v [] e.depth with
    | panic => rw [hr] at h; cases h
    | done b d x =>
      rw [hr] at h
      have := (C93_size (e.cfg ji) (fun _ => hji) v [] e.depth b d x hr).1
      simp only [List.length_nil, Nat.zero_add] at this
      cases x with
      | some x => simp only [EncodeR.done.injEq] at h; obtain ⟨_, _, rfl⟩ := h; simp
      | none =>
        simp only [] at h
        split at h
        all_goals
          simp only [EncodeR.done.injEq] at h; obtain ⟨_, _, rfl⟩ := h
          simp only [List.map_cons, List.map_nil, List.sum_cons, List.sum_nil, List.length_append, List.length_cons, List.length_nil]
          omega

theorem zeros_text : ∀ n, (encLoop true [] (List.replicate n 0)).length = 6 * n
  | 0 => by unfold encLoop; rfl
  | n + 1 => by
    rw [List.replicate_succ]
    unfold encLoop
    have h1 : encPlain true 0 = false := by decide
    simp only [h1, Bool.false_eq_true, if_false]
    rw [if_neg (by decide), if_neg (by decide), if_neg (by decide), if_neg (by decide), if_neg (by decide), if_pos (by decide)]
    simp only [List.length_append, List.length_cons, List.length_nil, zeros_text n]
    have : (bs! "\\u00").length = 4 := rfl
    omega

/-- **C93** Six is needed: a string of `n` zero bytes has size `n + 1` and takes `6 n + 2` bytes. -/
theorem C93_tight (n : Nat) : ∃ out, marshal (.string (List.replicate n 0)) = some (.ok out) ∧
    size (.string (List.replicate n 0)) = n + 1 ∧ out.length = 6 * n + 2 := by
  refine ⟨_, rfl, by simp [size], ?_⟩
  simp only [doEncodeString, List.nil_append, List.length_cons, List.length_append, List.length_nil]
  have := zeros_text n
  omega

/-- Slices in slices. -/
def nest : Nat → GV
  | 0 => .sliceNil
  | n + 1 => .slice [nest n]

theorem nest_size : ∀ n, size (nest n) = 2 * n + 1
  | 0 => by simp [nest, size]
  | n + 1 => by simp only [nest, size, sizeL, nest_size n]; omega

/-- An Indenter with one space. -/
def oneSpace : Cfg := { ind := some (newIndenter [] [0x20]) }

theorem oneSpace_byte (b : Bytes) (a : UInt8) : oneSpace.appendByte b a = b ++ [a] := rfl
theorem oneSpace_indent (d : Nat) (b : Bytes) : (oneSpace.appendIndent d b).length = b.length + d := by
  have : oneSpace.appendIndent d b = b ++ [] ++ (List.replicate (d : Int).toNat [0x20]).flatten := rfl
  rw [this, List.length_append, flatten_replicate_size]
  simp

theorem nest_text : ∀ (n d : Nat) (b : Bytes), ∃ b', enc oneSpace (nest n) b d = .done b' d none ∧
    b'.length = b.length + (n * n + 2 * n * d + 4 * n + 4)
  | 0, d, b => ⟨b ++ bs! "null", rfl, by
      have : (bs! "null").length = 4 := rfl
      simp only [List.length_append, this]; omega⟩
  | n + 1, d, b => by
    obtain ⟨b1, h1, h2⟩ := nest_text n (d + 1) (oneSpace.appendIndent ((d + 1 : Nat) : Int) (oneSpace.appendByte (appendPunc none b (ch! '[')) 0x0a))
    refine ⟨appendPunc none (oneSpace.appendIndent ((d : Nat) : Int) (oneSpace.appendByte b1 0x0a)) (ch! ']'), ?_, ?_⟩
    · have hp : oneSpace.push (d : Int) = ((d + 1 : Nat) : Int) := rfl
      have hq : oneSpace.pop ((d + 1 : Nat) : Int) = (d : Int) := by
        show ((d + 1 : Nat) : Int) - 1 = d
        omega
      have hc : oneSpace.clrs = none := rfl
      simp only [nest, enc, encL, encodeArray, arrayLoop, hp, hc, h1, hq, List.length_cons, List.length_nil, if_true]
      rfl
    · rw [oneSpace_indent, oneSpace_byte] at h2
      simp only [appendPunc, List.length_append, List.length_cons, List.length_nil, oneSpace_indent, oneSpace_byte] at h2 ⊢
      have e1 : (n + 1) * (n + 1) = n * n + 2 * n + 1 := by rw [Nat.add_mul, Nat.mul_add]; omega
      have e2 : 2 * (n + 1) * d = 2 * n * d + 2 * d := by rw [Nat.mul_add, Nat.add_mul]
      have e3 : 2 * n * (d + 1) = 2 * n * d + 2 * n := by rw [Nat.mul_add, Nat.mul_one]
      omega

/-- **C93** With indentation the text may be longer than any number of bytes for each unit of the size: slices in
slices take the square of their number. -/
theorem C93_square (n : Nat) : ∃ out, enc oneSpace (nest n) [] 0 = .done out 0 none ∧ size (nest n) = 2 * n + 1 ∧ out.length = n * n + 4 * n + 4 := by
  obtain ⟨b, h1, h2⟩ := nest_text n 0 []
  refine ⟨b, h1, nest_size n, ?_⟩
  simp only [List.length_nil, Nat.mul_zero] at h2
  omega

/-- **C93** No number of bytes for each unit is enough for all values with indentation. -/
theorem C93_not_linear (k : Nat) : ∃ v out, enc oneSpace v [] 0 = .done out 0 none ∧ k * size v < out.length := by
  obtain ⟨out, h1, h2, h3⟩ := C93_square (2 * k)
  refine ⟨_, out, h1, ?_⟩
  rw [h2, h3]
  have e1 : k * (2 * (2 * k) + 1) = 2 * k * (2 * k) + k := by
    rw [Nat.mul_add, Nat.mul_one, Nat.mul_comm 2 k, Nat.mul_assoc, ← Nat.mul_assoc k 2]
  omega

/-- A struct with a map and a string field with the `string` option, indented and colored: 167 bytes, of at most 35 · 258. -/
example : let v : GV := .struct [(⟨bs! "a", false⟩, .map [(.int (-7), .bool true), (.str (bs! "<"), .bytes [1, 2, 3])]), (⟨bs! "b", true⟩, .quoted (.int 5))]
    let c : Cfg := { clrs := some { number := [0x1b], key := [0x1b, 0x31] }, ind := some (newIndenter (bs! ">") (bs! "  ")) }
    ∃ out, enc c v [] 0 = .done out 0 none ∧ out.length = 167 ∧ size v = 35 ∧ perUnit c (size v) = 258 := by
  refine ⟨_, rfl, ?_, ?_, ?_⟩ <;> decide +kernel

end JC.Props

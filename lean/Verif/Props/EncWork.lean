import Verif.Lemmas.EncWorkLow
import Verif.Props.Size
/-!
C95: how much work encoding a value is.
-/
namespace JC.Props
open JC Spec

/-- **C95** Encoding a value takes at most ten steps for each byte that C93 allows for its text, and apart from that a
step for each pointer and interface that is followed and what sorting the keys of its maps takes.  What is in the
buffer before does not count. -/
theorem C95_work (c : Cfg) (hlib : c.trustRaw = true → IndentLib c.jsonIndent) (srt : List MKey → Nat) (v : GV) (b : Bytes) (d : Int) :
    encSteps c srt v b d ≤ 10 * (perUnit c (d.toNat + size v) * size v) + apart (fun l => if c.sortMapKeys then srt l else 0) v :=
  encSteps_le hlib srt v b d (by omega) (by omega)

/-- **C95** Without sorted keys the sorting library is not called. -/
theorem C95_unsorted (c : Cfg) (hs : c.sortMapKeys = false) (hlib : c.trustRaw = true → IndentLib c.jsonIndent) (srt : List MKey → Nat) (v : GV) (b : Bytes) (d : Int) :
    encSteps c srt v b d ≤ 10 * (perUnit c (d.toNat + size v) * size v) + apart (fun _ => 0) v := by
  have := C95_work c hlib srt v b d
  simpa only [hs, Bool.false_eq_true, if_false] using this

/-- **C95** `Marshal`: at most sixty steps for each unit of the size, apart from pointers and sorting. -/
theorem C95_marshal (srt : List MKey → Nat) (v : GV) : encSteps {} srt v [] 0 ≤ 60 * size v + apart srt v := by
  have := C95_work {} (fun h => by cases h) srt v [] 0
  have h6 : perUnit ({} : Cfg) ((0 : Int).toNat + size v) = 6 := by simp [perUnit, perColor, perLine]
  rw [h6] at this
  simp only [if_true] at this
  have h2 : 10 * (6 * size v) = 60 * size v := by omega
  rw [h2] at this
  exact this

/-- **C95** Nothing is left out of the count: every byte that is appended takes a step. -/
theorem C95_counted (c : Cfg) (srt : List MKey → Nat) (v : GV) (b : Bytes) (d : Int) (b' : Bytes) (d' : Int) (e : Option Err)
    (h : enc c v b d = .done b' d' e) : b'.length ≤ b.length + encSteps c srt v b d :=
  enc_counts srt v b d b' d' e h

/-- **C95** With indentation no number of steps for each unit of the size is enough: slices in slices take the square. -/
theorem C95_square (srt : List MKey → Nat) (n : Nat) : size (nest n) = 2 * n + 1 ∧ n * n ≤ encSteps oneSpace srt (nest n) [] 0 := by
  obtain ⟨out, h1, h2, h3⟩ := C93_square n
  have := C95_counted oneSpace srt (nest n) [] 0 out 0 none h1
  simp only [List.length_nil, Nat.zero_add] at this
  exact ⟨h2, by omega⟩

/-- A map with two keys behind a pointer: 68 steps for 31 bytes of text, four of them for a sort, which is taken to compare each key with each. -/
example : let v : GV := .ptr (.map [(.str (bs! "k"), .slice [.bool true, .nil]), (.int 12, .string (bs! "<"))])
    let srt : List MKey → Nat := fun l => l.length * l.length
    enc {} v [] 0 = .done (bs! "{\"12\":\"\\u003c\",\"k\":[true,null]}") 0 none ∧
      encSteps {} srt v [] 0 = 68 ∧ size v = 14 ∧ apart srt v = 5 := by
  refine ⟨by with_unfolding_all rfl, ?_, ?_, ?_⟩ <;> decide +kernel

end JC.Props

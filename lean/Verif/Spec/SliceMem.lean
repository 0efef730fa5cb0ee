import Verif.Model.SliceMem
/-!
Specification of slices in memory.
-/
namespace JC.Spec
open JC

/-- A header that Go's own operations can make: it lies within its array, and `nil` and `empty` have no room. -/
def HdrOk (h : SHeap) (s : Hdr) : Prop :=
  s.len ≤ s.cap ∧
  match s.data with
  | .nil | .empty => s.cap = 0
  | .at a => ∃ xs, h[a]? = some xs ∧ s.off + s.cap ≤ xs.length

/-- A header in memory holds a slice: `nil`, or the elements `d` with `m` behind them; memory behind `m` is zero. -/
inductive HoldsSlice (z : DV) (h : SHeap) (s : Hdr) : DV → Prop
  | nil (ok : HdrOk h s) (hd : s.data = .nil) : HoldsSlice z h s .sliceNil
  | slice (d m : List DV) (k : Nat) (ok : HdrOk h s) (hd : s.data ≠ .nil) (hl : s.len = d.length)
      (hc : h.cells s = d ++ m ++ List.replicate k z) : HoldsSlice z h s (.slice d m)

/-- Two results agree: neither has used memory that is not there, and they leave the same slice, rest and error. -/
inductive SameRes (z : DV) : MRes → DRes → Prop
  | ok {h s r v} (hv : HoldsSlice z h s v) : SameRes z (.ok h s r) (.ok v r)
  | err {h s r e v} (hv : HoldsSlice z h s v) : SameRes z (.err h s r e) (.err v r e)
  | crash {c} : SameRes z (.crash c) (.crash c)

/-- Memory of `h` that a slice `s` of it does not reach is the same in `h'`; no array of `h` is gone. -/
def KeptAround (h : SHeap) (s : Hdr) (h' : SHeap) : Prop :=
  h.length ≤ h'.length ∧ ∀ (a : Nat) (xs : List DV), h[a]? = some xs →
    ∃ ys, h'[a]? = some ys ∧ ys.length = xs.length ∧
      ∀ (i : Nat), ¬ (s.data = .at a ∧ s.off ≤ i ∧ i < s.off + s.cap) → ys[i]? = xs[i]?

/-- The number of cells of the arrays that `h'` has and `h` has not. -/
def newCells (h h' : SHeap) : Nat := ((h'.drop h.length).map List.length).sum

/-- The memory a result leaves behind, if it leaves any. -/
def MemOf : MRes → Option (SHeap × Hdr)
  | .ok h s _ => some (h, s)
  | .err h s _ _ => some (h, s)
  | _ => none

end JC.Spec

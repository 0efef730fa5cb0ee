import Verif.Model.Basic
/-!
Model of the pooled buffers: `encoderBufferPool`, `/repo/json.go:160-172, 392-417, 454-458`,
and `mapslicePool`, `/repo/encode.go:464-479, 531-577, 634-681`.

Arrays live on a heap and are shared by reference; a slice is an array and a length (its
capacity is the length of the array, all slices here start at its first element). A call of
`Marshal` or `Encode`, or of a map encoder, is a sequence of operations on one slice taken
from the pool. Calls are interleaved in any way; one made inside another is a call of its own.
-/
namespace JC

variable {α : Type}

/-- When a pooled slice is cut to length 0: when it is taken, or when it is put back (in which case its
elements are zeroed first). -/
structure PoolPolicy where
  onGet : Bool
  onPut : Bool
deriving DecidableEq, Repr

/-- `encoderBufferPool`: `buf.data[:0]`, `/repo/json.go:164, 402`. -/
def bufferPolicy : PoolPolicy := ⟨true, false⟩

/-- `mapslicePool`: `s.elements = s.elements[:0]` before `Put`, `/repo/encode.go:571-576, 675-680`. -/
def mapslicePolicy : PoolPolicy := ⟨false, true⟩

/-- What a call does with the content at its end: `Marshal` returns a copy
(`/repo/json.go:168-171`); `Encode` hands it to `Write` (`/repo/json.go:411`), and the map
encoders iterate over it. -/
inductive PoolUse where
  | copy
  | show
deriving DecidableEq, Repr

/-- A slice: array and length. -/
abbrev SliceHdr := Nat × Nat

/-- A call: `todo` are the operations it still makes on the content of its slice, such as appending
text (or sorting, for a mapslice). -/
inductive PoolCall (α : Type) where
  | idle
  | busy (use : PoolUse) (s : SliceHdr) (todo : List (List α → List α))
  /-- before `Put` -/
  | ended (s : SliceHdr)

structure PoolSt (α : Type) where
  mem : Nat → List α
  /-- the next unused array -/
  fresh : Nat
  pool : List SliceHdr
  calls : Nat → PoolCall α
  /-- slices returned to the callers -/
  results : List SliceHdr

def PoolSt.init : PoolSt α := ⟨fun _ => [], 0, [], fun _ => .idle, []⟩

/-- What happens. -/
inductive PoolEv (α : Type) where
  /-- call `i` begins: `Get` takes entry `k` of the pool, or makes a new array (`arr`) -/
  | start (i : Nat) (use : PoolUse) (ops : List (List α → List α)) (k : Nat) (arr : List α)
  /-- call `i` makes its next operation; if it needs (or wants) a new array, that has the rest `tail` -/
  | op (i : Nat) (grow : Bool) (tail : List α)
  /-- somebody who was given the slice of call `i` (the writer, say) reads it -/
  | peek (i : Nat)
  /-- call `i` ends with success -/
  | finish (i : Nat)
  /-- call `i` ends with an error, `/repo/json.go:164-166` (nothing is put back) and
  `/repo/json.go:403-406` (`put`) -/
  | fail (i : Nat) (put : Bool)
  /-- call `i` puts its slice back -/
  | put (i : Nat)
  /-- the collector drops entry `k` of the pool -/
  | gc (k : Nat)
  /-- the receiver of result `r` reads it -/
  | read (r : Nat)
  /-- the receiver of result `r` changes its elements -/
  | scribble (r : Nat) (f : α → α)

/-- What can be seen from outside. -/
inductive PoolObs (α : Type) where
  | none
  | returned (xs : List α)
  | shown (xs : List α)
  | result (xs : List α)

def setAt {β : Type} (f : Nat → β) (i : Nat) (x : β) : Nat → β := fun j => if j = i then x else f j

/-- The elements of a slice. -/
def PoolSt.content (s : PoolSt α) (h : SliceHdr) : List α := (s.mem h.1).take h.2

/-- `s = s[:0]`, if asked. -/
def cut (b : Bool) (h : SliceHdr) : SliceHdr := if b then (h.1, 0) else h

/-- One atomic step; `zero` is the zero element. -/
def PoolSt.next (pol : PoolPolicy) (zero : α) (s : PoolSt α) : PoolEv α → PoolSt α × PoolObs α
  | .start i use ops k arr =>
    match s.calls i with
    | .idle =>
      match s.pool[k]? with
      | some h => ({ s with pool := s.pool.eraseIdx k, calls := setAt s.calls i (.busy use (cut pol.onGet h) ops) }, .none)
      | none => ({ s with mem := setAt s.mem s.fresh arr, fresh := s.fresh + 1, calls := setAt s.calls i (.busy use (s.fresh, 0) ops) }, .none)
    | _ => (s, .none)
  | .op i grow tail =>
    match s.calls i with
    | .busy use h (f :: ops) =>
      let xs := f (s.content h)
      if xs.length ≤ (s.mem h.1).length ∧ grow = false then
        ({ s with mem := setAt s.mem h.1 (xs ++ (s.mem h.1).drop xs.length), calls := setAt s.calls i (.busy use (h.1, xs.length) ops) }, .none)
      else
        ({ s with mem := setAt s.mem s.fresh (xs ++ tail), fresh := s.fresh + 1, calls := setAt s.calls i (.busy use (s.fresh, xs.length) ops) }, .none)
    | _ => (s, .none)
  | .peek i =>
    match s.calls i with
    | .busy _ h _ => (s, .shown (s.content h))
    | _ => (s, .none)
  | .finish i =>
    match s.calls i with
    | .busy .copy h [] =>
      ({ s with mem := setAt s.mem s.fresh (s.content h), fresh := s.fresh + 1, results := s.results ++ [(s.fresh, h.2)],
                calls := setAt s.calls i (.ended h) }, .returned (s.content h))
    | .busy .show h [] => ({ s with calls := setAt s.calls i (.ended h) }, .shown (s.content h))
    | _ => (s, .none)
  | .fail i put =>
    match s.calls i with
    | .busy _ h _ => ({ s with calls := setAt s.calls i (if put then .ended h else .idle) }, .none)
    | _ => (s, .none)
  | .put i =>
    match s.calls i with
    | .ended h =>
      let mem := if pol.onPut then setAt s.mem h.1 (List.replicate h.2 zero ++ (s.mem h.1).drop h.2) else s.mem
      ({ s with mem := mem, pool := cut pol.onPut h :: s.pool, calls := setAt s.calls i .idle }, .none)
    | _ => (s, .none)
  | .gc k => ({ s with pool := s.pool.eraseIdx k }, .none)
  | .read r =>
    match s.results[r]? with
    | some h => (s, .result (s.content h))
    | none => (s, .none)
  | .scribble r f =>
    match s.results[r]? with
    | some h => ({ s with mem := setAt s.mem h.1 (((s.mem h.1).take h.2).map f ++ (s.mem h.1).drop h.2) }, .none)
    | none => (s, .none)

/-- A history and what is seen during it. -/
def PoolSt.run (pol : PoolPolicy) (zero : α) : PoolSt α → List (PoolEv α) → List (PoolObs α)
  | _, [] => []
  | s, e :: es => (s.next pol zero e).2 :: (s.next pol zero e).1.run pol zero es

end JC

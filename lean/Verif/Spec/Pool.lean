import Verif.Model.Pool
/-!
Specification for C44: the same calls without any sharing. Every call works on a list of its
own that starts empty, and results are values.
-/
namespace JC.Spec
open JC

variable {α : Type}

inductive OwnCall (α : Type) where
  | idle
  | busy (use : PoolUse) (xs : List α) (todo : List (List α → List α))
  | ended

structure OwnSt (α : Type) where
  calls : Nat → OwnCall α
  results : List (List α)

def OwnSt.init : OwnSt α := ⟨fun _ => .idle, []⟩

def OwnSt.next (s : OwnSt α) : PoolEv α → OwnSt α × PoolObs α
  | .start i use ops _ _ =>
    match s.calls i with
    | .idle => ({ s with calls := setAt s.calls i (.busy use [] ops) }, .none)
    | _ => (s, .none)
  | .op i _ _ =>
    match s.calls i with
    | .busy use xs (f :: ops) => ({ s with calls := setAt s.calls i (.busy use (f xs) ops) }, .none)
    | _ => (s, .none)
  | .peek i =>
    match s.calls i with
    | .busy _ xs _ => (s, .shown xs)
    | _ => (s, .none)
  | .finish i =>
    match s.calls i with
    | .busy .copy xs [] => ({ s with results := s.results ++ [xs], calls := setAt s.calls i .ended }, .returned xs)
    | .busy .show xs [] => ({ s with calls := setAt s.calls i .ended }, .shown xs)
    | _ => (s, .none)
  | .fail i put =>
    match s.calls i with
    | .busy _ _ _ => ({ s with calls := setAt s.calls i (if put then .ended else .idle) }, .none)
    | _ => (s, .none)
  | .put i =>
    match s.calls i with
    | .ended => ({ s with calls := setAt s.calls i .idle }, .none)
    | _ => (s, .none)
  | .gc _ => (s, .none)
  | .read r =>
    match s.results[r]? with
    | some xs => (s, .result xs)
    | none => (s, .none)
  | .scribble r f =>
    match s.results[r]? with
    | some xs => ({ s with results := s.results.set r (xs.map f) }, .none)
    | none => (s, .none)

def OwnSt.run : OwnSt α → List (PoolEv α) → List (PoolObs α)
  | _, [] => []
  | s, e :: es => (s.next e).2 :: (s.next e).1.run es

end JC.Spec

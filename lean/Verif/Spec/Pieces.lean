import Verif.Model.Pieces
/-!
Specification of readers that deliver data in pieces.
-/
namespace JC.Spec
open JC

/-- Only the last piece may carry an error, and only the one that comes for ever afterwards. -/
def PlainPieces (e : Err) : List Piece → Prop
  | [] => True
  | p :: ps => (p.err = none ∨ ps = [] ∧ p.err = some e) ∧ PlainPieces e ps

/-- A source of `b` that ends in `e`, in whatever pieces. -/
def EndsIn (s : Source) (b : Bytes) (e : Err) : Prop := s.data = b ∧ s.last = some e ∧ PlainPieces e s.pieces

/-- A connection that stays open: `b` has been sent on it and nothing else comes. -/
def Open (s : Source) (b : Bytes) : Prop := s.data = b ∧ s.last = none ∧ ∀ p ∈ s.pieces, p.err = none

end JC.Spec

import Verif.Spec.Clean
/-!
Specification: the fields of a struct as members of an object. A field is omitted, or it is behind a nil embedded
pointer and has no value, or it is a member.
-/
namespace JC.Spec
open JC

/-- `omitempty` applies. -/
def LeftOut (f : FMeta × GV) : Prop := f.1.omitempty = true ∧ isEmpty f.2 = true

/-- A field behind a nil embedded pointer. -/
def Behind (f : FMeta × GV) : Prop := ¬ LeftOut f ∧ isRollback f.2 = true

/-- A field that becomes a member. -/
def Member (f : FMeta × GV) : Prop := ¬ LeftOut f ∧ isRollback f.2 = false

/-- All fields behind nil embedded pointers come before all members. -/
def NilsFirst (fs : List (FMeta × GV)) : Prop :=
  ∀ (i j : Nat) (f g : FMeta × GV), fs[i]? = some f → fs[j]? = some g → Member f → Behind g → j < i

end JC.Spec

import Verif.Spec.Embed
import Verif.Spec.Stray
import Verif.Model.EmbedEnc
/-!
Specification: what an encoder is to find in a struct with embedded structs and pointers.
-/
namespace JC.Spec
open JC

/-- `Blocked fs vs p`: the path leads through a nil pointer. -/
inductive Blocked : List EF → List EV → List Nat → Prop
  | here (fs : List EF) (vs : List EV) (i : Nat) (u : Bool) (sub : List EF) (p : List Nat) :
      fs[i]? = some (.ptr u sub) → vs[i]? = some .nil → Blocked fs vs (i :: p)
  | val (fs : List EF) (vs : List EV) (i : Nat) (sub : List EF) (ws : List EV) (p : List Nat) :
      fs[i]? = some (.val sub) → vs[i]? = some (.val ws) → Blocked sub ws p → Blocked fs vs (i :: p)
  | ptr (fs : List EF) (vs : List EV) (i : Nat) (u : Bool) (sub : List EF) (ws : List EV) (p : List Nat) :
      fs[i]? = some (.ptr u sub) → vs[i]? = some (.ptr ws) → Blocked sub ws p → Blocked fs vs (i :: p)

/-- What is to be seen of a promoted field: nothing behind a nil pointer, else the value at its path. -/
def Sight (fs : List EF) (vs : List EV) (a : Promoted) (g : FMeta × GV) : Prop :=
  g.1 = ⟨a.1, false⟩ ∧ ((Blocked fs vs a.2.1 ∧ g.2 = .embNil false) ∨
    (¬ Blocked fs vs a.2.1 ∧ ∃ v, Reads fs vs a.2.1 v ∧ g.2 = toGV v a.2.2))

/-- `Sees fs vs ps gs`: the fields `gs` are to be seen for the promoted fields `ps`. -/
def Sees (fs : List EF) (vs : List EV) (ps : List Promoted) (gs : List (FMeta × GV)) : Prop :=
  gs.length = ps.length ∧ ∀ (i : Nat) (a : Promoted), ps[i]? = some a → ∃ g, gs[i]? = some g ∧ Sight fs vs a g

end JC.Spec

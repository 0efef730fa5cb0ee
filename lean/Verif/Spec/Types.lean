import Verif.Model.Types
import Verif.Spec.Codec
/-! Types that refer to themselves. -/
namespace JC.Spec
open JC

/-- The element of the element of … of a type. -/
def elemAt (ts : Types) : Nat → Nat → Option Nat
  | 0, t => some t
  | n + 1, t => (ts t).elem.bind (elemAt ts n)

/-- There is a last element type: one that is no array, slice, map or pointer. -/
def Ends (ts : Types) (t : Nat) : Prop := ∃ n, elemAt ts n t = none

/-- The types that the declaration of `t` leads to. -/
inductive LeadsTo (ts : Types) : Nat → Nat → Prop
  | refl (t : Nat) : LeadsTo ts t t
  | elem (t e u : Nat) : (ts t).elem = some e → LeadsTo ts e u → LeadsTo ts t u
  | field (t : Nat) (fs : List (Nat × Bool)) (m : MSets) (f : Nat × Bool) (u : Nat) : ts t = .struct fs m → f ∈ fs → LeadsTo ts f.1 u → LeadsTo ts t u

/-- `g` is the type `t` written out, with structs by their numbers. -/
inductive IsType (ts : Types) : Nat → GT → Prop
  | special (t : Nat) (s : Special) : ts t = .special s → IsType ts t (.special s)
  | basic (t : Nat) (k : BasicKind) (m : MSets) : ts t = .basic k m → IsType ts t (.basic k m)
  | ifc (t : Nat) (m : Meths) : ts t = .ifc m → IsType ts t (.ifc m)
  | array (t n e : Nat) (m : MSets) (g : GT) : ts t = .array n e m → IsType ts e g → IsType ts t (.array n g m)
  | slice (t e : Nat) (m : MSets) (g : GT) : ts t = .slice e m → IsType ts e g → IsType ts t (.slice g m)
  | map (t : Nat) (k : KeyTy) (e : Nat) (m : MSets) (g : GT) : ts t = .map k e m → IsType ts e g → IsType ts t (.map k g m)
  | ptr (t e : Nat) (g : GT) : ts t = .ptr e → IsType ts e g → IsType ts t (.ptr g)
  | struct (t : Nat) (fs : List (Nat × Bool)) (m : MSets) : ts t = .struct fs m → IsType ts t (.struct t)
  | other (t : Nat) (m : MSets) : ts t = .other m → IsType ts t (.other m)

/-- `env` has the structs that `t` leads to, with the types of their fields written out. -/
def EnvOf (ts : Types) (t : Nat) (env : TyEnv) : Prop :=
  ∀ id fs m, LeadsTo ts t id → ts id = .struct fs m → (env id).meths = m ∧ (env id).fields.length = fs.length ∧
    ∀ (i : Nat) f g, fs[i]? = some f → (env id).fields[i]? = some g → g.2 = f.2 ∧ IsType ts f.1 g.1

end JC.Spec

import Verif.Model.Iface
/-!
Specification for C58: how Go (the gc compiler, `cmd/compile/internal/types.IsDirectIface`, and
`reflect.Value`) stores the value of an interface.
-/
namespace JC.Spec
open JC

/-- Values that are one pointer-shaped word are stored in the interface itself. -/
def direct : RTy → Bool
  | .flat => false
  | .ptr => true
  | .map => true
  | .word => true
  | .array n e => n == 1 && direct e
  | .struct [f] => direct f
  | .struct _ => false

mutual
/-- The contents have the shape of the type. -/
def Shaped : RTy → MV → Prop
  | .flat, .flat _ => True
  | .ptr, .word _ => True
  | .map, .word _ => True
  | .word, .word _ => True
  | .array n e, .many xs => xs.length = n ∧ ∀ x ∈ xs, Shaped e x
  | .struct fs, .many xs => ShapedF fs xs
  | _, _ => False
def ShapedF : List RTy → List MV → Prop
  | [], xs => xs = []
  | f :: fs, xs => ∃ y ys, xs = y :: ys ∧ Shaped f y ∧ ShapedF fs ys
end

/-- The only word of the contents. -/
def OnlyWord : MV → Nat → Prop
  | .word w, w' => w = w'
  | .many [x], w => OnlyWord x w
  | _, _ => False

/-- An interface with data word `w` holds the value `v` of type `t`. -/
def Holds (h : Heap) (t : RTy) (v : MV) (w : Nat) : Prop :=
  Shaped t v ∧ if direct t = true then OnlyWord v w else h w = some v

/-- The types for which the package agrees with Go: no channel, function, or array of one word, alone or as
the only field of structs. -/
def Usual : RTy → Prop
  | .word => False
  | .array n e => ¬ (n = 1 ∧ direct e = true)
  | .struct [f] => Usual f
  | _ => True

end JC.Spec

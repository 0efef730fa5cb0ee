import Verif.Model.Layout
/-!
Specification: what lies where in a struct.
-/
namespace JC.Spec
open JC

/-- The offset of field number `i` of a struct. -/
def offsetOf (fs : List LF) (i : Nat) : Nat :=
  match fs[i]? with
  | some f => LF.up f.al (structEnd 0 (fs.take i))
  | none => 0

/-- `Lies fs p off k`: in a struct with these fields the path `p`, through embedded structs, leads to a field of kind
`k` that begins at `off`. An embedded pointer is a field of kind `ptr`. -/
inductive Lies : List LF → List Nat → Nat → LK → Prop
  | leaf (fs : List LF) (i : Nat) (o : Bool) (k : LK) : fs[i]? = some (.leaf o k) → Lies fs [i] (offsetOf fs i) k
  | ptr (fs : List LF) (i : Nat) (sub : List LF) : fs[i]? = some (.ptr sub) → Lies fs [i] (offsetOf fs i) .ptr
  | val (fs : List LF) (i : Nat) (sub : List LF) (p : List Nat) (off : Nat) (k : LK) : fs[i]? = some (.val sub) →
      Lies sub p off k → Lies fs (i :: p) (offsetOf fs i + off) k

/-- An access sees what is there. -/
def Access.Right (a : Access) : Prop := ∃ p, Lies a.block p a.off a.kind

/-- An access stays within the struct. -/
def Access.Within (a : Access) : Prop := a.off + a.kind.size ≤ structSize a.block

/-- Values of more than one word, with the addresses in them; 0 is nil. -/
inductive Header where
  | string (data len : Nat)
  | slice (data len cap : Nat)
  | iface (typ data : Nat)

def Header.kind : Header → LK
  | .string _ _ => .string
  | .slice _ _ _ => .slice
  | .iface _ _ => .iface

/-- The words of a value, eight bytes each. -/
def Header.words : Header → List Nat
  | .string d l => [d, l]
  | .slice d l c => [d, l, c]
  | .iface t d => [t, d]

/-- A string or slice is empty if it has no elements, an interface if it is nil. -/
def Header.Empty : Header → Prop
  | .string _ l => l = 0
  | .slice _ l _ => l = 0
  | .iface t _ => t = 0

end JC.Spec

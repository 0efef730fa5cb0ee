import Verif.Model.Decode
/-!
Specification for C84: the types of destinations, how many pointers they have in a row, and numbers of steps.
-/
namespace JC.Spec
open JC

/-- How many pointers the type starts with. -/
def ptrs : Ty → Nat
  | .ptr t => ptrs t + 1
  | _ => 0

mutual
/-- The type has no interfaces, at most `m` pointers in a row, and at most `q` `string` options inside one another. -/
def Concrete (m : Nat) : Nat → Ty → Prop
  | _, .iface => False
  | _, .ifaceM _ => False
  | _, .mapSI => False
  | q, .slice t => Concrete m q t
  | q, .array _ t => Concrete m q t
  | q, .map _ t => Concrete m q t
  | q, .ptr t => ptrs t + 1 ≤ m ∧ Concrete m q t
  | q, .struct fs => ConcreteF m q fs
  | q, .quoted t => ∃ q', q = q' + 1 ∧ Concrete m q' t
  | q, .quotedInt t => ∃ q', q = q' + 1 ∧ Concrete m q' t
  | _, _ => True
def ConcreteF (m : Nat) : Nat → List (Bytes × Ty) → Prop
  | _, [] => True
  | q, (_, t) :: fs => Concrete m q t ∧ ConcreteF m q fs
end

mutual
/-- The type has no interfaces. -/
def NoIface : Ty → Prop
  | .iface => False
  | .ifaceM _ => False
  | .mapSI => False
  | .slice t => NoIface t
  | .array _ t => NoIface t
  | .map _ t => NoIface t
  | .ptr t => NoIface t
  | .struct fs => NoIfaceF fs
  | .quoted t => NoIface t
  | .quotedInt t => NoIface t
  | _ => True
def NoIfaceF : List (Bytes × Ty) → Prop
  | [] => True
  | (_, t) :: fs => NoIface t ∧ NoIfaceF fs
end

/-- Steps for each byte that is decoded: the text of a string can be up to four times as long as the string. -/
def perByte (m q : Nat) : Nat := (50 + 5 * m) * 5 ^ q

mutual
/-- Steps for each byte if there is an error: arrays, slices, maps and structs around it add to them. -/
def perError (k : Nat) : Ty → Nat
  | .slice t => perError k t + 40
  | .array _ t => perError k t + 40
  | .map _ t => perError k t + 40
  | .mapRaw => k + 240
  | .ptr t => perError k t + 5
  | .struct fs => perErrorF k fs + 40
  | .quoted t => 5 * perError k t
  | .quotedInt t => 5 * perError k t
  | _ => k + 200
def perErrorF (k : Nat) : List (Bytes × Ty) → Nat
  | [] => k + 200
  | (_, t) :: fs => max (perError k t) (perErrorF k fs)
end

end JC.Spec

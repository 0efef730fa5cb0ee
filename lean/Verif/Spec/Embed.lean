import Verif.Model.Embed
import Verif.Spec.Fields
/-!
Specification: values of struct types with embedded structs and embedded pointers, and what
it means to read and to set a promoted field. A field is named by its path, the field
numbers from the outer struct to it, as in `reflect.Value.FieldByIndex`. Offsets do not occur.
-/
namespace JC.Spec
open JC

/-- The value of a field: a value, an embedded struct, a nil or non-nil embedded pointer. -/
inductive EV where
  | leaf (v : DV)
  | val (vs : List EV)
  | nil
  | ptr (vs : List EV)

mutual
/-- The memory of a value. -/
def EV.mem : EV → List Cell
  | .leaf v => [.leaf v]
  | .val vs => memL vs
  | .nil => [.nil]
  | .ptr vs => [.ptr (memL vs)]
/-- The memory of a struct with these fields. -/
def memL : List EV → List Cell
  | [] => []
  | v :: vs => v.mem ++ memL vs
end

mutual
/-- The value has the type of the field. -/
def Shape : EF → EV → Prop
  | .skip _, .leaf _ => True
  | .leaf _ _ _, .leaf _ => True
  | .val fs, .val vs => ShapeL fs vs
  | .ptr _ _, .nil => True
  | .ptr _ fs, .ptr vs => ShapeL fs vs
  | _, _ => False
def ShapeL : List EF → List EV → Prop
  | [], [] => True
  | f :: fs, v :: vs => Shape f v ∧ ShapeL fs vs
  | _, _ => False
end

mutual
/-- The zero value. -/
def zeroEV : EF → EV
  | .skip t => .leaf (zero t)
  | .leaf _ _ t => .leaf (zero t)
  | .val fs => .val (zeroVs fs)
  | .ptr _ _ => .nil
def zeroVs : List EF → List EV
  | [] => []
  | f :: fs => zeroEV f :: zeroVs fs
end

/-- `TypeAt fs p t`: the path `p` leads to a field of type `t`. -/
inductive TypeAt : List EF → List Nat → Ty → Prop
  | leaf (fs : List EF) (i : Nat) (name : Bytes) (isTag : Bool) (t : Ty) : fs[i]? = some (.leaf name isTag t) → TypeAt fs [i] t
  | val (fs : List EF) (i : Nat) (sub : List EF) (p : List Nat) (t : Ty) : fs[i]? = some (.val sub) → TypeAt sub p t → TypeAt fs (i :: p) t
  | ptr (fs : List EF) (i : Nat) (u : Bool) (sub : List EF) (p : List Nat) (t : Ty) : fs[i]? = some (.ptr u sub) → TypeAt sub p t → TypeAt fs (i :: p) t

/-- `Reads fs vs p v`: the field at path `p` has the value `v`; behind a nil pointer it has the
zero value. -/
inductive Reads : List EF → List EV → List Nat → DV → Prop
  | leaf (fs : List EF) (vs : List EV) (i : Nat) (name : Bytes) (isTag : Bool) (t : Ty) (v : DV) :
      fs[i]? = some (.leaf name isTag t) → vs[i]? = some (.leaf v) → Reads fs vs [i] v
  | val (fs : List EF) (vs : List EV) (i : Nat) (sub : List EF) (ws : List EV) (p : List Nat) (v : DV) :
      fs[i]? = some (.val sub) → vs[i]? = some (.val ws) → Reads sub ws p v → Reads fs vs (i :: p) v
  | ptr (fs : List EF) (vs : List EV) (i : Nat) (u : Bool) (sub : List EF) (ws : List EV) (p : List Nat) (v : DV) :
      fs[i]? = some (.ptr u sub) → vs[i]? = some (.ptr ws) → Reads sub ws p v → Reads fs vs (i :: p) v
  | nil (fs : List EF) (vs : List EV) (i : Nat) (u : Bool) (sub : List EF) (p : List Nat) (t : Ty) :
      fs[i]? = some (.ptr u sub) → vs[i]? = some .nil → TypeAt sub p t → Reads fs vs (i :: p) (zero t)

/-- `Stores fs p x vs vs'`: setting the field at path `p` to `x` turns `vs` into `vs'`. A nil
pointer on the way is replaced by a pointer to a zero value, unless its type is
unexported, and then there is no way to set the field. Nothing else changes. -/
inductive Stores : List EF → List Nat → DV → List EV → List EV → Prop
  | leaf (fs : List EF) (vs : List EV) (i : Nat) (name : Bytes) (isTag : Bool) (t : Ty) (x : DV) :
      fs[i]? = some (.leaf name isTag t) → Stores fs [i] x vs (vs.set i (.leaf x))
  | val (fs : List EF) (vs : List EV) (i : Nat) (sub : List EF) (ws ws' : List EV) (p : List Nat) (x : DV) :
      fs[i]? = some (.val sub) → vs[i]? = some (.val ws) → Stores sub p x ws ws' → Stores fs (i :: p) x vs (vs.set i (.val ws'))
  | ptr (fs : List EF) (vs : List EV) (i : Nat) (u : Bool) (sub : List EF) (ws ws' : List EV) (p : List Nat) (x : DV) :
      fs[i]? = some (.ptr u sub) → vs[i]? = some (.ptr ws) → Stores sub p x ws ws' → Stores fs (i :: p) x vs (vs.set i (.ptr ws'))
  | nil (fs : List EF) (vs : List EV) (i : Nat) (sub : List EF) (ws' : List EV) (p : List Nat) (x : DV) :
      fs[i]? = some (.ptr false sub) → vs[i]? = some .nil → Stores sub p x (zeroVs sub) ws' → Stores fs (i :: p) x vs (vs.set i (.ptr ws'))

/-- `Barred fs vs p`: the path leads through a nil pointer of unexported type. -/
inductive Barred : List EF → List EV → List Nat → Prop
  | here (fs : List EF) (vs : List EV) (i : Nat) (sub : List EF) (p : List Nat) :
      fs[i]? = some (.ptr true sub) → vs[i]? = some .nil → Barred fs vs (i :: p)
  | val (fs : List EF) (vs : List EV) (i : Nat) (sub : List EF) (ws : List EV) (p : List Nat) :
      fs[i]? = some (.val sub) → vs[i]? = some (.val ws) → Barred sub ws p → Barred fs vs (i :: p)
  | ptr (fs : List EF) (vs : List EV) (i : Nat) (u : Bool) (sub : List EF) (ws : List EV) (p : List Nat) :
      fs[i]? = some (.ptr u sub) → vs[i]? = some (.ptr ws) → Barred sub ws p → Barred fs vs (i :: p)
  | nil (fs : List EF) (vs : List EV) (i : Nat) (sub : List EF) (p : List Nat) :
      fs[i]? = some (.ptr false sub) → vs[i]? = some .nil → Barred sub (zeroVs sub) p → Barred fs vs (i :: p)

mutual
/-- `Grows f v w`: all that may differ is what fields hold and that nil pointers of exported
type have become pointers to what was a zero value. -/
def Grows : EF → EV → EV → Prop
  | .skip _, .leaf v, .leaf w => v = w
  | .leaf _ _ _, .leaf _, .leaf _ => True
  | .val fs, .val vs, .val ws => GrowsL fs vs ws
  | .ptr _ fs, .ptr vs, .ptr ws => GrowsL fs vs ws
  | .ptr _ _, .nil, .nil => True
  | .ptr u fs, .nil, .ptr ws => u = false ∧ GrowsL fs (zeroVs fs) ws
  | _, _, _ => False
def GrowsL : List EF → List EV → List EV → Prop
  | [], [], [] => True
  | f :: fs, v :: vs, w :: ws => Grows f v w ∧ GrowsL fs vs ws
  | _, _, _ => False
end

/-- A promoted field: name, path and type. -/
abbrev Promoted := Bytes × List Nat × Ty

/-- `MembersE c n fs ps ms vs ws`: the members `ms` of an object, taken one after the other,
change a struct from `vs` to `ws`; `ps` are its promoted fields. A member for a field has the effect
that `Unmarshal` of its value on what the field holds would have, and the result is stored. -/
inductive MembersE (c : DCfg) (n : Nat) (fs : List EF) (ps : List Promoted) : List (Bytes × Json) → List EV → List EV → Prop
  | nil (vs : List EV) : MembersE c n fs ps [] vs vs
  | skip (raw k : Bytes) (j : Json) (ms : List (Bytes × Json)) (vs ws : List EV) : KeyMeans raw k →
      (∀ i, ¬ Selects (!c.noFold) (ps.map (·.1)) k i) → c.disallowUnknown = false →
      MembersE c n fs ps ms vs ws → MembersE c n fs ps ((raw, j) :: ms) vs ws
  | field (raw k : Bytes) (i : Nat) (nm : Bytes) (p : List Nat) (t : Ty) (v x : DV) (j : Json) (b : Bytes) (ms : List (Bytes × Json)) (vs us ws : List EV) :
      KeyMeans raw k → Selects (!c.noFold) (ps.map (·.1)) k i → ps[i]? = some (nm, p, t) → Reads fs vs p v →
      JText j b → unmarshal c n t b v = .done x none → Stores fs p x vs us →
      MembersE c n fs ps ms us ws → MembersE c n fs ps ((raw, j) :: ms) vs ws

end JC.Spec

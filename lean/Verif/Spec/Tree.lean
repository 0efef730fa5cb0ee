import Verif.Spec.Decode
import Verif.Spec.Meaning
/-!
Specification of the generic round trip: which tree of decoded generic values stands
for the same data as a tree of generic values given to the encoder.
-/
namespace JC.Spec
open JC

/-- `s'` is `s` with every byte that is not UTF-8 replaced by U+FFFD. -/
def Coerced (s s' : Bytes) : Prop := ∃ rs, Decodes s rs ∧ s' = utf8s rs

/-- The text written for a finite float. -/
def floatText (expo : Bool) (text : Bytes) : Bytes := if expo then cleanExp text else text

mutual
/-- `SameTree c g v`: `v` holds the same data as the tree `g` of nil, booleans, finite floats,
numbers, strings, `[]interface{}` and `map[string]interface{}`. Strings and keys are coerced to
UTF-8; the keys of a map must differ after that. Iteration order does not matter.
A float comes back as the float whose text is written: that `strconv.ParseFloat` inverts
`strconv.AppendFloat` is a condition here. With `c.useNumber` numbers come back as
`json.Number`s. -/
def SameTree (c : DCfg) : GV → DV → Prop
  | .nil, v => v = .ifaceNil
  | .bool b, v => v = .iface .bool (.bool b)
  | .float (.fin expo t ok), v =>
    if c.useNumber then v = .iface .number (.number (floatText expo t))
    else c.lib.parseFloat false (floatText expo t) = some (.fin expo t ok) ∧ v = .iface .float64 (.float (.fin expo t ok))
  | .number s, v => JNumber s ∧
    if c.useNumber then v = .iface .number (.number s)
    else ∃ f, c.lib.parseFloat false s = some f ∧ v = .iface .float64 (.float f)
  | .string s, v => ∃ s', Coerced s s' ∧ v = .iface .string (.string s')
  | .slice xs, v => ∃ vs, SameTrees c xs vs ∧ v = .iface (.slice .iface) (.slice vs [])
  | .mapSI es, v => ∃ es' : List (MK × DV), v = .iface .mapSI (.map es') ∧
      es.Pairwise (fun a b => ∀ k, Coerced a.1 k → ¬ Coerced b.1 k) ∧ HaveTrees c es ∧
      es'.Pairwise (fun a b => a.1.text < b.1.text) ∧ (∀ e ∈ es', ∃ k, e.1 = .str k) ∧
      ∀ k w, (MK.str k, w) ∈ es' ↔ SameEntry c es k w
  | .iface g _, v => SameTree c g v
  | .ptr g, v => SameTree c g v
  | _, _ => False
/-- elementwise -/
def SameTrees (c : DCfg) : List GV → List DV → Prop
  | [], vs => vs = []
  | g :: gs, vs => ∃ v vs', vs = v :: vs' ∧ SameTree c g v ∧ SameTrees c gs vs'
/-- every entry has a tree -/
def HaveTrees (c : DCfg) : List (Bytes × GV) → Prop
  | [] => True
  | (_, g) :: es => (∃ v, SameTree c g v) ∧ HaveTrees c es
/-- some entry has key `k` and tree `w` -/
def SameEntry (c : DCfg) : List (Bytes × GV) → Bytes → DV → Prop
  | [], _, _ => False
  | (k0, g) :: es, k, w => (Coerced k0 k ∧ SameTree c g w) ∨ SameEntry c es k w
end

end JC.Spec

namespace JC.Spec
open JC

/-- What is assumed of `strconv`: a float parsed from a number is finite, and parsing the text
that is written for it gives it back. -/
def FloatsReturn (l : Lib) : Prop := ∀ s f, JNumber s → l.parseFloat false s = some f →
  ∃ expo t ok, f = .fin expo t ok ∧ l.parseFloat false (floatText expo t) = some f

end JC.Spec

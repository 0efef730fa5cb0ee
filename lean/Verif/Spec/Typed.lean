import Verif.Model.Value
import Verif.Spec.Tree
import Verif.Props.Ints
/-!
Specification of the typed round trip: which variables of a type the property speaks of, how
the encoder sees them, and when two of them are equal in Go.
-/
namespace JC.Spec
open JC Props

/-- Two lists are related element by element. -/
def All2 {α β : Type} (R : α → β → Prop) : List α → List β → Prop
  | [], [] => True
  | a :: as, b :: bs => R a b ∧ All2 R as bs
  | _, _ => False

/-- The nil values: the encoder writes `null` for them. -/
def isNilDV : DV → Bool
  | .bytesNil | .rawNil | .ifaceNil | .sliceNil | .mapNil | .ptrNil => true
  | _ => false

/-- The values that Go's `omitempty` option drops: false, 0, nil, and empty arrays, slices, maps and strings. -/
def isEmptyDV : DV → Bool
  | .bool v => !v
  | .int z => z == 0
  | .float (.fin _ t _) => t == bs! "0" || t == bs! "-0"
  | .number s | .string s => s == []
  | .bytes s _ => s == []
  | .slice xs _ => xs.length == 0
  | .array xs => xs.length == 0
  | .map es => es.length == 0
  | .bytesNil | .ifaceNil | .sliceNil | .mapNil | .ptrNil => true
  | _ => false

mutual
/-- The variable without the memory between the length and the capacity of its slices. Two variables
are deeply equal in Go (`reflect.DeepEqual`) if they agree up to that memory. -/
def clip : DV → DV
  | .bytes s _ => .bytes s []
  | .slice xs _ => .slice (clipL xs) []
  | .array xs => .array (clipL xs)
  | .map es => .map (clipE es)
  | .ptr v => .ptr (clip v)
  | .struct xs => .struct (clipL xs)
  | v => v
def clipL : List DV → List DV
  | [] => []
  | v :: vs => clip v :: clipL vs
def clipE : List (MK × DV) → List (MK × DV)
  | [] => []
  | (k, v) :: es => (k, clip v) :: clipE es
end

/-- A map key of the given kind and the key the encoder sees. For key types with methods, `UnmarshalText`
makes the key of the text that `MarshalText` makes of it. -/
def SeenKey (S : Bytes → Prop) : KTy → MK → MKey → Prop
  | .str, .str s, k => S s ∧ k = .str s
  | .int i, .int z, k => KindFits i z ∧ k = if i.signed then .int z else .uint z.toNat
  | .text tk, .user s, k => ∃ t, tk.marshal s = .ok t ∧ S t ∧ tk.answer t = none ∧ tk.key t = s ∧ k = .text (.ok t)
  | _, _, _ => False

/-- What the encoder sees in an integer variable. -/
def seenInt (i : IntKind) (z : Int) : GV := if i.signed then .int z else .uint z.toNat

mutual
/-- `Seen c S P t v g`: `v` is the contents of a variable of type `t`, and the encoder may see it as `g`.
Strings and string keys of maps satisfy `S`, what pointers point to satisfies `P`.

A map is seen with its entries in any order. The names of the fields of a struct are distinct UTF-8
strings. A field may have the `omitempty` option if its value is not dropped or is the zero value.
Interfaces hold trees of generic values that are returned by `Unmarshal` (property C37). That floats
and times are recovered from their texts is a condition on the library. -/
def Seen (c : DCfg) (S : Bytes → Prop) (P : DV → Prop) : Ty → DV → GV → Prop
  | .bool => fun v g => ∃ b, v = .bool b ∧ g = .bool b
  | .int i => fun v g => ∃ z, KindFits i z ∧ v = .int z ∧ g = seenInt i z
  | .float32 => fun v g => ∃ e t ok, c.lib.parseFloat true (floatText e t) = some (.fin e t ok) ∧ v = .float (.fin e t ok) ∧ g = .float (.fin e t ok)
  | .float64 => fun v g => ∃ e t ok, c.lib.parseFloat false (floatText e t) = some (.fin e t ok) ∧ v = .float (.fin e t ok) ∧ g = .float (.fin e t ok)
  | .number => fun v g => ∃ s, JNumber s ∧ v = .number s ∧ g = .number s
  | .string => fun v g => ∃ s, S s ∧ v = .string s ∧ g = .string s
  | .bytes => fun v g => (v = .bytesNil ∧ g = .bytesNil) ∨ ∃ s sp, v = .bytes s sp ∧ g = .bytes s
  | .duration => fun v g => ∃ z, FitsSigned 64 z ∧ v = .int z ∧ g = .int z
  | .time => fun v g => ∃ s h, c.lib.parseTime s = some s ∧ v = .time s ∧ g = .time s h
  | .iface => fun v g => SameTree c g v ∧ ((g = .nil ∧ v = .ifaceNil) ∨ (v ≠ .ifaceNil ∧ ∃ g', g = .iface g' false))
  | .slice t => fun v g => (v = .sliceNil ∧ g = .sliceNil) ∨ ∃ xs sp gs, v = .slice xs sp ∧ g = .slice gs ∧ All2 (Seen c S P t) xs gs
  | .array n t => fun v g => ∃ xs gs, xs.length = n ∧ v = .array xs ∧ g = .array gs ∧ All2 (Seen c S P t) xs gs
  | .map k t => fun v g => (v = .mapNil ∧ g = .mapNil) ∨ ∃ es gs ps, v = .map es ∧ g = .map gs ∧
      es.Pairwise (fun a b => a.1.text < b.1.text) ∧ gs.Perm ps ∧ All2 (fun e p => SeenKey S k e.1 p.1 ∧ Seen c S P t e.2 p.2) es ps
  | .mapSI => fun v g => (v = .mapNil ∧ g = .mapNil) ∨ ∃ es gs, v = .map es ∧ g = .mapSI gs ∧ SameTree c g (.iface .mapSI v)
  | .ptr t => fun v g => (v = .ptrNil ∧ g = .ptrNil) ∨ ∃ w h, v = .ptr w ∧ g = .ptr h ∧ P w ∧ Seen c S P t w h
  | .struct fs => fun v g => ∃ xs gs, v = .struct xs ∧ g = .struct gs ∧
      (fs.map (·.1)).Pairwise (· ≠ ·) ∧ (∀ f ∈ fs, Coerced f.1 f.1) ∧ SeenF c S P fs xs gs
  | .quotedInt (.int i) => fun v g => ∃ z, KindFits i z ∧ v = .int z ∧ g = .quoted (seenInt i z)
  | .quoted .bool => fun v g => ∃ b, v = .bool b ∧ g = .quoted (.bool b)
  | .quoted .number => fun v g => ∃ s, JNumber s ∧ v = .number s ∧ g = .quoted (.number s)
  | .quoted .string => fun v g => ∃ s, S s ∧ v = .string s ∧ g = .quoted (.string s)
  | .quoted .float32 => fun v g => ∃ e t ok, c.lib.parseFloat true (floatText e t) = some (.fin e t ok) ∧ v = .float (.fin e t ok) ∧
      g = .quoted (.float (.fin e t ok))
  | .quoted .float64 => fun v g => ∃ e t ok, c.lib.parseFloat false (floatText e t) = some (.fin e t ok) ∧ v = .float (.fin e t ok) ∧
      g = .quoted (.float (.fin e t ok))
  | _ => fun _ _ => False
/-- The fields of a struct. -/
def SeenF (c : DCfg) (S : Bytes → Prop) (P : DV → Prop) : List (Bytes × Ty) → List DV → List (FMeta × GV) → Prop
  | [] => fun xs gs => xs = [] ∧ gs = []
  | (n, t) :: fs => fun xs gs => ∃ v vs m g gs', xs = v :: vs ∧ gs = (m, g) :: gs' ∧ m.name = n ∧
      (m.omitempty = true → isEmptyDV v = true → clip v = zero t) ∧ Seen c S P t v g ∧ SeenF c S P fs vs gs'
end

end JC.Spec

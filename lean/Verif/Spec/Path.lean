import Verif.Spec.Frame
import Verif.Props.Ints
/-!
Specification of the path in an `*UnmarshalTypeError`: a walk through the document and the
type of the destination at once, and which values fit a type.
-/
namespace JC.Spec
open JC Props

/-- `d` is the number `i` in decimal. -/
def Decimal (i : Nat) (d : Bytes) : Prop := JInt d ∧ natVal d = i

/-- A member whose key is written `raw` has the key with text `k` in a map: the string itself,
an integer in decimal, or what `fmt.Sprint` makes of the key that `UnmarshalText` makes of the string.
Integers may be followed by white space, and `null` stands for 0. -/
def KeyText : KTy → Bytes → Bytes → Prop
  | .str, raw, k => KeyMeans raw k
  | .int _, raw, k => ∃ l s z d, KeyMeans raw (l ++ s) ∧ Ws s ∧ (IntLit l z ∨ (l = bs! "null" ∧ z = 0)) ∧
      Decimal z.natAbs d ∧ k = if z < 0 then 0x2d :: d else d
  | .text tk, raw, k => ∃ t, KeyMeans raw t ∧ tk.answer t = none ∧ k = tk.sprint (tk.key t)

/-- The member with key `k` goes to field `i` of a struct: a field with that very name, or, if there
is none and case may be ignored, one whose name may be equal up to case. -/
def Goes (c : DCfg) (fs : List (Bytes × Ty)) (k : Bytes) (i : Nat) : Prop :=
  ∃ nm t, fs[i]? = some (nm, t) ∧ MayHit (!c.noFold) nm k ∧ ((∃ u, (k, u) ∈ fs) → nm = k)

/-- `Leads c Q t j s u y`: following the path `s` from a destination of type `t` and the value `j`
meant for it leads to a destination of type `u` and the value `y` meant for it. The path has the
index of every element and the key of every member on the way. Pointers add nothing.
An interface may hold a pointer to a destination of a type in `Q`. -/
inductive Leads (c : DCfg) (Q : Ty → Prop) : Ty → Json → List Bytes → Ty → Json → Prop
  | here (t : Ty) (j : Json) : Leads c Q t j [] t j
  | slice (t u : Ty) (xs : List Json) (i : Nat) (d : Bytes) (x y : Json) (s : List Bytes) : xs[i]? = some x → Decimal i d →
      Leads c Q t x s u y → Leads c Q (.slice t) (.arr xs) (d :: s) u y
  | array (n : Nat) (t u : Ty) (xs : List Json) (i : Nat) (d : Bytes) (x y : Json) (s : List Bytes) : i < n → xs[i]? = some x →
      Decimal i d → Leads c Q t x s u y → Leads c Q (.array n t) (.arr xs) (d :: s) u y
  | byte (u : Ty) (xs : List Json) (i : Nat) (d : Bytes) (x y : Json) (s : List Bytes) : xs[i]? = some x → Decimal i d →
      Leads c Q (.int .uint8) x s u y → Leads c Q .bytes (.arr xs) (d :: s) u y
  | map (k : KTy) (t u : Ty) (ms : List (Bytes × Json)) (raw d : Bytes) (x y : Json) (s : List Bytes) : (raw, x) ∈ ms →
      KeyText k raw d → Leads c Q t x s u y → Leads c Q (.map k t) (.obj ms) (d :: s) u y
  | mapSI (u : Ty) (ms : List (Bytes × Json)) (raw d : Bytes) (x y : Json) (s : List Bytes) : (raw, x) ∈ ms → KeyMeans raw d →
      Leads c Q .iface x s u y → Leads c Q .mapSI (.obj ms) (d :: s) u y
  | ptr (t u : Ty) (j y : Json) (s : List Bytes) : Leads c Q t j s u y → Leads c Q (.ptr t) j s u y
  | field (fs : List (Bytes × Ty)) (i : Nat) (nm : Bytes) (t u : Ty) (ms : List (Bytes × Json)) (raw d : Bytes) (x y : Json)
      (s : List Bytes) : (raw, x) ∈ ms → KeyMeans raw d → fs[i]? = some (nm, t) → Goes c fs d i → Leads c Q t x s u y →
      Leads c Q (.struct fs) (.obj ms) (d :: s) u y
  | elem (u : Ty) (xs : List Json) (i : Nat) (d : Bytes) (x y : Json) (s : List Bytes) : xs[i]? = some x → Decimal i d →
      Leads c Q .iface x s u y → Leads c Q .iface (.arr xs) (d :: s) u y
  | member (u : Ty) (ms : List (Bytes × Json)) (raw d : Bytes) (x y : Json) (s : List Bytes) : (raw, x) ∈ ms → KeyMeans raw d →
      Leads c Q .iface x s u y → Leads c Q .iface (.obj ms) (d :: s) u y
  | held (t u : Ty) (j y : Json) (s : List Bytes) : Q t → Leads c Q t j s u y → Leads c Q .iface j s u y
  | heldM (e : Bool) (t u : Ty) (j y : Json) (s : List Bytes) : Q t → Leads c Q t j s u y → Leads c Q (.ifaceM e) j s u y
  | empty (u : Ty) (j y : Json) (s : List Bytes) : Leads c Q .iface j s u y → Leads c Q (.ifaceM true) j s u y

/-- `Fits c t j`: a destination of type `t` takes the value `j`, as far as `j` itself is concerned and
not what is inside it. What a field with the `string` option takes other than `null` is not said here. -/
def Fits (c : DCfg) : Ty → Json → Prop
  | .bool, j => j = .null ∨ j = .tru ∨ j = .fls
  | .int k, j => j = .null ∨ ∃ s z, j = .num s ∧ KindLit k s z ∧ KindFits k z
  | .float32, j => j = .null ∨ ∃ s, j = .num s ∧ c.lib.parseFloat true s ≠ none
  | .float64, j => j = .null ∨ ∃ s, j = .num s ∧ c.lib.parseFloat false s ≠ none
  | .number, j => j = .null ∨ ∃ s, j = .num s
  | .string, j => j = .null ∨ ∃ s, j = .str s
  | .bytes, j => j = .null ∨ (∃ s, j = .str s) ∨ ∃ xs, j = .arr xs
  | .duration, j => j = .null ∨ (∃ s z, j = .num s ∧ IntLit s z ∧ FitsSigned 64 z) ∨
      ∃ s, j = .str (0x22 :: (s ++ [0x22])) ∧ 0x22 ∉ s ∧ c.lib.parseDuration s ≠ none
  | .time, j => j = .null ∨ ∃ s, j = .str (0x22 :: (s ++ [0x22])) ∧ 0x22 ∉ s ∧ c.lib.parseTime s ≠ none
  | .raw, _ => True
  | .iface, j => ∀ s, j = .num s → c.useNumber = true ∨ c.lib.parseFloat false s ≠ none
  | .ifaceM _, j => j = .null
  | .slice _, j | .array _ _, j => j = .null ∨ ∃ xs, j = .arr xs
  | .map _ _, j | .mapSI, j | .mapRaw, j | .struct _, j => j = .null ∨ ∃ ms, j = .obj ms
  | .ptr _, _ => True
  | .quoted _, j | .quotedInt _, j => j = .null
  | .jsonU f, j => j = .null ∨ ∀ v, Derives (.value j) v → f v ≠ some .unmarshalType
  | .textU f, j => j = .null ∨ ∃ raw s, j = .str raw ∧ KeyMeans raw s ∧ f s ≠ some .unmarshalType
  | .unsupported, _ => False

end JC.Spec

namespace JC

/-- Types that have the `string` option: no lists, maps, structs and interfaces. -/
def Ty.atom : Ty → Prop
  | .bool | .int _ | .float32 | .float64 | .number | .string | .duration | .time | .jsonU _ | .textU _ => True
  | _ => False

mutual
/-- Types as Go has them: the `string` option is there only for types that can have it and pointers to
them, `/repo/codec.go:668-705`. -/
def Ty.proper : Ty → Prop
  | .quoted (.ptr t) | .quotedInt (.ptr t) => t.atom
  | .quoted t | .quotedInt t => t.atom
  | .slice t | .array _ t | .map _ t | .ptr t => t.proper
  | .struct fs => properF fs
  | _ => True
def properF : List (Bytes × Ty) → Prop
  | [] => True
  | (_, t) :: fs => t.proper ∧ properF fs
end

end JC

import Verif.Spec.Typed
/-!
Specification of stability: which types are spoken of, which contents of variables have a text of
their own, and what is assumed of the Go library.
-/
namespace JC.Spec
open JC Props

/-- What is assumed of `strconv` and `time`: a float parsed from a number is finite and its shortest text
stands for it; a duration has 64 bits; the RFC 3339 text of a time is plain and stands for it; the zero
values are what their texts stand for. -/
structure LibReturns (l : Lib) : Prop where
  floats : ∀ b32 s f, JNumber s → l.parseFloat b32 s = some f → ∃ e t ok, f = .fin e t ok ∧ l.parseFloat b32 (floatText e t) = some f
  zeroFloat : ∀ b32, l.parseFloat b32 (bs! "0") = some (.fin false [0x30] (.f [] [0x30] [] (.inl rfl) .zero .none))
  durations : ∀ s z, l.parseDuration s = some z → FitsSigned 64 z
  times : ∀ s z, l.parseTime s = some z → TimeText z ∧ l.parseTime z = some z
  zeroTime : l.parseTime (bs! "0001-01-01T00:00:00Z") = some (bs! "0001-01-01T00:00:00Z")

end JC.Spec

namespace JC
open Spec

/-- What is assumed of a key type: `MarshalText` of a key that `UnmarshalText` made is a UTF-8 text of which
`UnmarshalText` makes the same key. -/
def KTy.plain : KTy → Prop
  | .text tk => ∀ t, Coerced t t → tk.answer t = none → ∃ u, tk.marshal (tk.key t) = .ok u ∧ Coerced u u ∧ tk.answer u = none ∧ tk.key u = tk.key t
  | _ => True

mutual
/-- The types made of booleans, numbers, strings, byte slices, times, durations, empty interfaces, slices,
arrays, maps, pointers and structs. The names of the fields of a struct are distinct UTF-8 strings; fields
with the `string` option are scalars. -/
def Ty.plain : Ty → Prop
  | .bool | .int _ | .float32 | .float64 | .number | .string | .bytes | .duration | .time | .iface | .mapSI => True
  | .slice t | .array _ t | .ptr t => t.plain
  | .map k t => k.plain ∧ t.plain
  | .struct fs => (fs.map (·.1)).Pairwise (· ≠ ·) ∧ (∀ f ∈ fs, Coerced f.1 f.1) ∧ plainF fs
  | .quotedInt (.int _) | .quoted .bool | .quoted .number | .quoted .string | .quoted .float32 | .quoted .float64 => True
  | _ => False
def plainF : List (Bytes × Ty) → Prop
  | [] => True
  | (_, t) :: fs => t.plain ∧ plainF fs
end

mutual
/-- No `json.Number` in the variable is empty and no pointer points to nil: the empty `Number` is written like
`0`, and a pointer to nil like nil. -/
def DV.told : DV → Prop
  | .number s => s ≠ []
  | .slice xs _ | .array xs | .struct xs => toldL xs
  | .map es => toldE es
  | .ptr v => isNilDV v = false ∧ v.told
  | _ => True
def toldL : List DV → Prop
  | [] => True
  | v :: vs => v.told ∧ toldL vs
def toldE : List (MK × DV) → Prop
  | [] => True
  | (_, v) :: es => v.told ∧ toldE es
end

end JC

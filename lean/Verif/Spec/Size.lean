import Verif.Model.Encode
/-!
How large a value is, and how much text a unit of it may take (property C93).  Nothing here refers to the
functions that write.
-/
namespace JC.Spec
open JC

/-- Number of decimal digits. -/
def digits (n : Nat) : Nat := if n < 10 then 1 else digits (n / 10) + 1
termination_by n
decreasing_by omega

/-- Size of the text of a float. -/
def floatSize : Flt → Nat
  | .nan => 0
  | .inf => 0
  | .fin _ text _ => text.length

/-- Size of what `MarshalText` returned. -/
def textSize : TextRes → Nat
  | .ok s => s.length
  | _ => 0

/-- Size of what `MarshalJSON` returned. -/
def jsonSize : JsonRes → Nat
  | .ok (some s) => s.length
  | _ => 0

/-- Size of a map key. -/
def keySize : MKey → Nat
  | .str s => s.length
  | .int z => digits z.natAbs + 1
  | .uint n => digits n
  | .text r => textSize r

/-- Size of the entries of a `map[string]RawMessage`. -/
def rawsSize : List (Bytes × Option Bytes) → Nat
  | [] => 0
  | (k, none) :: es => k.length + 2 + rawsSize es
  | (k, some s) :: es => k.length + s.length + 2 + rawsSize es

mutual

/-- Size of a value: one for each value, element and member in it, and one for each byte of the strings, names,
numbers and times in it.  What is written as a string once more counts six times. -/
def size : GV → Nat
  | .nil | .bool _ | .bytesNil | .sliceNil | .mapNil | .ptrNil | .rawNil | .embNil _ | .unsupported => 1
  | .int z => digits z.natAbs + 2
  | .uint n => digits n + 1
  | .float f => floatSize f + 1
  | .number s => s.length + 1
  | .string s => s.length + 1
  | .bytes s => s.length + 1
  | .time s _ => s.length + 1
  | .slice xs => sizeL xs + 1
  | .array xs => sizeL xs + 1
  | .map es => sizeE es + 1
  | .mapSI es => sizeS es + 1
  | .mapRaw es => rawsSize es + 1
  | .struct fs => sizeF fs + 1
  | .ptr v => size v
  | .iface v _ => size v
  | .raw s => s.length + 1
  | .jsonM r _ => jsonSize r + 1
  | .textM r _ => textSize r + 1
  | .quoted v => 6 * size v + 1
  | .emb v _ => size v

def sizeL : List GV → Nat
  | [] => 0
  | v :: vs => size v + 1 + sizeL vs

def sizeE : List (MKey × GV) → Nat
  | [] => 0
  | (k, v) :: es => keySize k + 1 + size v + sizeE es

def sizeS : List (Bytes × GV) → Nat
  | [] => 0
  | (k, v) :: es => k.length + 1 + size v + sizeS es

def sizeF : List (FMeta × GV) → Nat
  | [] => 0
  | (m, v) :: fs => m.name.length + 1 + size v + sizeF fs

end

/-- All color strings of a palette. -/
def palette (c : Colors) : List Bytes :=
  [c.null, c.bool, c.number, c.string, c.key, c.bytes, c.time, c.punc, c.brackets, c.braces, c.comma, c.colon, c.textMarshaler]

/-- What coloring one piece of text adds at most: the longest color and the four bytes that end it. -/
def perColor : Option Colors → Nat
  | none => 0
  | some c => ((palette c).map List.length).foldr max 0 + 4

/-- What a line adds at most if values nest `D` levels deep: the newline, the prefix and the indentation. -/
def perLine : Option IndCfg → Nat → Nat
  | none, _ => 0
  | some i, D => if i.disabled then 0 else 1 + i.pre.length + D * i.indent.length

/-- What a unit of the size of a value takes at most.  Lines count more with `TrustRawMessage`, when text that is
not JSON is given to `encoding/json.Indent`. -/
def perUnit (c : Cfg) (D : Nat) : Nat :=
  6 + 6 * perColor c.clrs + (if c.trustRaw then 42 else 3) * perLine c.ind D

/-- What is assumed of `encoding/json.Indent`: for each byte it is given it writes that byte, at most one space or
newline, and at most one prefix with an indentation that is no deeper than the text is long. -/
def IndentLib (f : Bytes → Bytes → Bytes → Option Bytes) : Prop :=
  ∀ s p i out, f s p i = some out → out.length ≤ s.length * (2 + p.length + s.length * i.length)

end JC.Spec

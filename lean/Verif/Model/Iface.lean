import Verif.Model.Basic
/-!
Model of how the encoder finds a value that is held in an interface: `Append`
(`/repo/json.go:129-141`) takes the data word of the interface for the address of the value, unless
`inlined` (`/repo/codec.go:829-840`) says that the word is the value.

Memory is modelled as far as it matters here: the contents of a variable are a tree of words, of
which only those that hold a pointer, a map, a channel or a function are told apart from others.
-/
namespace JC

/-- A type, by its `reflect.Kind`. -/
inductive RTy where
  /-- booleans, numbers, strings, slices, interfaces -/
  | flat
  | ptr
  | map
  /-- channels, functions and `unsafe.Pointer` -/
  | word
  | array (n : Nat) (e : RTy)
  | struct (fs : List RTy)

/-- Contents of a variable. -/
inductive MV where
  | flat (bits : Nat)
  /-- the word of a pointer, map, channel or function -/
  | word (w : Nat)
  /-- arrays and structs -/
  | many (xs : List MV)

/-- Variables by address. -/
abbrev Heap := Nat → Option MV

/-- An `unsafe.Pointer` that is passed to an `encodeFunc`: the address of a variable, or of the local variable
`p` of `constructInlineValueEncodeFunc`, which holds `w`. -/
inductive VPtr where
  | heap (a : Nat)
  | local (w : Nat)
deriving DecidableEq, Repr

/-- `inlined`, `/repo/codec.go:829-840`. -/
def inlined : RTy → Bool
  | .ptr => true
  | .map => true
  | .struct [f] => inlined f
  | _ => false

/-- A local variable that holds `w`, read as a variable of the given type. -/
def wordAs : RTy → Nat → MV
  | .struct [f], w => .many [wordAs f w]
  | .array _ e, w => .many [wordAs e w]
  | .flat, w => .flat w
  | _, w => .word w

/-- What an `encodeFunc` for the type reads at the address. -/
def readAt (h : Heap) (t : RTy) : VPtr → Option MV
  | .heap a => h a
  | .local w => some (wordAs t w)

/-- The address that the codec of type `t` is called with for an interface with data word `w`:
`Append`, `/repo/json.go:129-139`, `constructCachedCodec`, `/repo/codec.go:68-77`, and
`constructInlineValueEncodeFunc`, 797-801. The values of maps, `/repo/encode.go:450` and
`/repo/codec.go:408-410`, are found in the same way. -/
def valuePtr (t : RTy) (w : Nat) : VPtr := if inlined t then .local w else .heap w

/-- The keys of maps: the word is always taken for an address, `/repo/encode.go:443`. -/
def keyPtr (w : Nat) : VPtr := .heap w

end JC

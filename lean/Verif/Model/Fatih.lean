import Verif.Model.Colors
/-!
Model of `/repo/helper/fatihcolor/fatihcolor.go`.

`github.com/fatih/color` is not part of `/repo`. A `*color.Color` is the list of its
attributes and its own setting of `noColor`; `Sprint(s)` is `s` if colors are off
and otherwise `ESC [ a;b;... m`, `s` and a reset text that depends on the
attributes (`color.go` of v1.19.0: `wrap`, `format`, `sequence`, `unformat`).
-/
namespace JC

/-- `color.Color` of fatih/color: `params` and `noColor`. -/
structure FColor where
  params : List Int
  noColor : Option Bool := none
deriving DecidableEq, Repr

/-- What is taken from fatih/color: the package variable `color.NoColor`, and the
text `unformat` appends. -/
structure FatihLib where
  noColor : Bool
  unformat : List Int → Bytes

/-- `strings.Join(_, ";")` of the attributes in decimal. -/
def fsequence : List Int → Bytes
  | [] => []
  | [p] => fmtInt p
  | p :: ps => fmtInt p ++ [ch! ';'] ++ fsequence ps

/-- `format` of fatih/color. -/
def FColor.format (c : FColor) : Bytes := [0x1b, ch! '['] ++ fsequence c.params ++ [ch! 'm']

/-- `Sprint` of fatih/color, of a text. -/
def FColor.sprint (l : FatihLib) (c : FColor) (s : Bytes) : Bytes :=
  if c.noColor.getD l.noColor then s else c.format ++ s ++ l.unformat c.params

/-- `EnableColor` of fatih/color. -/
def FColor.enableColor (c : FColor) : FColor := { c with noColor := some false }

/-- `ToCoreColor`, `/repo/helper/fatihcolor/fatihcolor.go:81-103`. The copy `c2` is
changed, not the color passed in. -/
def toCoreColor (l : FatihLib) (c : Option FColor) : Bytes :=
  match c with
  | none => []
  | some c =>
    let b := (c.enableColor).sprint l [ch! ' ']
    match indexByte b (ch! ' ') with
    | none => []
    | some i => if i ≤ 0 then [] else b.take i

/-- `Colors`, `/repo/helper/fatihcolor/fatihcolor.go:14-43`; `none` is a nil pointer. -/
structure FColors where
  bool : Option FColor := none
  bytes : Option FColor := none
  datetime : Option FColor := none
  null : Option FColor := none
  number : Option FColor := none
  string : Option FColor := none
  key : Option FColor := none
  punc : Option FColor := none
  textMarshaler : Option FColor := none

/-- `ToCoreColors`, `/repo/helper/fatihcolor/fatihcolor.go:61-77`. -/
def toCoreColors (l : FatihLib) (c : Option FColors) : Option Colors :=
  match c with
  | none => none
  | some c => some {
      null := toCoreColor l c.null
      bool := toCoreColor l c.bool
      number := toCoreColor l c.number
      string := toCoreColor l c.string
      key := toCoreColor l c.key
      bytes := toCoreColor l c.bytes
      time := toCoreColor l c.datetime
      punc := toCoreColor l c.punc
      textMarshaler := toCoreColor l c.textMarshaler }

/-- `DefaultColors`, `/repo/helper/fatihcolor/fatihcolor.go:46-58`, with the attribute
numbers of fatih/color (`Bold` 1, `Faint` 2, `FgGreen` 32, `FgYellow` 33, `FgBlue` 34,
`FgCyan` 36). -/
def fatihDefaultColors : FColors where
  bool := some { params := [33] }
  bytes := some { params := [2] }
  datetime := some { params := [32, 2] }
  key := some { params := [34, 1] }
  null := some { params := [2] }
  number := some { params := [36] }
  string := some { params := [32] }
  punc := some { params := [1] }
  textMarshaler := some { params := [32] }

end JC

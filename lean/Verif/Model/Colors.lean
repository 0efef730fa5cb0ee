import Verif.Model.Ints
/-!
Model of `/repo/jsoncolor.go`: colors and the helpers appending colorized
tokens.  A nil `*Colors` is `none`.
-/
namespace JC

/-- `Colors`, `/repo/jsoncolor.go:9-66`; a `Color` is its bytes (167). -/
structure Colors where
  null : Bytes := []
  bool : Bytes := []
  number : Bytes := []
  string : Bytes := []
  key : Bytes := []
  bytes : Bytes := []
  time : Bytes := []
  punc : Bytes := []
  brackets : Bytes := []
  braces : Bytes := []
  comma : Bytes := []
  colon : Bytes := []
  textMarshaler : Bytes := []
deriving DecidableEq, Repr

/-- `ansiReset`, `/repo/jsoncolor.go:170`. -/
def ansiReset : Bytes := [0x1b, 0x5b, 0x30, 0x6d]

/-- `/repo/jsoncolor.go:69-77`. -/
def appendNull (c : Option Colors) (b : Bytes) : Bytes :=
  match c with
  | none => b ++ bs! "null"
  | some c => b ++ c.null ++ bs! "null" ++ ansiReset

/-- `/repo/jsoncolor.go:80-97`. -/
def appendBool (c : Option Colors) (b : Bytes) (v : Bool) : Bytes :=
  match c with
  | none => if v then b ++ bs! "true" else b ++ bs! "false"
  | some c =>
    let b := b ++ c.bool
    let b := if v then b ++ bs! "true" else b ++ bs! "false"
    b ++ ansiReset

/-- `/repo/jsoncolor.go:100-108`. -/
def appendInt64 (c : Option Colors) (b : Bytes) (v : Int) : Bytes :=
  match c with
  | none => b ++ fmtInt v
  | some c => b ++ c.number ++ fmtInt v ++ ansiReset

/-- `/repo/jsoncolor.go:111-119`. -/
def appendUint64 (c : Option Colors) (b : Bytes) (v : Nat) : Bytes :=
  match c with
  | none => b ++ fmtNat v
  | some c => b ++ c.number ++ fmtNat v ++ ansiReset

/-- `/repo/jsoncolor.go:140-157`. -/
def Colors.puncColor (c : Colors) (v : UInt8) : Bytes :=
  let clr : Bytes :=
    if v = ch! '[' ∨ v = ch! ']' then c.brackets
    else if v = ch! '{' ∨ v = ch! '}' then c.braces
    else if v = ch! ',' then c.comma
    else if v = ch! ':' then c.colon
    else []
  if clr.length = 0 then c.punc else clr

/-- `/repo/jsoncolor.go:125-133`. -/
def appendPunc (c : Option Colors) (b : Bytes) (v : UInt8) : Bytes :=
  match c with
  | none => b ++ [v]
  | some c => b ++ c.puncColor v ++ [v] ++ ansiReset

/-- `/repo/jsoncolor.go:175-191`. -/
def defaultColors : Colors where
  null := [0x1b] ++ bs! "[2m"
  bool := [0x1b] ++ bs! "[1m"
  number := [0x1b] ++ bs! "[36m"
  string := [0x1b] ++ bs! "[32m"
  key := [0x1b] ++ bs! "[34;1m"
  bytes := [0x1b] ++ bs! "[2m"
  time := [0x1b] ++ bs! "[32;2m"
  punc := []
  textMarshaler := [0x1b] ++ bs! "[32m"

end JC

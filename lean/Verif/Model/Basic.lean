/-!
Common vocabulary of the model: bytes, byte literals, errors.
-/
namespace JC

/-- A Go `[]byte` (or Go string), as a value. Aliasing and capacity are not
represented; the buffer pool and `append` aliasing are modelled separately. -/
abbrev Bytes := List UInt8

open Lean in
/-- `ch! 'x'` is the byte of the ASCII character `x`. -/
macro "ch!" c:char : term => do
  let n := Syntax.mkNumLit (toString c.getChar.toNat)
  `(($n : UInt8))

open Lean in
/-- `bs! "abc"` is the list of the UTF-8 bytes of a string literal. -/
macro "bs!" s:str : term => do
  let elems : Array (TSyntax `term) ← s.getString.toUTF8.data.mapM fun b => do
    let n := Syntax.mkNumLit (toString b.toNat)
    `(($n : UInt8))
  `(([$elems,*] : List UInt8))

/-- Go errors, by the type of the error value. Message texts are not modelled.
`/repo/codec.go:951-992` (`syntaxError`, `unmarshalTypeError`, `unmarshalOverflow`,
`unexpectedEOF`, `inputError`, `objectKeyError`). -/
inductive Err where
  /-- `*SyntaxError` -/
  | syntax
  /-- `*UnmarshalTypeError` (wrong type or overflow) -/
  | unmarshalType
  /-- `*UnsupportedValueError` -/
  | unsupportedValue
  /-- `*UnsupportedTypeError` -/
  | unsupportedType
  /-- `*InvalidUnmarshalError` -/
  | invalidUnmarshal
  /-- `io.EOF` -/
  | eof
  /-- `io.ErrUnexpectedEOF` -/
  | unexpectedEOF
  /-- `errors.New` values of the package and errors of user code, by number -/
  | other (n : Nat)
  /-- `rollback`, `/repo/encode.go:760-762` -/
  | rollback
  /-- model artefact: a loop ran out of fuel; proved unreachable -/
  | outOfFuel
deriving DecidableEq, Repr

/-- JSON insignificant whitespace, `/repo/parse.go:13-18`. -/
def isSpace (c : UInt8) : Bool :=
  c == 0x20 || c == 0x09 || c == 0x0a || c == 0x0d

/-- The test `'0' <= c && c <= '9'`. -/
def isDigit (c : UInt8) : Bool := 0x30 ≤ c && c ≤ 0x39

/-- `bytes.IndexByte`: position of the first occurrence (`none` stands for -1). -/
def indexByte : Bytes → UInt8 → Option Nat
  | [], _ => none
  | x :: xs, c => if x = c then some 0 else (indexByte xs c).map (· + 1)

end JC

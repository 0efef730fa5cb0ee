import Verif.Model.Strings
/-!
Model of the Tokenizer, `/repo/token.go`.
-/
namespace JC

/-- `scope`, `/repo/token.go:85-90`. -/
inductive Scope where
  | inArray
  | inObject
deriving DecidableEq, Repr

/-- `Tokenizer`, `/repo/token.go:41-83`. `delim = 0` is the zero `Delim`. The
stack is kept with its top first; `buffer` is only storage for it (`Model/TokenMem.lean` has it). Go's `int`
fields are `Int` (they are bounded by the input length). -/
structure Tok where
  delim : UInt8
  value : Bytes
  err : Option Err
  depth : Int
  index : Int
  IsKey : Bool
  isKey : Bool
  json : Bytes
  stack : List (Scope × Int)
deriving DecidableEq, Repr

/-- `NewTokenizer`, `/repo/token.go:93`. -/
def newTokenizer (b : Bytes) : Tok := ⟨0, [], none, 0, 0, false, false, b, []⟩

/-- `Reset`, `/repo/token.go:96-112`. -/
def Tok.reset (_t : Tok) (b : Bytes) : Tok :=
  { delim := 0, value := [], err := none, depth := 0, index := 0, IsKey := false, isKey := false,
    json := b, stack := [] }

/-- The inlined whitespace loop, `/repo/token.go:127-138`. -/
def tokSkip : Bytes → Bytes
  | [] => []
  | c :: t => if c = 0x20 ∨ c = 0x09 ∨ c = 0x0a ∨ c = 0x0d then tokSkip t else c :: t

/-- `push`, `/repo/token.go:201-206`. -/
def Tok.push (t : Tok) (s : Scope) : Tok := { t with stack := (s, 1) :: t.stack }

/-- `pop`, `/repo/token.go:208-221`: new stack and error. -/
def Tok.pop (t : Tok) (expect : Scope) : Tok × Option Err :=
  match t.stack with
  | [] => (t, some .syntax)
  | (s, _) :: st => if expect ≠ s then (t, some .syntax) else ({ t with stack := st }, none)

/-- `is`, `/repo/token.go:223-225`. -/
def Tok.is (t : Tok) (s : Scope) : Bool :=
  match t.stack with
  | [] => false
  | (s', _) :: _ => s' == s

/-- `index`, `/repo/token.go:231-236`. -/
def Tok.idx (t : Tok) : Int :=
  match t.stack with
  | [] => 0
  | (_, n) :: _ => n - 1

/-- The six delimiters, `/repo/token.go:159`. -/
def isDelim (c : UInt8) : Bool :=
  c == ch! '{' || c == ch! '}' || c == ch! '[' || c == ch! ']' || c == ch! ':' || c == ch! ','

/-- Scanning of one token, `/repo/token.go:148-163`: `(d, v, b, err)`. On a
parse error `v` is nil. -/
def tokScan (json : Bytes) : UInt8 × Bytes × Bytes × Option Err :=
  let pr : PR → UInt8 × Bytes × Bytes × Option Err
    | .ok v b => (0, v, b, none)
    | .fail b e => (0, [], b, some e)
  match json with
  | [] => (0, [], [], none)      -- not reached: the input is not empty here
  | c :: t =>
    if c = ch! '"' then pr (parseString json)
    else if c = ch! 'n' then pr (parseNull json)
    else if c = ch! 't' then pr (parseTrue json)
    else if c = ch! 'f' then pr (parseFalse json)
    else if c = ch! '-' ∨ isDigit c then pr (parseNumber json)
    else if isDelim c then (c, [c], t, none)
    else (0, [c], t, some .syntax)

/-- Result of `Next`: the receiver afterwards and the returned boolean, or the
index panic of line 194. -/
inductive NextR where
  | ret (t : Tok) (ok : Bool)
  | panic
deriving DecidableEq, Repr

/-- The delimiter switch, `/repo/token.go:173-196`: new receiver and the local
`err`, or a panic (`none`). -/
def Tok.delimStep (t : Tok) (d : UInt8) (err : Option Err) : Option (Tok × Option Err) :=
  if d = 0 then some (t, err)
  else if d = ch! '{' then some ({ t with isKey := true }.push .inObject, err)
  else if d = ch! '[' then some (t.push .inArray, err)
  else if d = ch! '}' then
    let (t, err) := t.pop .inObject
    let t := { t with depth := t.depth - 1 }
    some ({ t with index := t.idx }, err)
  else if d = ch! ']' then
    let (t, err) := t.pop .inArray
    let t := { t with depth := t.depth - 1 }
    some ({ t with index := t.idx }, err)
  else if d = ch! ':' then some ({ t with isKey := false }, err)
  else if d = ch! ',' then
    let t := if t.is .inObject then { t with isKey := true } else t
    match t.stack with
    | [] => none
    | (s, n) :: st => some ({ t with stack := (s, n + 1) :: st }, err)
  else some (t, err)

/-- `Next`, `/repo/token.go:121-199`. -/
def Tok.next (t : Tok) : NextR :=
  match t.err with
  | some _ => .ret t false
  | none =>
    let t := { t with json := tokSkip t.json }
    if t.json.length = 0 then .ret (t.reset []) false
    else
      let (d, v, b, err) := tokScan t.json
      let t := { t with delim := d, value := v, err := err, depth := t.stack.length,
                        index := t.idx, IsKey := d == 0 && t.isKey, json := b }
      match t.delimStep d err with
      | none => .panic
      | some (t, err) => .ret t ((d != 0 || v.length != 0) && err.isNone)

/-- `RawValue` predicates, `/repo/token.go:243-263`. -/
def rvString (v : Bytes) : Bool := v.length != 0 && v.head? == some (ch! '"')
def rvNull (v : Bytes) : Bool := v.length != 0 && v.head? == some (ch! 'n')
def rvTrue (v : Bytes) : Bool := v.length != 0 && v.head? == some (ch! 't')
def rvFalse (v : Bytes) : Bool := v.length != 0 && v.head? == some (ch! 'f')
def rvNumber (v : Bytes) : Bool :=
  match v with
  | [] => false
  | c :: _ => c == ch! '-' || isDigit c

/-- What a caller of `Next` sees of a token: the exported fields. -/
structure Obs where
  delim : UInt8
  value : Bytes
  depth : Int
  index : Int
  isKey : Bool
deriving DecidableEq, Repr

def Tok.obs (t : Tok) : Obs := ⟨t.delim, t.value, t.depth, t.index, t.IsKey⟩

/-- How an iteration `for t.Next() { ... }` ends. -/
inductive TokEnd where
  /-- `Next` returned false, leaving the receiver in this state -/
  | stop (t : Tok)
  | panic
  /-- model artefact, not reached with enough fuel -/
  | outOfFuel
deriving DecidableEq, Repr

/-- The loop `for t.Next() { ... }` of the documentation comment
(`/repo/token.go:12`): the tokens seen and how it ended. -/
def Tok.run : Nat → Tok → List Obs × TokEnd
  | 0, _ => ([], .outOfFuel)
  | n + 1, t =>
    match t.next with
    | .panic => ([], .panic)
    | .ret t false => ([], .stop t)
    | .ret t true => let r := Tok.run n t; (t.obs :: r.1, r.2)

/-- All tokens of an input. -/
def tokenize (b : Bytes) : List Obs × TokEnd := (newTokenizer b).run (b.length + 1)

end JC

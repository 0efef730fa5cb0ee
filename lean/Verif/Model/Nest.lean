import Verif.Model.Parse
/-!
The parser with a bounded stack.

`Model/Parse.lean` has `parseValue` return for every text. In Go each bracket that is open takes a frame of
`parseValue` and one of `parseObject` or `parseArray` on the stack of the goroutine, and there is no limit to the
number of them (`/repo/parse.go:532-672`). Here the stack has room for `d` calls of `parseValue`; `none` is a call that
finds no room, which ends the program.

Simplifications: only calls of `parseValue` are counted (there is at most one call of another function between two of
them, and a constant number below the last one). The first argument is fuel as in `Model/Parse.lean`.
-/
namespace JC

mutual

/-- `parseValue`, `/repo/parse.go:650-672`, with room for `d` calls. -/
def parseValueS : Nat → Nat → Bytes → Option PR
  | 0, _, b => some (.fail b .outOfFuel)
  | _ + 1, 0, _ => none
  | n + 1, d + 1, b =>
    match b with
    | [] => some (.fail b .syntax)
    | c :: _ =>
      if c = ch! '{' then parseObjectS n d b
      else if c = ch! '[' then parseArrayS n d b
      else if c = ch! '"' then some (parseString b)
      else if c = ch! 'n' then some (parseNull b)
      else if c = ch! 't' then some (parseTrue b)
      else if c = ch! 'f' then some (parseFalse b)
      else if c = ch! '-' ∨ isDigit c then some (parseNumber b)
      else some (.fail b .syntax)

/-- `parseObject`, `/repo/parse.go:532-546`, up to the loop. -/
def parseObjectS : Nat → Nat → Bytes → Option PR
  | 0, _, b => some (.fail b .outOfFuel)
  | n + 1, d, b =>
    if b.length < 2 then some (.fail [] .syntax)
    else match b with
      | [] => some (.fail [] .syntax)
      | c :: t => if c ≠ ch! '{' then some (.fail b .syntax) else objLoopS n d b true t

/-- One round of the loop of `parseObject` up to the key, `/repo/parse.go:547-577`. -/
def objLoopS : Nat → Nat → Bytes → Bool → Bytes → Option PR
  | 0, _, _, _, b => some (.fail b .outOfFuel)
  | n + 1, d, a, first, b =>
    let b := skipSpaces b
    match b with
    | [] => some (.fail b .syntax)
    | c :: t =>
      if c = ch! '}' then some (closeAt a b)
      else if first then objItemS n d a b
      else if c ≠ ch! ',' then some (.fail b .syntax)
      else
        let b := skipSpaces t
        match b with
        | [] => some (.fail b .syntax)
        | c :: _ => if c = ch! '}' then some (.fail b .syntax) else objItemS n d a b

/-- The rest of the loop body of `parseObject`, `/repo/parse.go:579-594`. -/
def objItemS : Nat → Nat → Bytes → Bytes → Option PR
  | 0, _, _, b => some (.fail b .outOfFuel)
  | n + 1, d, a, b =>
    match parseString b with
    | .fail r e => some (.fail r e)
    | .ok _ b =>
      let b := skipSpaces b
      match b with
      | [] => some (.fail b .syntax)
      | c :: t =>
        if c ≠ ch! ':' then some (.fail b .syntax)
        else match parseValueS n d (skipSpaces t) with
          | none => none
          | some (.fail r e) => some (.fail r e)
          | some (.ok _ b) => objLoopS n d a false b

/-- `parseArray`, `/repo/parse.go:598-612`, up to the loop. -/
def parseArrayS : Nat → Nat → Bytes → Option PR
  | 0, _, b => some (.fail b .outOfFuel)
  | n + 1, d, b =>
    if b.length < 2 then some (.fail [] .syntax)
    else match b with
      | [] => some (.fail [] .syntax)
      | c :: t => if c ≠ ch! '[' then some (.fail b .syntax) else arrLoopS n d b true t

/-- One round of the loop of `parseArray` up to the element, `/repo/parse.go:613-640`. -/
def arrLoopS : Nat → Nat → Bytes → Bool → Bytes → Option PR
  | 0, _, _, _, b => some (.fail b .outOfFuel)
  | n + 1, d, a, first, b =>
    let b := skipSpaces b
    match b with
    | [] => some (.fail b .syntax)
    | c :: t =>
      if c = ch! ']' then some (closeAt a b)
      else if first then arrItemS n d a b
      else if c ≠ ch! ',' then some (.fail b .syntax)
      else
        let b := skipSpaces t
        match b with
        | [] => some (.fail b .syntax)
        | c :: _ => if c = ch! ']' then some (.fail b .syntax) else arrItemS n d a b

/-- The rest of the loop body of `parseArray`, `/repo/parse.go:642-646`. -/
def arrItemS : Nat → Nat → Bytes → Bytes → Option PR
  | 0, _, _, b => some (.fail b .outOfFuel)
  | n + 1, d, a, b =>
    match parseValueS n d b with
    | none => none
    | some (.fail r e) => some (.fail r e)
    | some (.ok _ b) => arrLoopS n d a false b

end

/-- `Valid`, `/repo/json.go:235-241`, with room for `d` calls of `parseValue`. -/
def validS (d : Nat) (data : Bytes) : Option Bool :=
  (parseValueS (fuelFor (skipSpaces data)) d (skipSpaces data)).map fun
    | .fail _ _ => false
    | .ok _ data => (skipSpaces data).length == 0

end JC

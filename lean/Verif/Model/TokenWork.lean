import Verif.Model.Token
import Verif.Model.Work
/-!
The Tokenizer, `/repo/token.go`, with a count of the work it does, as in `Model/Work.lean`: one step for each call, each round of
a loop and each byte looked at, as often as it is looked at.

Simplification: growing the stack (`append` in `push`, `/repo/token.go:205`) costs nothing, as other allocation does not.
-/
namespace JC

/-- The inlined whitespace loop, `/repo/token.go:127-138`. -/
def tokSkipW : Bytes → Bytes × Nat
  | [] => ([], 1)
  | c :: t => if c = 0x20 ∨ c = 0x09 ∨ c = 0x0a ∨ c = 0x0d then tick 1 (tokSkipW t) else (c :: t, 1)

/-- Scanning of one token, `/repo/token.go:148-163`. -/
def tokScanW (json : Bytes) : (UInt8 × Bytes × Bytes × Option Err) × Nat :=
  let pr : PR × Nat → (UInt8 × Bytes × Bytes × Option Err) × Nat
    | (.ok v b, k) => ((0, v, b, none), k + 1)
    | (.fail b e, k) => ((0, [], b, some e), k + 1)
  match json with
  | [] => ((0, [], [], none), 0)
  | c :: t =>
    if c = ch! '"' then pr (parseStringW json)
    else if c = ch! 'n' then pr (parseNull json, 5)
    else if c = ch! 't' then pr (parseTrue json, 5)
    else if c = ch! 'f' then pr (parseFalse json, 6)
    else if c = ch! '-' ∨ isDigit c then pr (parseNumberW json)
    else if isDelim c then ((c, [c], t, none), 1)
    else ((0, [c], t, some .syntax), 1)

/-- `Next`, `/repo/token.go:121-199`. -/
def Tok.nextW (t : Tok) : NextR × Nat :=
  match t.err with
  | some _ => (.ret t false, 1)
  | none =>
    let (json, i) := tokSkipW t.json
    let t := { t with json := json }
    if t.json.length = 0 then (.ret (t.reset []) false, i + 1)
    else
      let ((d, v, b, err), k) := tokScanW t.json
      let t := { t with delim := d, value := v, err := err, depth := t.stack.length,
                        index := t.idx, IsKey := d == 0 && t.isKey, json := b }
      match t.delimStep d err with
      | none => (.panic, i + k + 2)
      | some (t, err) => (.ret t ((d != 0 || v.length != 0) && err.isNone), i + k + 2)

/-- Any number of calls of `Next`, whatever they return, up to a panic: the receiver afterwards (`none` after a panic) and the steps. -/
def Tok.nextsW : Nat → Tok → Option Tok × Nat
  | 0, t => (some t, 0)
  | n + 1, t =>
    match t.nextW with
    | (.panic, k) => (none, k)
    | (.ret t _, k) => tick k (Tok.nextsW n t)

/-- The loop `for t.Next() { ... }` (`/repo/token.go:12`). -/
def Tok.runW : Nat → Tok → (List Obs × TokEnd) × Nat
  | 0, _ => (([], .outOfFuel), 0)
  | n + 1, t =>
    match t.nextW with
    | (.panic, k) => (([], .panic), k)
    | (.ret t false, k) => (([], .stop t), k)
    | (.ret t true, k) =>
      let r := Tok.runW n t
      ((t.obs :: r.1.1, r.1.2), r.2 + k)

/-- All tokens of an input. -/
def tokenizeW (b : Bytes) : (List Obs × TokEnd) × Nat := (newTokenizer b).runW (b.length + 1)

end JC

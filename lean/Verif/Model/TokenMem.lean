import Verif.Model.Token
/-!
The Tokenizer, `/repo/token.go`, with the memory of its stack.

`Model/Token.lean` keeps the stack as a list. In the code it is a slice that starts in the array `buffer` inside the `Tokenizer` itself
(`/repo/token.go:73-76`) and moves to the heap when there are more than eight open brackets. A `Tokenizer` copied by assignment has a
`buffer` of its own but its `stack` is a slice of the same memory as before.

Here there are several `Tokenizer`s at addresses, and arrays on the heap. How far `append` grows a slice is a parameter.
-/
namespace JC

/-- Where the elements of a `stack` are: in the `buffer` of the Tokenizer at an address, or in an array on the heap. -/
inductive TokPlace where
  | buf (a : Nat)
  | heap (i : Nat)
deriving DecidableEq, Repr

/-- `Tokenizer`, `/repo/token.go:41-77`; `slot` is `stack`: `none` for nil, else where its elements are and how many there are. All stacks
start at the beginning of their array. -/
structure MTok where
  delim : UInt8
  value : Bytes
  err : Option Err
  depth : Int
  index : Int
  IsKey : Bool
  isKey : Bool
  json : Bytes
  slot : Option (TokPlace × Nat)
  buffer : List (Scope × Int)
deriving DecidableEq, Repr

/-- Memory: the Tokenizers by address, and the arrays on the heap up to their capacity. -/
structure TokMem where
  toks : Nat → MTok
  heap : List (List (Scope × Int))

/-- The zero `state`, `/repo/token.go:79-82`. -/
def zeroState : Scope × Int := (.inArray, 0)

/-- Assignment to the Tokenizer at `a`. -/
def TokMem.put (w : TokMem) (a : Nat) (t : MTok) : TokMem := { w with toks := fun b => if b = a then t else w.toks b }

/-- The array at a place, up to its capacity. -/
def TokMem.cells (w : TokMem) : TokPlace → List (Scope × Int)
  | .buf a => (w.toks a).buffer
  | .heap i => (w.heap[i]?).getD []

/-- Assignment to one element. -/
def TokMem.setCell (w : TokMem) (p : TokPlace) (i : Nat) (x : Scope × Int) : TokMem :=
  match p with
  | .buf a => w.put a { w.toks a with buffer := (w.toks a).buffer.set i x }
  | .heap j => { w with heap := w.heap.set j (((w.heap[j]?).getD []).set i x) }

/-- `NewTokenizer`, `/repo/token.go:93`, at address `a`. -/
def TokMem.new (w : TokMem) (a : Nat) (b : Bytes) : TokMem := w.put a ⟨0, [], none, 0, 0, false, false, b, none, List.replicate 8 zeroState⟩

/-- `Reset`, `/repo/token.go:96-112`: all but `buffer`. -/
def TokMem.reset (w : TokMem) (a : Nat) (b : Bytes) : TokMem := w.put a ⟨0, [], none, 0, 0, false, false, b, none, (w.toks a).buffer⟩

/-- The assignment `*q = *p` of Go, for Tokenizers at `p` and `q`: all fields, the elements of `buffer` included. -/
def TokMem.copy (w : TokMem) (p q : Nat) : TokMem := w.put q (w.toks p)

/-- The top of the stack, if there is one. -/
def TokMem.top (w : TokMem) (a : Nat) : Option (TokPlace × Nat × (Scope × Int)) :=
  match (w.toks a).slot with
  | none => none
  | some (p, n) =>
    match n with
    | 0 => none
    | n + 1 => some (p, n, ((w.cells p)[n]?).getD zeroState)

/-- `push`, `/repo/token.go:201-206`. `append` writes behind the last element if there is room, else it moves the stack to a new array. -/
def TokMem.push (grow : Nat → Nat) (w : TokMem) (a : Nat) (s : Scope) : TokMem :=
  let (p, n) := ((w.toks a).slot).getD (.buf a, 0)
  if n < (w.cells p).length then
    let w := w.setCell p n (s, 1)
    w.put a { w.toks a with slot := some (p, n + 1) }
  else
    let m := (w.cells p).take n ++ (s, 1) :: List.replicate (grow n) zeroState
    let i := w.heap.length
    let w : TokMem := { w with heap := w.heap ++ [m] }
    w.put a { w.toks a with slot := some (.heap i, n + 1) }

/-- `pop`, `/repo/token.go:208-221`. -/
def TokMem.pop (w : TokMem) (a : Nat) (expect : Scope) : TokMem × Option Err :=
  match w.top a with
  | none => (w, some .syntax)
  | some (p, n, x) => if expect ≠ x.1 then (w, some .syntax) else (w.put a { w.toks a with slot := some (p, n) }, none)

/-- `is`, `/repo/token.go:223-225`. -/
def TokMem.is (w : TokMem) (a : Nat) (s : Scope) : Bool :=
  match w.top a with
  | none => false
  | some (_, _, x) => x.1 == s

/-- `depth`, `/repo/token.go:227-229`. -/
def TokMem.depth (w : TokMem) (a : Nat) : Nat :=
  match (w.toks a).slot with
  | none => 0
  | some (_, n) => n

/-- `index`, `/repo/token.go:231-236`. -/
def TokMem.idx (w : TokMem) (a : Nat) : Int :=
  match w.top a with
  | none => 0
  | some (_, _, x) => x.2 - 1

/-- After a closing bracket, `/repo/token.go:180-187`. -/
def TokMem.close (w : TokMem) (a : Nat) (s : Scope) : TokMem × Option Err :=
  let (w, err) := w.pop a s
  let w := w.put a { w.toks a with depth := (w.toks a).depth - 1 }
  (w.put a { w.toks a with index := w.idx a }, err)

/-- The delimiter switch, `/repo/token.go:173-196`. -/
def TokMem.delimStep (grow : Nat → Nat) (w : TokMem) (a : Nat) (d : UInt8) (err : Option Err) : Option (TokMem × Option Err) :=
  if d = 0 then some (w, err)
  else if d = ch! '{' then some ((w.put a { w.toks a with isKey := true }).push grow a .inObject, err)
  else if d = ch! '[' then some (w.push grow a .inArray, err)
  else if d = ch! '}' then some (w.close a .inObject)
  else if d = ch! ']' then some (w.close a .inArray)
  else if d = ch! ':' then some (w.put a { w.toks a with isKey := false }, err)
  else if d = ch! ',' then
    let w := if w.is a .inObject then w.put a { w.toks a with isKey := true } else w
    match w.top a with
    | none => none
    | some (p, n, x) => some (w.setCell p n (x.1, x.2 + 1), err)
  else some (w, err)

/-- `Next`, `/repo/token.go:121-199`, of the Tokenizer at `a`; `none` for the index panic of line 194. -/
def TokMem.next (grow : Nat → Nat) (w : TokMem) (a : Nat) : Option (TokMem × Bool) :=
  match (w.toks a).err with
  | some _ => some (w, false)
  | none =>
    let w := w.put a { w.toks a with json := tokSkip (w.toks a).json }
    if (w.toks a).json.length = 0 then some (w.reset a [], false)
    else
      let (d, v, b, err) := tokScan (w.toks a).json
      let w := w.put a { w.toks a with delim := d, value := v, err := err, depth := w.depth a,
                                       index := w.idx a, IsKey := d == 0 && (w.toks a).isKey, json := b }
      match w.delimStep grow a d err with
      | none => none
      | some (w, err) => some (w, (d != 0 || v.length != 0) && err.isNone)

/-- What is seen of the Tokenizer at `a`, with its stack as a list (top first). -/
def TokMem.view (w : TokMem) (a : Nat) : Tok :=
  let t := w.toks a
  ⟨t.delim, t.value, t.err, t.depth, t.index, t.IsKey, t.isKey, t.json,
    match t.slot with
    | none => []
    | some (p, n) => ((w.cells p).take n).reverse⟩

end JC

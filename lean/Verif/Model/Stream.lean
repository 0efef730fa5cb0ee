import Verif.Model.Decode
/-!
Model of the `Decoder` of `/repo/json.go:243-331`: a state machine over a reader.

The buffer is represented by its memory up to the capacity. `dec.remain` is
always nil or the tail of `dec.buffer`, so it is represented by the index where
it starts. A reader delivers pieces of data with an error behind each; `io.Reader`s
may deliver the data in smaller portions, but `io.ReadFull` hides this, provided
that an error comes on its own and not together with the last byte that was asked
for. `Model/Pieces.lean` has readers of pieces, errors together with data, and readers that
do not return; C90 shows that they agree where both apply.
-/
namespace JC

/-- An `io.Reader`: pieces of data, each followed by an error; behind them `last`
is returned for ever. -/
structure Reader where
  segs : List (Bytes × Err)
  last : Err

/-- The data still to be delivered. -/
def Reader.data (r : Reader) : Bytes := r.segs.flatMap (·.1)

/-- `io.ReadFull` of `n > 0` bytes: data, error and the reader afterwards. -/
def readFull (n : Nat) (r : Reader) : Bytes × Option Err × Reader :=
  match r.segs with
  | [] => ([], some r.last, r)
  | (d, e) :: segs =>
    if n ≤ d.length then (d.take n, none, ⟨(d.drop n, e) :: segs, r.last⟩)
    else (d, some (if d ≠ [] ∧ e = .eof then .unexpectedEOF else e), ⟨segs, r.last⟩)

/-- `/repo/json.go:271-274`. -/
def minBufferSize : Nat := 32768
def minReadSize : Nat := 4096

/-- `Decoder`, `/repo/json.go:244-251`. The buffer is `mem[:len]` (nil: no memory),
`remain` is `mem[lo:len]`. -/
structure SDec where
  reader : Reader
  mem : Option Bytes
  len : Nat
  lo : Nat
  offset : Nat
  err : Option Err

/-- `NewDecoder`, `/repo/json.go:254`. -/
def newDecoder (r : Reader) : SDec := ⟨r, none, 0, 0, 0, none⟩

/-- `dec.remain`; also what `Buffered` (`/repo/json.go:257-259`) gives. -/
def SDec.remain (s : SDec) : Bytes := ((s.mem.getD []).take s.len).drop s.lo

/-- Moving `remain` to the front of the buffer, or making the buffer,
`/repo/json.go:305-310`: memory and length. -/
def SDec.front (s : SDec) : Bytes × Nat :=
  match s.mem with
  | none => (List.replicate minBufferSize 0, 0)
  | some m => (s.remain ++ m.drop s.remain.length, s.remain.length)

/-- Doubling the buffer if there is little room, `/repo/json.go:312-316`. -/
def growBuf (m : Bytes) (len : Nat) : Bytes :=
  if m.length - len < minReadSize then m.take len ++ List.replicate (2 * m.length - len) 0 else m

/-- Filling the buffer, `/repo/json.go:305-329`. -/
def SDec.refill (s : SDec) : SDec :=
  let (m, len) := s.front
  let m := growBuf m len
  let (d, e, rd) := readFull (m.length - len) s.reader
  let m := m.take len ++ d ++ m.drop (len + d.length)
  let err := if d ≠ [] then none else if e = some .unexpectedEOF then some .eof else e
  let (rem, n) := skipSpacesN (m.take (len + d.length))
  ⟨rd, some m, len + d.length, len + d.length - rem.length, s.offset + n, err⟩

/-- Result of `readValue`. -/
inductive RV where
  | ok (v : Bytes)
  | err (e : Err)
deriving DecidableEq

/-- `/repo/json.go:298-303`: the pending error, if any, is returned. -/
def SDec.pending (s : SDec) (e : Err) : RV := .err (if s.remain ≠ [] ∧ e = .eof then .unexpectedEOF else e)

/-- The loop of `readValue`, `/repo/json.go:282-330`. -/
def readLoop : Nat → SDec → RV × SDec
  | 0, s => (.err .outOfFuel, s)
  | n + 1, s =>
    let more : RV × SDec := match s.err with
      | some e => (s.pending e, s)
      | none => readLoop n s.refill
    if s.remain ≠ [] then
      match parseValue s.remain with
      | .ok v r =>
        let (rem, k) := skipSpacesN r
        (.ok v, { s with lo := s.len - rem.length, offset := s.offset + (v.length + k) })
      | .fail r e => if r ≠ [] then (.err e, s) else more
    else more

/-- `readValue`, `/repo/json.go:278-331`; the fuel suffices, since every round but
the last two gets data. -/
def SDec.readValue (s : SDec) : RV × SDec := readLoop (s.reader.data.length + 2) s

/-- `Decode`, `/repo/json.go:262-269`, into a destination of type `t` with contents `p`. -/
def SDec.decode (s : SDec) (c : DCfg) (n : Nat) (t : Ty) (p : DV) : URes × SDec :=
  match s.readValue with
  | (.err e, s) => (.done p (some e), s)
  | (.ok raw, s) =>
    (match parseInto (decN c n t) raw p with
      | .crash x => .crash x
      | .ok v _ => .done v none
      | .err v _ e => .done v (some e), s)

/-- Several calls of `readValue`. -/
def SDec.calls : Nat → SDec → List RV × SDec
  | 0, s => ([], s)
  | n + 1, s => (s.readValue.1 :: (SDec.calls n s.readValue.2).1, (SDec.calls n s.readValue.2).2)

/-- Several calls of `Decode`, each with a type and the contents of its destination. -/
def SDec.decodes (c : DCfg) (n : Nat) : List (Ty × DV) → SDec → List URes
  | [], _ => []
  | (t, p) :: ds, s => (s.decode c n t p).1 :: SDec.decodes c n ds (s.decode c n t p).2

end JC

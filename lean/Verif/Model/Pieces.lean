import Verif.Model.Stream
/-!
Model of the `Decoder` of `/repo/json.go:243-331` on readers that deliver their data in pieces and may
keep it waiting.

`Model/Stream.lean` takes what `io.ReadFull` makes of a reader as given. Here the calls of `Read` are
explicit: each returns the next piece, as far as there is room for it, possibly together with an error; when there
are no more pieces, it returns an error for ever or does not return at all.
-/
namespace JC

/-- What one call of `Read` returns. -/
structure Piece where
  data : Bytes
  err : Option Err

/-- An `io.Reader`: its pieces, and the error behind them; `none`: further calls of `Read` do not return. -/
structure Source where
  pieces : List Piece
  last : Option Err

/-- The data of the source. -/
def Source.data (s : Source) : Bytes := s.pieces.flatMap (·.data)

/-- `Read` with room for `n` bytes; `none` if it does not return. A piece that does not fit is delivered
in parts, the error with the last one. -/
def Source.read (n : Nat) (s : Source) : Option (Bytes × Option Err × Source) :=
  match s.pieces with
  | [] => s.last.map fun e => ([], some e, s)
  | p :: ps =>
    if p.data.length ≤ n then some (p.data, p.err, ⟨ps, s.last⟩)
    else some (p.data.take n, none, ⟨⟨p.data.drop n, p.err⟩ :: ps, s.last⟩)

/-- The loop of `io.ReadAtLeast` (Go 1.x, `io/io.go`, called through `io.ReadFull` by `/repo/json.go:318`) for `n > 0`
bytes: calls of `Read` until there are enough or an error comes; an error that comes with the last byte asked for is
dropped. `fill_read` shows that these are calls of `Read`. -/
def fill (last : Option Err) : Nat → List Piece → Option (Bytes × Option Err × List Piece)
  | _, [] => last.map fun e => ([], some e, [])
  | n, p :: ps =>
    if n < p.data.length then some (p.data.take n, none, ⟨p.data.drop n, p.err⟩ :: ps)
    else if n = p.data.length then some (p.data, none, ps)
    else
      match p.err with
      | some e => some (p.data, some e, ps)
      | none => (fill last (n - p.data.length) ps).map fun r => (p.data ++ r.1, r.2.1, r.2.2)

/-- `io.ReadFull`: `io.EOF` in the middle becomes `io.ErrUnexpectedEOF`. -/
def Source.readFull (n : Nat) (s : Source) : Option (Bytes × Option Err × Source) :=
  (fill s.last n s.pieces).map fun r => (r.1, r.2.1.map fun e => if r.1 ≠ [] ∧ e = .eof then .unexpectedEOF else e, ⟨r.2.2, s.last⟩)

/-- `Decoder`, `/repo/json.go:244-251`, as `SDec` with a `Source` for the reader. -/
structure PieceDec where
  src : Source
  mem : Option Bytes
  len : Nat
  lo : Nat
  offset : Nat
  err : Option Err

/-- `NewDecoder`, `/repo/json.go:254`. -/
def pieceDecoder (s : Source) : PieceDec := ⟨s, none, 0, 0, 0, none⟩

/-- `dec.remain`. -/
def PieceDec.remain (s : PieceDec) : Bytes := ((s.mem.getD []).take s.len).drop s.lo

/-- Moving `remain` to the front of the buffer, or making the buffer, `/repo/json.go:305-310`. -/
def PieceDec.front (s : PieceDec) : Bytes × Nat :=
  match s.mem with
  | none => (List.replicate minBufferSize 0, 0)
  | some m => (s.remain ++ m.drop s.remain.length, s.remain.length)

/-- Filling the buffer, `/repo/json.go:305-329`; `none` if `io.ReadFull` does not return. -/
def PieceDec.refill (s : PieceDec) : Option PieceDec :=
  let (m, len) := s.front
  let m := growBuf m len
  (s.src.readFull (m.length - len)).map fun (d, e, src) =>
    let m := m.take len ++ d ++ m.drop (len + d.length)
    let err := if d ≠ [] then none else if e = some .unexpectedEOF then some .eof else e
    let (rem, n) := skipSpacesN (m.take (len + d.length))
    ⟨src, some m, len + d.length, len + d.length - rem.length, s.offset + n, err⟩

/-- The loop of `readValue`, `/repo/json.go:282-330`; `none` if it does not return. -/
def readLoopP : Nat → PieceDec → Option (RV × PieceDec)
  | 0, s => some (.err .outOfFuel, s)
  | n + 1, s =>
    let more : Option (RV × PieceDec) := match s.err with
      | some e => some (.err (if s.remain ≠ [] ∧ e = .eof then .unexpectedEOF else e), s)
      | none => s.refill.bind (readLoopP n)
    if s.remain ≠ [] then
      match parseValue s.remain with
      | .ok v r =>
        let (rem, k) := skipSpacesN r
        some (.ok v, { s with lo := s.len - rem.length, offset := s.offset + (v.length + k) })
      | .fail r e => if r ≠ [] then some (.err e, s) else more
    else more

/-- `readValue`, `/repo/json.go:278-331`. -/
def PieceDec.readValue (s : PieceDec) : Option (RV × PieceDec) := readLoopP (s.src.data.length + 2) s

/-- Several calls of `readValue`; `none` if one of them does not return. -/
def PieceDec.calls : Nat → PieceDec → Option (List RV × PieceDec)
  | 0, s => some ([], s)
  | n + 1, s => s.readValue.bind fun x => (PieceDec.calls n x.2).map fun y => (x.1 :: y.1, y.2)

/-- `Decode`, `/repo/json.go:262-269`, into a destination of type `t` with contents `p`. -/
def PieceDec.decode (s : PieceDec) (c : DCfg) (n : Nat) (t : Ty) (p : DV) : Option (URes × PieceDec) :=
  s.readValue.map fun x => match x with
  | (.err e, s) => (.done p (some e), s)
  | (.ok raw, s) =>
    (match parseInto (decN c n t) raw p with
      | .crash x => .crash x
      | .ok v _ => .done v none
      | .err v _ e => .done v (some e), s)

end JC

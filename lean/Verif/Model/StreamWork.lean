import Verif.Model.Stream
import Verif.Model.Work
/-!
The `Decoder` of `/repo/json.go:243-331` with a count of the work it does: the steps of parsing and of skipping spaces
as in `Model/Work.lean`, one for each byte that is copied from one place of a buffer to another, one for each round of
the loop. What the reader does, and making a buffer, costs nothing.
-/
namespace JC

/-- Moving `remain` to the front of the buffer, `/repo/json.go:305-310`. -/
def SDec.frontW (s : SDec) : (Bytes × Nat) × Nat := (s.front, s.front.2)

/-- Doubling the buffer if there is little room, `/repo/json.go:312-316`. -/
def growBufW (m : Bytes) (len : Nat) : Bytes × Nat := (growBuf m len, if m.length - len < minReadSize then len else 0)

/-- Filling the buffer, `/repo/json.go:305-329`. -/
def SDec.refillW (s : SDec) : SDec × Nat :=
  let ((m, len), k1) := s.frontW
  let (m, k2) := growBufW m len
  let (d, e, rd) := readFull (m.length - len) s.reader
  let m := m.take len ++ d ++ m.drop (len + d.length)
  let err := if d ≠ [] then none else if e = some .unexpectedEOF then some .eof else e
  let (rem, n) := skipSpacesN (m.take (len + d.length))
  (⟨rd, some m, len + d.length, len + d.length - rem.length, s.offset + n, err⟩,
    k1 + k2 + (skipSpacesW (m.take (len + d.length))).2)

/-- The loop of `readValue`, `/repo/json.go:282-330`. -/
def readLoopW : Nat → SDec → (RV × SDec) × Nat
  | 0, s => ((.err .outOfFuel, s), 0)
  | n + 1, s =>
    let more : (RV × SDec) × Nat := match s.err with
      | some e => ((s.pending e, s), 1)
      | none => tick (s.refillW.2 + 1) (readLoopW n s.refillW.1)
    if s.remain ≠ [] then
      match parseValueW s.remain with
      | (.ok v r, l) =>
        let (rem, k) := skipSpacesN r
        ((.ok v, { s with lo := s.len - rem.length, offset := s.offset + (v.length + k) }), l + (skipSpacesW r).2 + 1)
      | (.fail r e, l) => if r ≠ [] then ((.err e, s), l + 1) else tick l more
    else more

/-- `readValue`, `/repo/json.go:278-331`. -/
def SDec.readValueW (s : SDec) : (RV × SDec) × Nat := readLoopW (s.reader.data.length + 2) s

/-- Several calls of `readValue`. -/
def SDec.callsW : Nat → SDec → (List RV × SDec) × Nat
  | 0, s => (([], s), 0)
  | n + 1, s =>
    let x := s.readValueW
    let y := SDec.callsW n x.1.2
    ((x.1.1 :: y.1.1, y.1.2), x.2 + y.2)

end JC

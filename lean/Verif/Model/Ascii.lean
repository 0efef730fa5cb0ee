import Verif.Model.Basic
/-!
Model of `/repo/ascii.go`: word-at-a-time ASCII checks.

Unsafe loads are modelled as little-endian combination of the bytes at the
loaded positions (the code's result does not depend on the byte order, since
every check is per byte; only the 3-byte case mixes widths and is written
little-endian as in the Go source).
-/
namespace JC

/-- Little-endian value of a block of bytes (the unsafe loads in `/repo/ascii.go`). -/
def leNat : Bytes → Nat
  | [] => 0
  | b :: bs => b.toNat + 256 * leNat bs

/-- `/repo/ascii.go:93, 99`: `(^uint64(0)) / 255`. -/
def L64 : UInt64 := 0xffffffffffffffff / 255
/-- `/repo/ascii.go:94, 100`: `hasLessConstL64 * 128`. -/
def R64 : UInt64 := L64 * 128
/-- `/repo/ascii.go:96, 102`. -/
def L32 : UInt32 := 0xffffffff / 255
/-- `/repo/ascii.go:97, 103`. -/
def R32 : UInt32 := L32 * 128

/-- `/repo/ascii.go:107-109`. -/
def hasLess64 (x n : UInt64) : Bool := ((x - L64 * n) &&& ~~~x &&& R64) != 0
/-- `/repo/ascii.go:112-114`. -/
def hasLess32 (x n : UInt32) : Bool := ((x - L32 * n) &&& ~~~x &&& R32) != 0
/-- `/repo/ascii.go:117-119`. -/
def hasMore64 (x n : UInt64) : Bool := (((x + L64 * (127 - n)) ||| x) &&& R64) != 0
/-- `/repo/ascii.go:122-124`. -/
def hasMore32 (x n : UInt32) : Bool := (((x + L32 * (127 - n)) ||| x) &&& R32) != 0

/-- A 64-bit load. -/
def load64 (b : Bytes) : UInt64 := UInt64.ofNat (leNat (b.take 8))
/-- A 32-bit load. -/
def load32 (b : Bytes) : UInt32 := UInt32.ofNat (leNat (b.take 4))
/-- A 16-bit load, widened. -/
def load16 (b : Bytes) : UInt32 := UInt32.ofNat (leNat (b.take 2))
/-- An 8-bit load, widened. -/
def load8 (b : Bytes) : UInt32 := UInt32.ofNat (leNat (b.take 1))

/-- The tail of `asciiValid` after the 8-byte loop: `/repo/ascii.go:24-43`.
The argument is the slice from position `i` on, so `n` is its length. -/
def asciiValidTail4 (b : Bytes) : Bool :=
  match b.length with
  | 3 => ((load8 b ||| (load16 (b.drop 1) <<< 8)) &&& 0x80808080) == 0
  | 2 => (load16 b &&& 0x80808080) == 0
  | 1 => (load8 b &&& 0x80808080) == 0
  | _ => true

/-- `/repo/ascii.go:24-30` then the `switch`. -/
def asciiValidTail (b : Bytes) : Bool :=
  if b.length ≥ 4 then
    if (load32 b &&& 0x80808080) != 0 then false else asciiValidTail4 (b.drop 4)
  else asciiValidTail4 b

/-- The 8-byte loop of `asciiValid`, `/repo/ascii.go:16-22`, one iteration per
eight bytes (`i` and `n` are the position and length of the remaining slice). -/
def asciiValid : Bytes → Bool
  | b0 :: b1 :: b2 :: b3 :: b4 :: b5 :: b6 :: b7 :: rest =>
    if (load64 [b0, b1, b2, b3, b4, b5, b6, b7] &&& 0x8080808080808080) != 0 then false
    else asciiValid rest
  | b => asciiValidTail b

/-- `/repo/ascii.go:77-88`. -/
def asciiValidPrintTail4 (b : Bytes) : Bool :=
  let fin (x : UInt32) : Bool := !hasLess32 x 0x20 && !hasMore32 x 0x7e
  match b.length with
  | 3 => fin ((0x20000000 : UInt32) ||| load8 b ||| (load16 (b.drop 1) <<< 8))
  | 2 => fin ((0x20200000 : UInt32) ||| load16 b)
  | 1 => fin ((0x20202000 : UInt32) ||| load8 b)
  | _ => true

/-- `/repo/ascii.go:69-75` then the `switch`. -/
def asciiValidPrintTail (b : Bytes) : Bool :=
  if b.length ≥ 4 then
    if hasLess32 (load32 b) 0x20 || hasMore32 (load32 b) 0x7e then false
    else asciiValidPrintTail4 (b.drop 4)
  else asciiValidPrintTail4 b

/-- `/repo/ascii.go:51-89`; the initial test for `n == 0` is the empty tail. -/
def asciiValidPrint : Bytes → Bool
  | b0 :: b1 :: b2 :: b3 :: b4 :: b5 :: b6 :: b7 :: rest =>
    let x := load64 [b0, b1, b2, b3, b4, b5, b6, b7]
    if hasLess64 x 0x20 || hasMore64 x 0x7e then false
    else asciiValidPrint rest
  | b => asciiValidPrintTail b

end JC

import Verif.Model.Encode
/-!
Model of `encodeFloat` (`/repo/encode.go:96-130`) from the digits of a float on: the choice of the format, and what
`strconv.AppendFloat` makes of the digits in either format.  In `Model/Encode.lean` the format and the text are given.

A finite float is represented by its shortest decimal, as `strconv` computes it for precision -1 and the bit size of
the type: the decimal with the fewest digits that is rounded to it.  That computation is not modelled.
-/
namespace JC

/-- A finite float: its sign, the digits of its shortest decimal and the position of the point, so that the value is
`0.ds × 10^pt`.  Zero has no digits (`decimalSlice` of `strconv`). -/
structure Dec10 where
  neg : Bool
  ds : Bytes
  pt : Int
deriving DecidableEq, Repr

/-- What `strconv` returns: digits, the first and the last of which are not zero. -/
structure Dec10.Ok (x : Dec10) : Prop where
  digits : ∀ c ∈ x.ds, Spec.Digit c
  first : x.ds.head? ≠ some 0x30
  last : x.ds.getLast? ≠ some 0x30
  zero : x.ds = [] → x.pt = 0

/-- The sign. -/
def Dec10.sign (x : Dec10) : Bytes := if x.neg then [0x2d] else []

/-- The format chosen at `/repo/encode.go:109-116`: true is `'e'`.  The comparisons with `1e-6` and `1e21` are those of
floats; both are their own shortest decimals and shortest decimals are ordered like the floats, so that they are the
comparisons of the decimals, which depend on the position of the point only. -/
def Dec10.expo (x : Dec10) : Bool := x.ds ≠ [] ∧ (x.pt < -5 ∨ 22 ≤ x.pt)

/-- The exponent in format `'e'`: a sign and at least two digits. -/
def fmtExp (e : Int) : Bytes :=
  (if e < 0 then 0x2d else 0x2b) :: (if e.natAbs < 10 then [0x30, UInt8.ofNat (0x30 + e.natAbs)] else fmtNat e.natAbs)

/-- `strconv.AppendFloat(b, f, 'e', -1, bits)`: a digit, a point and the others if there are, and the exponent. -/
def Dec10.fmtE (x : Dec10) : Bytes :=
  x.sign ++ [x.ds.headD 0x30] ++ (if x.ds.length > 1 then 0x2e :: x.ds.drop 1 else []) ++
    0x65 :: fmtExp (if x.ds.length = 0 then 0 else x.pt - 1)

/-- The digit `i` places behind the point. -/
def Dec10.place (x : Dec10) (i : Nat) : UInt8 :=
  if 0 ≤ x.pt + i ∧ x.pt + i < x.ds.length then x.ds.getD (x.pt + i).toNat 0x30 else 0x30

/-- `strconv.AppendFloat(b, f, 'f', -1, bits)`: the digits before the point, filled up with zeros, and those behind it
if there are. -/
def Dec10.fmtF (x : Dec10) : Bytes :=
  let prec := (x.ds.length - x.pt).toNat
  x.sign ++
    (if x.pt > 0 then x.ds.take x.pt.toNat ++ List.replicate (x.pt.toNat - x.ds.length) 0x30 else [0x30]) ++
    (if prec > 0 then 0x2e :: (List.range prec).map x.place else [])

/-- What `AppendFloat` appends in the format that is chosen, `/repo/encode.go:118`. -/
def Dec10.text (x : Dec10) : Bytes := if x.expo then x.fmtE else x.fmtF

end JC

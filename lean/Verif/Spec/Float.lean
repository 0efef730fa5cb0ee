import Verif.Spec.Ints
/-!
How floats are to be written (ECMAScript, `Number::toString`), and what a number in a text is worth (property C94).
-/
namespace JC.Spec

/-- A minus sign. -/
def minus (neg : Bool) : Bytes := if neg then [0x2d] else []

/-- Zeros. -/
def zeros (n : Nat) : Bytes := List.replicate n 0x30

/-- The sign of an exponent. -/
def expSign (z : Int) : UInt8 := if z < 0 then 0x2d else 0x2b

/-- The ECMAScript rules for the number `0.ds × 10^n` with `k` digits: if `k ≤ n ≤ 21` the digits and zeros; if
`0 < n ≤ 21` a point among the digits; if `-6 < n ≤ 0` zeros before the digits; otherwise an exponent `n - 1`, without
leading zeros. -/
inductive Es6 (neg : Bool) : Bytes → Int → Bytes → Prop
  | zero (n : Int) : Es6 neg [] n (minus neg ++ [0x30])
  | whole (ds : Bytes) (n : Nat) : ds ≠ [] → ds.length ≤ n → n ≤ 21 → Es6 neg ds n (minus neg ++ ds ++ zeros (n - ds.length))
  | point (l r : Bytes) : l ≠ [] → r ≠ [] → l.length ≤ 21 → Es6 neg (l ++ r) l.length (minus neg ++ l ++ 0x2e :: r)
  | small (ds : Bytes) (n : Nat) : ds ≠ [] → n < 6 → Es6 neg ds (-(n : Int)) (minus neg ++ [0x30, 0x2e] ++ zeros n ++ ds)
  | exp1 (d : UInt8) (n : Int) (ex : Bytes) : n ≤ -6 ∨ 21 < n → JInt ex → natVal ex = (n - 1).natAbs →
      Es6 neg [d] n (minus neg ++ [d] ++ 0x65 :: expSign (n - 1) :: ex)
  | exp (d : UInt8) (r : Bytes) (n : Int) (ex : Bytes) : r ≠ [] → n ≤ -6 ∨ 21 < n → JInt ex → natVal ex = (n - 1).natAbs →
      Es6 neg (d :: r) n (minus neg ++ [d] ++ 0x2e :: r ++ 0x65 :: expSign (n - 1) :: ex)

/-- Is the byte a digit? -/
def digitB (c : UInt8) : Bool := 0x30 ≤ c && c ≤ 0x39

/-- The sign of a number, and the rest. -/
def readSign : Bytes → Bool × Bytes
  | 0x2d :: t => (true, t)
  | t => (false, t)

/-- The digits behind the point, and the rest. -/
def readFrac : Bytes → Bytes × Bytes
  | 0x2e :: t => (t.takeWhile digitB, t.dropWhile digitB)
  | t => ([], t)

/-- The exponent. -/
def readExp : Bytes → Int
  | 0x65 :: 0x2b :: ds => natVal ds
  | 0x65 :: 0x2d :: ds => -(natVal ds : Int)
  | _ => 0

/-- What a number is worth: sign, `m` and `z` for `m × 10^z`. -/
def readNum (t : Bytes) : Bool × Nat × Int :=
  let s := readSign t
  let i := s.2.takeWhile digitB
  let f := readFrac (s.2.dropWhile digitB)
  (s.1, natVal (i ++ f.1), readExp f.2 - f.1.length)

/-- `m × 10^z = m' × 10^z'` -/
def SameNum (m : Nat) (z : Int) (m' : Nat) (z' : Int) : Prop :=
  m * 10 ^ (z - min z z').toNat = m' * 10 ^ (z' - min z z').toNat

/-- `m × 10^z < 10^k` -/
def Below (m : Nat) (z k : Int) : Prop := m * 10 ^ (z - min z k).toNat < 10 ^ (k - min z k).toNat

end JC.Spec

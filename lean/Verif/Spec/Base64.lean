import Verif.Model.Basic
/-!
Specification: RFC 4648 §4, on bits.
-/
namespace JC.Spec
open JC

/-- The standard alphabet. -/
def alphabet : Bytes := bs! "ABCDEFGHIJKLMNOPQRSTUVWXYZabcdefghijklmnopqrstuvwxyz0123456789+/"

/-- The bits of a byte, most significant first. -/
def bits (c : UInt8) : List Nat := [7, 6, 5, 4, 3, 2, 1, 0].map fun i => c.toNat / 2 ^ i % 2

/-- Groups of six bits, the last one filled up with zeroes, as characters. -/
def sextets : List Nat → Bytes
  | [] => []
  | a :: b :: c :: d :: e :: f :: r => alphabet.getD (a * 32 + b * 16 + c * 8 + d * 4 + e * 2 + f) 0 :: sextets r
  | [a, b, c, d] => [alphabet.getD (a * 32 + b * 16 + c * 8 + d * 4) 0]
  | [a, b] => [alphabet.getD (a * 32 + b * 16) 0]
  | _ => []

/-- The base64 text of some bytes: the sextets, and `=` up to a multiple of four. -/
def base64 (s : Bytes) : Bytes :=
  let t := sextets (s.flatMap bits)
  t ++ List.replicate ((4 - t.length % 4) % 4) 0x3d

end JC.Spec

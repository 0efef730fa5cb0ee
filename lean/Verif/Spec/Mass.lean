import Verif.Spec.Decode
/-!
How much memory the contents of a destination take, and how fast they may grow with the text (property C96).
-/
namespace JC.Spec
open JC

/-- What a map key takes.  What a method made of a text is not counted. -/
def keyMass : MK → Nat
  | .str s => s.length + 1
  | _ => 1

mutual

/-- What the contents of a destination take: one for each value, element, field, entry, pointer and interface, and
one for each byte of strings, numbers, byte slices and messages.  The listed memory behind slices counts. -/
def mass : DV → Nat
  | .number s | .string s | .raw s => s.length + 1
  | .bytes s spare => s.length + spare.length + 1
  | .iface _ v => mass v + 1
  | .slice xs spare => massL xs + massL spare + 1
  | .array xs => massL xs + 1
  | .map es => massE es + 1
  | .ptr v => mass v + 1
  | .struct fs => massL fs + 1
  | .user (some s) => s.length + 1
  | _ => 1

def massL : List DV → Nat
  | [] => 0
  | v :: vs => mass v + massL vs

def massE : List (MK × DV) → Nat
  | [] => 0
  | (k, v) :: es => keyMass k + mass v + massE es

end

mutual

/-- What a new variable of the type takes. -/
def room : Ty → Nat
  | .array n t => n * room t + 1
  | .struct fs => roomF fs + 1
  | .quoted t | .quotedInt t => room t
  | _ => 1

def roomF : List (Bytes × Ty) → Nat
  | [] => 0
  | (_, t) :: fs => room t + roomF fs

end

mutual

/-- What each byte of the text adds at most to a variable of the type, if it adds at most `R` to what is behind
pointers in interfaces.  Each element, entry and value behind a pointer, for which one byte is enough, may be a new
variable.  Numbers and messages are kept as they are, and an invalid byte of a string becomes three bytes. -/
def rate (R : Nat) : Ty → Nat
  | .slice t | .array _ t | .ptr t => rate R t + room t
  | .map _ t => max 3 (rate R t + room t)
  | .mapSI => max 3 R + 1
  | .struct fs => rateF R fs
  | .quoted t | .quotedInt t => 3 * rate R t
  | .iface | .ifaceM _ => max 3 R
  | .string | .textU _ | .bytes | .mapRaw => 3
  | .number | .raw | .jsonU _ => 1
  | _ => 0

def rateF (R : Nat) : List (Bytes × Ty) → Nat
  | [] => 0
  | (_, t) :: fs => max (rate R t) (rateF R fs)

end

/-- The largest rate of the types that pointers in interfaces lead to, if they nest at most `n` deep. -/
def reach (S : List Ty) : Nat → Nat
  | 0 => 3
  | n + 1 => (S.map (rate (reach S n))).foldr max 3

end JC.Spec

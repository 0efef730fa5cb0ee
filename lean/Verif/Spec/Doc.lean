import Verif.Spec.Grammar
/-!
Specification: the whitespace-free text of a document, removal of
insignificant whitespace from bytes, and the tokens of a document with their
positions.
-/
namespace JC.Spec
open JC

/-- Remove insignificant whitespace: drop whitespace bytes outside string
literals. The flags say whether we are inside a string and just after a
backslash. -/
def stripWs : Bool → Bool → Bytes → Bytes
  | _, _, [] => []
  | false, _, c :: t =>
    if c = 0x20 ∨ c = 0x09 ∨ c = 0x0a ∨ c = 0x0d then stripWs false false t
    else c :: stripWs (c == 0x22) false t
  | true, true, c :: t => c :: stripWs true false t
  | true, false, c :: t => c :: stripWs (c != 0x22) (c == 0x5c) t

mutual
/-- The text of a document without any insignificant whitespace. -/
def compact : Json → Bytes
  | .null => [0x6e, 0x75, 0x6c, 0x6c]
  | .tru => [0x74, 0x72, 0x75, 0x65]
  | .fls => [0x66, 0x61, 0x6c, 0x73, 0x65]
  | .num s => s
  | .str s => s
  | .arr xs => 0x5b :: (compactElems xs ++ [0x5d])
  | .obj ms => 0x7b :: (compactMembers ms ++ [0x7d])
def compactElems : List Json → Bytes
  | [] => []
  | [j] => compact j
  | j :: k :: xs => compact j ++ 0x2c :: compactElems (k :: xs)
def compactMembers : List (Bytes × Json) → Bytes
  | [] => []
  | [(k, j)] => k ++ 0x3a :: compact j
  | (k, j) :: m :: ms => k ++ 0x3a :: (compact j ++ 0x2c :: compactMembers (m :: ms))
end

/-- A token of a document with its position: the number of enclosing
containers, the position of the enclosing element or member in the innermost
one, and whether it is an object key. `delim` is the delimiter byte, or 0. -/
structure SpecTok where
  delim : UInt8
  value : Bytes
  depth : Nat
  index : Nat
  isKey : Bool
deriving DecidableEq, Repr

mutual
/-- Tokens of a document at depth `d`, position `i`. -/
def tokens (d i : Nat) : Json → List SpecTok
  | .null => [⟨0, [0x6e, 0x75, 0x6c, 0x6c], d, i, false⟩]
  | .tru => [⟨0, [0x74, 0x72, 0x75, 0x65], d, i, false⟩]
  | .fls => [⟨0, [0x66, 0x61, 0x6c, 0x73, 0x65], d, i, false⟩]
  | .num s => [⟨0, s, d, i, false⟩]
  | .str s => [⟨0, s, d, i, false⟩]
  | .arr xs => ⟨0x5b, [0x5b], d, i, false⟩ :: (tokensElems (d + 1) 0 xs ++ [⟨0x5d, [0x5d], d, i, false⟩])
  | .obj ms => ⟨0x7b, [0x7b], d, i, false⟩ :: (tokensMembers (d + 1) 0 ms ++ [⟨0x7d, [0x7d], d, i, false⟩])
def tokensElems (d i : Nat) : List Json → List SpecTok
  | [] => []
  | [j] => tokens d i j
  | j :: k :: xs => tokens d i j ++ ⟨0x2c, [0x2c], d, i, false⟩ :: tokensElems d (i + 1) (k :: xs)
def tokensMembers (d i : Nat) : List (Bytes × Json) → List SpecTok
  | [] => []
  | [(k, j)] => ⟨0, k, d, i, true⟩ :: ⟨0x3a, [0x3a], d, i, false⟩ :: tokens d i j
  | (k, j) :: m :: ms =>
    ⟨0, k, d, i, true⟩ :: ⟨0x3a, [0x3a], d, i, false⟩ ::
      (tokens d i j ++ ⟨0x2c, [0x2c], d, i, false⟩ :: tokensMembers d (i + 1) (m :: ms))
end

mutual
/-- The document contains no empty object. -/
def NoEmptyObj : Json → Prop
  | .arr xs => NoEmptyObjL xs
  | .obj ms => ms ≠ [] ∧ NoEmptyObjM ms
  | _ => True
def NoEmptyObjL : List Json → Prop
  | [] => True
  | j :: xs => NoEmptyObj j ∧ NoEmptyObjL xs
def NoEmptyObjM : List (Bytes × Json) → Prop
  | [] => True
  | (_, j) :: ms => NoEmptyObj j ∧ NoEmptyObjM ms
end

mutual
/-- What the Tokenizer's key flag is after a value entered with flag `k`: `{` sets
it and only `:` clears it, so an empty object leaves it set (C12). -/
def after (k : Bool) : Json → Bool
  | .null | .tru | .fls | .num _ | .str _ => k
  | .arr xs => afterE k xs
  | .obj ms => afterM ms
def afterE (k : Bool) : List Json → Bool
  | [] => k
  | j :: xs => afterE (after k j) xs
def afterM : List (Bytes × Json) → Bool
  | [] => true
  | [(_, j)] => after false j
  | (_, _) :: m :: ms => afterM (m :: ms)
end

/-- The second list has the same length and flags every key that the first
list flags. -/
def KeyLe : List SpecTok → List SpecTok → Prop
  | [], [] => True
  | a :: as, b :: bs => (a.isKey = true → b.isKey = true) ∧ KeyLe as bs
  | _, _ => False

theorem KeyLe.append : ∀ {a b c d : List SpecTok}, KeyLe a b → KeyLe c d → KeyLe (a ++ c) (b ++ d)
  | [], [], _, _, _, h => h
  | _ :: _, _ :: _, _, _, h1, h2 => ⟨h1.1, KeyLe.append h1.2 h2⟩

/-- ScalarTok tokens. -/
def ScalarTok (v : Bytes) : Prop :=
  v = [0x6e, 0x75, 0x6c, 0x6c] ∨ v = [0x74, 0x72, 0x75, 0x65] ∨ v = [0x66, 0x61, 0x6c, 0x73, 0x65] ∨
    JNumber v ∨ JString v

/-- Tokens of JSON: scalars and the six delimiters. -/
def Lexeme (v : Bytes) : Prop :=
  ScalarTok v ∨ v ∈ ([[0x7b], [0x7d], [0x5b], [0x5d], [0x3a], [0x2c]] : List Bytes)

/-- `Lexes vs b rest`: `b` starts with the tokens `vs`, each after optional
whitespace, and `rest` is what follows the last of them. -/
inductive Lexes : List Bytes → Bytes → Bytes → Prop
  | nil (b : Bytes) : Lexes [] b b
  | cons (w v r rest : Bytes) (vs : List Bytes) : Ws w → Lexeme v → Lexes vs r rest →
      Lexes (v :: vs) (w ++ (v ++ r)) rest

/-- The open brackets (innermost first) after one more token; `none` when the
token is a closer that does not match. -/
def opened (st : Bytes) (v : Bytes) : Option Bytes :=
  if v = [0x5b] then some (0x5b :: st)
  else if v = [0x7b] then some (0x7b :: st)
  else if v = [0x5d] then match st with | 0x5b :: s => some s | _ => none
  else if v = [0x7d] then match st with | 0x7b :: s => some s | _ => none
  else some st

/-- The open brackets after a sequence of tokens. -/
def openedAll : Bytes → List Bytes → Option Bytes
  | st, [] => some st
  | st, v :: vs => match opened st v with | none => none | some st' => openedAll st' vs

end JC.Spec

import Verif.Model.Decode
import Verif.Spec.Strings
/-!
Specification of decoding: assumptions on library functions and classes of types
and contents of destinations.
-/
namespace JC.Spec
open JC

/-- What is assumed of the Go library: the text of a duration or an RFC 3339 time
contains no control characters and no backslash. -/
structure LibOk (l : Lib) : Prop where
  duration : ∀ s z, l.parseDuration s = some z → ∀ c ∈ s, 0x20 ≤ c ∧ c ≠ 0x5c
  time : ∀ s z, l.parseTime s = some z → ∀ c ∈ s, 0x20 ≤ c ∧ c ≠ 0x5c

/-- `KeyMeans raw s`: the string literal `raw` stands for the text `s`. -/
def KeyMeans (raw s : Bytes) : Prop := ∃ i rs, raw = 0x22 :: (i ++ [0x22]) ∧ StrMeans i rs ∧ s = utf8s rs

mutual
/-- `Denotes c j v`: `v` is the tree of generic Go values for the document `j`.
Numbers are `json.Number`s with the source text if `c.useNumber`, otherwise
`float64`s. An object stands for the map that sends each key to what the last
member with that key denotes; `DV` lists a map by strictly ascending keys. -/
def Denotes (c : DCfg) : Json → DV → Prop
  | .null, v => v = .ifaceNil
  | .tru, v => v = .iface .bool (.bool true)
  | .fls, v => v = .iface .bool (.bool false)
  | .num s, v =>
    if c.useNumber then v = .iface .number (.number s)
    else ∃ f, c.lib.parseFloat false s = some f ∧ v = .iface .float64 (.float f)
  | .str raw, v => ∃ s, KeyMeans raw s ∧ v = .iface .string (.string s)
  | .arr xs, v => ∃ vs, DenotesL c xs vs ∧ v = .iface (.slice .iface) (.slice vs [])
  | .obj ms, v => ∃ es : List (MK × DV), v = .iface .mapSI (.map es) ∧ AllDenote c ms ∧
      es.Pairwise (fun a b => a.1.text < b.1.text) ∧ (∀ e ∈ es, ∃ k, e.1 = .str k) ∧
      ∀ k w, (MK.str k, w) ∈ es ↔ DenotesM c ms k w
/-- elementwise -/
def DenotesL (c : DCfg) : List Json → List DV → Prop
  | [], vs => vs = []
  | j :: xs, vs => ∃ v vs', vs = v :: vs' ∧ Denotes c j v ∧ DenotesL c xs vs'
/-- every member denotes something -/
def AllDenote (c : DCfg) : List (Bytes × Json) → Prop
  | [] => True
  | (_, j) :: ms => (∃ v, Denotes c j v) ∧ AllDenote c ms
/-- the last member with key `k` denotes `w` -/
def DenotesM (c : DCfg) : List (Bytes × Json) → Bytes → DV → Prop
  | [], _, _ => False
  | (raw, j) :: ms, k, w => DenotesM c ms k w ∨ (KeyMeans raw k ∧ Denotes c j w ∧ ∀ m ∈ ms, ¬ KeyMeans m.1 k)
end

mutual
/-- The numbers in a document, by their text. -/
def nums : Json → List Bytes
  | .num s => [s]
  | .arr xs => numsL xs
  | .obj ms => numsM ms
  | _ => []
def numsL : List Json → List Bytes
  | [] => []
  | j :: xs => nums j ++ numsL xs
def numsM : List (Bytes × Json) → List Bytes
  | [] => []
  | (_, j) :: ms => nums j ++ numsM ms
end

/-- A step into an array or an object. -/
inductive Step where
  | idx (i : Nat)
  | key (k : Bytes)

/-- `j` is the value of the last member with key `k`. -/
def LastMember (ms : List (Bytes × Json)) (k : Bytes) (j : Json) : Prop :=
  ∃ a raw b, ms = a ++ (raw, j) :: b ∧ KeyMeans raw k ∧ ∀ m ∈ b, ¬ KeyMeans m.1 k

/-- `JAt j p x`: following `p` in the document `j` leads to `x`. -/
inductive JAt : Json → List Step → Json → Prop
  | here (j : Json) : JAt j [] j
  | idx (xs : List Json) (i : Nat) (x y : Json) (p : List Step) : xs[i]? = some x → JAt x p y →
      JAt (.arr xs) (.idx i :: p) y
  | key (ms : List (Bytes × Json)) (k : Bytes) (x y : Json) (p : List Step) : LastMember ms k x → JAt x p y →
      JAt (.obj ms) (.key k :: p) y

/-- `VAt v p w`: following `p` in the tree of generic Go values `v` leads to `w`. -/
inductive VAt : DV → List Step → DV → Prop
  | here (v : DV) : VAt v [] v
  | idx (vs spare : List DV) (i : Nat) (x y : DV) (p : List Step) : vs[i]? = some x → VAt x p y →
      VAt (.iface (.slice .iface) (.slice vs spare)) (.idx i :: p) y
  | key (es : List (MK × DV)) (k : Bytes) (x y : DV) (p : List Step) : (MK.str k, x) ∈ es → VAt x p y →
      VAt (.iface .mapSI (.map es)) (.key k :: p) y

/-- The new contents when `null` is decoded: nil for pointers, maps, slices and
interfaces, otherwise what was there. -/
def nulled : Ty → DV → DV
  | .bytes, _ => .bytesNil
  | .iface, _ | .ifaceM _, _ => .ifaceNil
  | .slice _, _ => .sliceNil
  | .map _ _, _ | .mapSI, _ | .mapRaw, _ => .mapNil
  | .ptr _, _ => .ptrNil
  | .quoted t, v | .quotedInt t, v => nulled t v
  | _, v => v

end JC.Spec

namespace JC

mutual
/-- Types for which the tree determines the result: no raw messages and no
`Unmarshaler`s, which get to see the text. -/
def Ty.tree : Ty → Prop
  | .raw | .mapRaw | .jsonU _ => False
  | .slice t | .array _ t | .map _ t | .ptr t | .quoted t | .quotedInt t => t.tree
  | .struct fs => treeF fs
  | _ => True
def treeF : List (Bytes × Ty) → Prop
  | [] => True
  | (_, t) :: fs => t.tree ∧ treeF fs
end

mutual
/-- `Held Q v n`: pointers in interfaces in `v` nest at most `n` deep and their
element types satisfy `Q`. -/
def Held (Q : Ty → Prop) : DV → Nat → Prop
  | .slice xs sp, n => HeldL Q xs n ∧ HeldL Q sp n
  | .array xs, n => HeldL Q xs n
  | .struct xs, n => HeldL Q xs n
  | .ptr v, n => Held Q v n
  | .iface (.ptr t) (.ptr w), n => Q t ∧ match n with
    | 0 => False
    | m + 1 => Held Q w m
  | _, _ => True
def HeldL (Q : Ty → Prop) : List DV → Nat → Prop
  | [], _ => True
  | x :: xs, n => Held Q x n ∧ HeldL Q xs n
end

mutual
/-- Types without arrays. -/
def Ty.noArr : Ty → Prop
  | .array _ _ => False
  | .slice t | .map _ t | .ptr t | .quoted t | .quotedInt t => t.noArr
  | .struct fs => noArrF fs
  | _ => True
def noArrF : List (Bytes × Ty) → Prop
  | [] => True
  | (_, t) :: fs => t.noArr ∧ noArrF fs
end

end JC

import Verif.Model.Decode
/-!
`decodeSlice` on memory, `/repo/decode.go:570-647`.

`Model/Decode.lean` takes the memory of a slice to be a list that grows. In Go a slice is a header of three words that
points into an array, several slices can share an array, and `decodeSlice` computes the address of each element and
hands it to the decoder of elements without a check. Here the arrays are in a heap, and an access outside of an array
is a result of its own.

Simplifications: cells hold whole elements (addresses in bytes are in `elemAddr`), and what an element refers to
belongs to the element.
-/
namespace JC

/-- Where the `data` of a slice points: nowhere, to `empty` (`/repo/decode.go:567-568`), or to an array of the heap. -/
inductive Data where
  | nil
  | empty
  | at (a : Nat)
deriving DecidableEq, Repr

/-- `slice`, `/repo/codec.go:924-928`; `off` is the number of elements of the array that lie before `data`. -/
structure Hdr where
  data : Data
  off : Nat
  len : Nat
  cap : Nat
deriving DecidableEq, Repr

/-- The arrays. -/
abbrev SHeap := List (List DV)

/-- The memory at `data + i*size`; `none` is memory that the array does not have. -/
def SHeap.load (h : SHeap) (s : Hdr) (i : Nat) : Option DV :=
  match s.data with
  | .nil | .empty => none
  | .at a => (h[a]?).bind fun xs => xs[s.off + i]?

/-- Change the memory at `data + i*size`. -/
def SHeap.store (h : SHeap) (s : Hdr) (i : Nat) (v : DV) : SHeap :=
  match s.data with
  | .nil | .empty => h
  | .at a => h.modify a fun xs => xs.set (s.off + i) v

/-- The elements that a slice has room for. -/
def SHeap.cells (h : SHeap) (s : Hdr) : List DV :=
  match s.data with
  | .nil | .empty => []
  | .at a => ((h[a]?.getD []).drop s.off).take s.cap

/-- `extendSlice`, `/repo/reflect.go:11-20` (and `/repo/reflect_optimize.go:18-30`): an array of `n` zero values, and
the elements of the slice copied to it. -/
def extendSlice (z : DV) (h : SHeap) (s : Hdr) (n : Nat) : SHeap × Hdr :=
  let old := ((h.cells s).take s.len).take n
  (h ++ [old ++ List.replicate (n - old.length) z], ⟨.at h.length, 0, s.len, n⟩)

/-- The memory when a decoding function comes back, or `fault`: it used memory that is not there. -/
inductive MRes where
  | ok (h : SHeap) (s : Hdr) (r : Bytes)
  | err (h : SHeap) (s : Hdr) (r : Bytes) (e : Err)
  | crash (c : Crash)
  | fault

/-- Room for one more element, `/repo/decode.go:617-627`. -/
def roomFor (z : DV) (h : SHeap) (s : Hdr) : SHeap × Hdr :=
  if s.len = s.cap then extendSlice z h s (if s.cap = 0 then 10 else s.cap * 2) else (h, s)

/-- The loop of `decodeSlice`, `/repo/decode.go:597-646`. -/
def sliceLoopM (dec : Dec) (z : DV) (input : Bytes) : Nat → SHeap → Hdr → Bytes → MRes
  | 0, _, _, _ => .crash .fuel
  | n + 1, h, s, b =>
    let b := skipSpaces b
    let elem := fun b =>
      let hs := roomFor z h s
      match hs.1.load hs.2 hs.2.len with
      | none => .fault
      | some x =>
        match dec b x with
        | .crash c => .crash c
        | .err x _ e =>
          match parseValue input with
          | .fail r e2 => .err (hs.1.store hs.2 hs.2.len x) hs.2 r e2
          | .ok _ r => .err (hs.1.store hs.2 hs.2.len x) hs.2 r e
        | .ok x r => sliceLoopM dec z input n (hs.1.store hs.2 hs.2.len x) { hs.2 with len := hs.2.len + 1 } r
    if b.head? = some (ch! ']') then
      .ok h (if s.data = .nil then { s with data := .empty } else s) b.tail
    else if s.len = 0 then elem b
    else match b with
      | [] => .err h s b .syntax
      | c :: t => if c ≠ ch! ',' then .err h s b .syntax else elem (skipSpaces t)

/-- `decodeSlice`, `/repo/decode.go:570-647`, for elements that are no bytes. -/
def decodeSliceM (dec : Dec) (z : DV) (h : SHeap) (s : Hdr) (b : Bytes) : MRes :=
  if hasNullPrefix b then .ok h ⟨.nil, 0, 0, 0⟩ (b.drop 4)
  else match b with
    | [] => .err h s (inputError b).1 (inputError b).2
    | c :: t =>
      if b.length < 2 ∨ c ≠ ch! '[' then .err h s (inputError b).1 (inputError b).2
      else sliceLoopM dec z b (b.length + 1) h { s with len := 0 } t

/-- `align`, `/repo/codec.go:822-827`. -/
def align (a size : Nat) : Nat :=
  if a ≠ 0 ∧ size % a ≠ 0 then (size / a + 1) * a else size

/-- The address of an element, `/repo/decode.go:533, 629` and `/repo/encode.go:390`: `size` is `alignedSize` of its
type (`/repo/codec.go:816-820`). -/
def elemAddr (p a size i : Nat) : Nat := p + i * align a size

end JC

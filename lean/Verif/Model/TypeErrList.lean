import Verif.Model.TypeErr
/-!
Model of the errors for values that do not fit in lists of plain values, maps of them, lists of such lists, pointers to them, and so on (property C98),
as `Model/TypeErr.lean` has them for plain values: the fields `Value` and `Type` of an `*UnmarshalTypeError`. The fields
`Struct` and `Field`, to which `decodeSlice` adds its type and the index (`/repo/decode.go:636-640`) and `decodeMap` its type and the key (717-719), are those of
`Model/Path.lean`. A list of `uint8` is not meant: Go has it for bytes, with a codec of its own.
-/
namespace JC

/-- Plain values, and slices of them, maps from strings to them and pointers to them at any depth. -/
inductive LTy where
  | plain (s : Scalar)
  | list (t : LTy)
  | ptr (t : LTy)
  | map (t : LTy)
deriving DecidableEq, Repr

/-- The type of the destination. -/
def LTy.ty : LTy → Ty
  | .plain s => s.ty
  | .list t => .slice t.ty
  | .ptr t => .ptr t.ty
  | .map t => .map .str t.ty

/-- Is it a pointer type? -/
def LTy.isPtr : LTy → Bool
  | .ptr _ => true
  | _ => false

/-- Is it a list or map type? -/
def LTy.isCont : LTy → Bool
  | .list _ | .map _ => true
  | _ => false

/-- An error: one of a plain value, or that of `unmarshalTypeError`, `/repo/codec.go:951-953`, with the type of a list
or map and the bytes it is given. -/
inductive LErr where
  | of (e : TErr)
  | kind (t : LTy) (near : Bytes)
deriving DecidableEq, Repr

/-- The field `Value`; `q` is `strconv.Quote`. -/
def LErr.value (q : Bytes → Bytes) : LErr → Bytes
  | .of e => e.value q
  | .kind _ near => q (prefix32 near)

/-- The error without its fields. -/
def LErr.erase : LErr → Err
  | .of e => e.erase
  | .kind _ _ => .unmarshalType

/-- Result of a decoding function with its error. -/
inductive LRes where
  | ok (v : DV) (r : Bytes)
  | err (v : DV) (r : Bytes) (e : LErr)
  | crash (c : Crash)

/-- The result with the error erased. -/
def LRes.erase : LRes → DRes
  | .ok v r => .ok v r
  | .err v r e => .err v r e.erase
  | .crash c => .crash c

/-- The result of a decoding function called by another. -/
def LRes.map (f : DV → DV) : LRes → LRes
  | .ok v r => .ok (f v) r
  | .err v r e => .err (f v) r e
  | .crash c => .crash c

/-- The result for a plain value. -/
def TRes.lift : TRes → LRes
  | .ok v r => .ok v r
  | .err v r e => .err v r (.of e)
  | .crash c => .crash c

/-- `inputError`, `/repo/codec.go:972-981`, with the type of a list. -/
def inputErrorL (b : Bytes) (t : LTy) : Bytes × LErr :=
  if b.length = 0 then ([], .of (.other .syntax))
  else match parseValue b with
    | .fail r e => (r, .of (.other e))
    | .ok _ r => (skipSpaces r, .kind t b)

/-- `return inputError(b, t)` with the destination untouched. -/
def inputErrL (t : LTy) (b : Bytes) (p : DV) : LRes := .err p (inputErrorL b t).1 (inputErrorL b t).2

/-- The loop of `decodeSlice`, `/repo/decode.go:597-646`, as `sliceLoop`. -/
def sliceLoopL (dec : Bytes → DV → LRes) (zero : DV) (input : Bytes) : Nat → List DV → List DV → Bytes → LRes
  | 0, _, _, _ => .crash .fuel
  | n + 1, done, mem, b =>
    let b := skipSpaces b
    let elem := fun b =>
      match dec b (mem.headD zero) with
      | .crash c => .crash c
      | .err x _ e =>
        match parseValue input with
        | .fail r e2 => .err (.slice done (x :: mem.tail)) r (.of (.other e2))
        | .ok _ r => .err (.slice done (x :: mem.tail)) r e
      | .ok x r => sliceLoopL dec zero input n (done ++ [x]) mem.tail r
    if b.head? = some (ch! ']') then .ok (.slice done mem) b.tail
    else if done.isEmpty then elem b
    else match b with
      | [] => .err (.slice done mem) b (.of (.other .syntax))
      | c :: t => if c ≠ ch! ',' then .err (.slice done mem) b (.of (.other .syntax)) else elem (skipSpaces t)

/-- `decodeSlice`, `/repo/decode.go:570-647`, of type `t`. -/
def decodeSliceL (dec : Bytes → DV → LRes) (zero : DV) (t : LTy) (b : Bytes) (p : DV) : LRes :=
  if hasNullPrefix b then .ok .sliceNil (b.drop 4)
  else match b with
    | [] => inputErrL t b p
    | c :: u =>
      if b.length < 2 ∨ c ≠ ch! '[' then inputErrL t b p
      else sliceLoopL dec zero b (b.length + 1) [] (match p with | .slice xs sp => xs ++ sp | _ => []) u

/-- `decodePointer`, `/repo/decode.go:971-988`, as `decodePointer` of `Model/Decode.lean`. -/
def decodePointerL (elemPtr : Bool) (dec : Bytes → DV → LRes) (zero : DV) (b : Bytes) (p : DV) : LRes :=
  if hasNullPrefix b then
    match p with
    | .ptr v => if elemPtr then (dec b v).map .ptr else .ok .ptrNil (b.drop 4)
    | _ => .ok .ptrNil (b.drop 4)
  else (dec b (match p with | .ptr v => v | _ => zero)).map .ptr

/-- The loop of `decodeMap`, `/repo/decode.go:674-727`, as `mapLoopD`. -/
def mapLoopL (dec : Bytes → DV → LRes) (zero p : DV) (fresh : Bool) (input : Bytes) : Nat → Bool → List (MK × DV) → Bytes → LRes
  | 0, _, _, _ => .crash .fuel
  | n + 1, first, m, b =>
    let b := skipSpaces b
    if b.head? = some (ch! '}') then .ok (.map m) b.tail
    else
      let dest := if fresh then p else .map m
      match memberKey (decodeKey .str) first b with
      | .inl c => .crash c
      | .inr (.inl (r, e)) => .err dest r (.of (.other e))
      | .inr (.inr (kv, b)) =>
        match dec b zero with
        | .crash c => .crash c
        | .err _ _ e =>
          match parseValue input with
          | .fail r e2 => .err dest r (.of (.other e2))
          | .ok _ r => .err dest r e
        | .ok v r => mapLoopL dec zero p fresh input n false (mapSet (keyOf kv) v m) r

/-- `decodeMap`, `/repo/decode.go:649-728`, of type `t`, with strings as keys. -/
def decodeMapL (dec : Bytes → DV → LRes) (zero : DV) (t : LTy) (b : Bytes) (p : DV) : LRes :=
  if hasNullPrefix b then .ok .mapNil (b.drop 4)
  else match b with
    | [] => inputErrL t b p
    | c :: u =>
      if b.length < 2 ∨ c ≠ ch! '{' then inputErrL t b p
      else match p with
        | .map m => mapLoopL dec zero p false b (b.length + 1) true m u
        | _ => mapLoopL dec zero p true b (b.length + 1) true [] u

/-- The decoding function of a type, `/repo/codec.go:79-213` and 261-283. -/
def decL (l : Lib) : LTy → Bytes → DV → LRes
  | .plain s => fun b p => (decT l s b p).lift
  | .list t => decodeSliceL (decL l t) (zero t.ty) (.list t)
  | .ptr t => decodePointerL t.isPtr (decL l t) (zero t.ty)
  | .map t => decodeMapL (decL l t) (zero t.ty) (.map t)

/-- `Unmarshal`, `/repo/json.go:193-205`: what the destination holds afterwards, and the error. -/
def unmarshalL (l : Lib) (t : LTy) (b : Bytes) (p : DV) : Option (DV × Option LErr) :=
  match decL l t (skipSpaces b) p with
  | .crash _ => none
  | .ok v r => some (v, if skipSpaces r ≠ [] then some (.of (.other .syntax)) else none)
  | .err v r e => some (v, if skipSpaces r ≠ [] then some (.of (.other .syntax)) else some e)

end JC

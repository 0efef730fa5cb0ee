import Verif.Model.Stream
/-!
Model of `/repo/decode.go` and of the `Decoder` of `/repo/json.go:243-373` with the
memory that strings, numbers and raw messages are kept in, and the flags
`DontCopyString`, `DontCopyNumber` and `DontCopyRawMessage` (`/repo/json.go:83-113`).

Memory is a list of buffers. A string or a slice of bytes is a span of a buffer.
Copying makes a new buffer; not copying stores a span of the input. What remains of
an input is given by its bytes: it is the end of the input, so its place follows from
its length.

Not modelled: pointers found in interfaces, and what an `Unmarshaler` does with the
bytes that it is given (it has to copy them, by the rules of `encoding/json`).
-/
namespace JC

/-- The memory: buffers of bytes. -/
abbrev AMem := List Bytes

/-- A string or slice of bytes: `len` bytes of the buffer `buf` from `off` on. Its
capacity reaches to the end of the buffer. -/
structure Span where
  buf : Nat
  off : Nat
  len : Nat
deriving DecidableEq

/-- The bytes of a span. -/
def AMem.read (m : AMem) (s : Span) : Bytes := ((m.getD s.buf []).drop s.off).take s.len

/-- A new buffer with the given bytes. -/
def AMem.alloc (m : AMem) (b : Bytes) : Span × AMem := (⟨m.length, 0, b.length⟩, m ++ [b])

/-- The empty string; it has no memory. -/
def Span.nil : Span := ⟨0, 0, 0⟩

/-- The end of a span that is as long as `r`. -/
def Span.tail (s : Span) (r : Bytes) : Span := ⟨s.buf, s.off + (s.len - r.length), r.length⟩

/-- The first bytes of a span, as many as `v` has, after leaving out `i`. -/
def Span.at (s : Span) (i : Nat) (v : Bytes) : Span := ⟨s.buf, s.off + i, v.length⟩

/-- The flags of `/repo/json.go:83-113`. -/
structure AFlags where
  dontCopyString : Bool
  dontCopyNumber : Bool
  dontCopyRaw : Bool

/-- Contents that consist of one piece without text of the input. `time.Time`, byte
slices and user-defined types are made from the input, but do not refer to it. -/
def DV.flat : DV → Bool
  | .bool _ | .int _ | .float _ | .bytesNil | .bytes _ _ | .time _ | .rawNil | .ifaceNil | .sliceNil | .mapNil
  | .ptrNil | .user _ => true
  | .number _ | .string _ | .raw _ | .iface _ _ | .slice _ _ | .array _ | .map _ | .ptr _ | .struct _ => false

/-- The types of values that `decodeInterface` makes, `/repo/decode.go:1017-1053`. -/
inductive DynTy where
  | mapSI
  | slice
  | string
  | bool
  | number
  | float64
deriving DecidableEq

def DynTy.ty : DynTy → Ty
  | .mapSI => .mapSI
  | .slice => .slice .iface
  | .string => .string
  | .bool => .bool
  | .number => .number
  | .float64 => .float64

/-- Map keys. -/
inductive AKey where
  | str (s : Span)
  | int (z : Int)
  /-- a key of a type with methods; `UnmarshalText` must copy what it keeps -/
  | user (s : Bytes)

/-- Contents of a destination, as `DV`, with the places of the texts. -/
inductive AV where
  | flat (v : DV) (h : v.flat = true)
  | number (s : Span)
  | string (s : Span)
  | raw (s : Span)
  | iface (t : DynTy) (v : AV)
  | slice (xs spare : List AV)
  | array (xs : List AV)
  | map (es : List (AKey × AV))
  | ptr (v : AV)
  | struct (fs : List AV)

/-- The key as the map sees it. -/
def AKey.read (m : AMem) : AKey → MK
  | .str s => .str (m.read s)
  | .int z => .int z
  | .user s => .user s

mutual
/-- The contents as the program sees them when the memory is `m`. -/
def AV.read (m : AMem) : AV → DV
  | .flat v _ => v
  | .number s => .number (m.read s)
  | .string s => .string (m.read s)
  | .raw s => .raw (m.read s)
  | .iface t v => .iface t.ty (v.read m)
  | .slice xs sp => .slice (readL m xs) (readL m sp)
  | .array xs => .array (readL m xs)
  | .map es => .map (readE m es)
  | .ptr v => .ptr (v.read m)
  | .struct fs => .struct (readL m fs)
def readL (m : AMem) : List AV → List DV
  | [] => []
  | v :: vs => v.read m :: readL m vs
def readE (m : AMem) : List (AKey × AV) → List (MK × DV)
  | [] => []
  | (k, v) :: es => (k.read m, v.read m) :: readE m es
end

/-- Result of a decoding function: contents of the destination, remainder, error, memory. -/
inductive ARes where
  | ok (v : AV) (r : Bytes) (m : AMem)
  | err (v : AV) (r : Bytes) (e : Err) (m : AMem)
  | crash (c : Crash)

/-- A decoding function: memory, input, contents of the destination. -/
abbrev ADec := AMem → Span → AV → ARes

def ARes.map (f : AV → AV) : ARes → ARes
  | .ok v r m => .ok (f v) r m
  | .err v r e m => .err (f v) r e m
  | .crash c => .crash c

/-- `return inputError(b, t)` with the destination untouched. -/
def inputErrA (b : Bytes) (p : AV) (m : AMem) : ARes := .err p (inputError b).1 (inputError b).2 m

/-- Storing a value of one piece. -/
def AV.keep (v : DV) (p : AV) : AV := if h : v.flat = true then .flat v h else p

/-- A decoding function that stores a value of one piece or nothing. -/
def liftA (d : Dec) : ADec := fun m sl p =>
  match d (m.read sl) (p.read m) with
  | .ok v r => .ok (.keep v p) r m
  | .err v r e => .err (.keep v p) r e m
  | .crash c => .crash c

/-- `decodeNumber`, `/repo/decode.go:258-275`. -/
def decodeNumberA (f : AFlags) : ADec := fun m sl p =>
  let b := m.read sl
  if hasNullPrefix b then .ok p (b.drop 4) m
  else match parseNumber b with
    | .fail _ _ => inputErrA b p m
    | .ok v r =>
      if f.dontCopyNumber then .ok (.number (sl.at 0 v)) r m
      else .ok (.number (m.alloc v).1) r (m.alloc v).2

/-- The place of what `parseStringUnquote` (`/repo/parse.go:433-514`) answers: in a new
buffer, or in the input behind the quote. -/
def unquotedAt (m : AMem) (sl : Span) (s : Bytes) (isNew : Bool) : Span × AMem :=
  if isNew then m.alloc s else (sl.at 1 s, m)

/-- `decodeString`, `/repo/decode.go:277-297`. -/
def decodeStringA (f : AFlags) : ADec := fun m sl p =>
  let b := m.read sl
  if hasNullPrefix b then .ok p (b.drop 4) m
  else match parseStringUnquote b [] with
    | .panic => .crash .panic
    | .fail r e => if b.head? ≠ some (ch! '"') then inputErrA b p m else .err p r e m
    | .ok s r isNew =>
      let (at_, m) := unquotedAt m sl s isNew
      if isNew || f.dontCopyString then .ok (.string at_) r m
      else .ok (.string (m.alloc s).1) r (m.alloc s).2

/-- `decodeRawMessage`, `/repo/decode.go:1097-1109`. -/
def decodeRawA (f : AFlags) : ADec := fun m sl p =>
  let b := m.read sl
  match parseValue b with
  | .fail _ _ => inputErrA b p m
  | .ok v r =>
    if f.dontCopyRaw then .ok (.raw (sl.at 0 v)) r m
    else .ok (.raw (m.alloc v).1) r (m.alloc v).2

/-- `decodeFromString`, `/repo/decode.go:299-318`. -/
def decodeFromStringA (dec : ADec) : ADec := fun m sl p =>
  let b := m.read sl
  if hasNullPrefix b then dec m sl p
  else match parseStringUnquote b [] with
    | .panic => .crash .panic
    | .fail _ _ => inputErrA [] p m
    | .ok v b isNew =>
      match dec (unquotedAt m sl v isNew).2 (unquotedAt m sl v isNew).1 p with
      | .crash c => .crash c
      | .err p _ e m => .err p b e m
      | .ok p v m => if skipSpaces v ≠ [] then .err p b .syntax m else .ok p b m

/-- The digits that are decoded by `decodeFromStringToInt`: zeroes are removed in a copy,
`/repo/decode.go:358-375`. -/
def strippedAt (m : AMem) (sl : Span) (v : Bytes) (isNew : Bool) : Span × AMem :=
  if hasLeadingZeroes v then (unquotedAt m sl v isNew).2.alloc (stripZeroes v) else unquotedAt m sl v isNew

/-- `decodeFromStringToInt`, `/repo/decode.go:320-403`. -/
def decodeFromStringToIntA (l : Lib) (dec : ADec) : ADec := fun m sl p =>
  let b := m.read sl
  if hasNullPrefix b then dec m sl p
  else if b ≠ [] ∧ b.head? ≠ some (ch! '"') then .err p (unquotedErr l b).1 (unquotedErr l b).2 m
  else if b.take 2 = bs! "\"\"" then .err p b (.other 1) m
  else match parseStringUnquote b [] with
    | .panic => .crash .panic
    | .fail _ _ => inputErrA [] p m
    | .ok v b isNew =>
      match dec (strippedAt m sl v isNew).2 (strippedAt m sl v isNew).1 p with
      | .crash c => .crash c
      | .ok p r m => if r ≠ [] then .err p r .unmarshalType m else .ok p b m
      | .err p _ e m =>
        if e = .syntax then
          if (stripZeroes v).head? = some (ch! '-') then .err p b .unmarshalType m else .err p b (.other 1) m
        else match parseNumber (stripZeroes v) with
          | .ok _ _ => .err p b e m
          | .fail _ _ => match parseValue (stripZeroes v) with
            | .ok _ _ => .err p b (.other 1) m
            | .fail _ _ => .err p b e m

/-- A result of `arrayRest` for a destination that stays as it is. -/
def withA (p : AV) (m : AMem) : DRes → ARes
  | .ok _ r => .ok p r m
  | .err _ r e => .err p r e m
  | .crash c => .crash c

/-- The loop of `decodeArray`, `/repo/decode.go:516-542`, and the rest, 546-564. -/
def arrayElemsA (dec : ADec) (zero : AV) (sl : Span) (first : Bool) (done : List AV) : Nat → List AV → Bytes → AMem → ARes
  | 0, mem, b, m => withA (.array (done ++ mem)) m (arrayRest (.user none) (b.length + 1) b)
  | n + 1, mem, b, m =>
    let b := skipSpaces b
    let elem := fun b =>
      match dec m (sl.tail b) (mem.headD zero) with
      | .crash c => .crash c
      | .err x r e m => .err (.array (done ++ x :: mem.tail)) r e m
      | .ok x r m => arrayElemsA dec zero sl false (done ++ [x]) n mem.tail r m
    if first then elem b
    else match b with
      | [] => .err (.array (done ++ mem)) b .syntax m
      | c :: t =>
        if c = ch! ',' then elem (skipSpaces t)
        else if c = ch! ']' then .ok (.array (done ++ mem)) t m
        else .err (.array (done ++ mem)) b .syntax m

/-- `decodeArray`, `/repo/decode.go:505-565`. -/
def decodeArrayA (n : Nat) (dec : ADec) (zero : AV) : ADec := fun m sl p =>
  let b := m.read sl
  if hasNullPrefix b then .ok p (b.drop 4) m
  else match b with
    | [] => inputErrA b p m
    | c :: t =>
      if b.length < 2 ∨ c ≠ ch! '[' then inputErrA b p m
      else arrayElemsA dec zero sl true [] n (match p with | .array xs => xs | _ => []) t m

/-- The loop of `decodeSlice`, `/repo/decode.go:597-646`. -/
def sliceLoopA (dec : ADec) (zero : AV) (sl : Span) (input : Bytes) : Nat → List AV → List AV → Bytes → AMem → ARes
  | 0, _, _, _, _ => .crash .fuel
  | n + 1, done, mem, b, m =>
    let b := skipSpaces b
    let elem := fun b =>
      match dec m (sl.tail b) (mem.headD zero) with
      | .crash c => .crash c
      | .err x _ e m =>
        match parseValue input with
        | .fail r e2 => .err (.slice done (x :: mem.tail)) r e2 m
        | .ok _ r => .err (.slice done (x :: mem.tail)) r e m
      | .ok x r m => sliceLoopA dec zero sl input n (done ++ [x]) mem.tail r m
    if b.head? = some (ch! ']') then .ok (.slice done mem) b.tail m
    else if done.isEmpty then elem b
    else match b with
      | [] => .err (.slice done mem) b .syntax m
      | c :: t => if c ≠ ch! ',' then .err (.slice done mem) b .syntax m else elem (skipSpaces t)

/-- `decodeSlice`, `/repo/decode.go:570-647`, for elements that are no bytes. -/
def decodeSliceA (dec : ADec) (zero : AV) : ADec := fun m sl p =>
  let b := m.read sl
  if hasNullPrefix b then .ok (.flat .sliceNil rfl) (b.drop 4) m
  else match b with
    | [] => inputErrA b p m
    | c :: t =>
      if b.length < 2 ∨ c ≠ ch! '[' then inputErrA b p m
      else sliceLoopA dec zero sl b (b.length + 1) [] (match p with | .slice xs sp => xs ++ sp | _ => []) t m

/-- Go's `m[k] = v`; the key is replaced too (`mapassign_faststr`). -/
def mapSetA (m : AMem) (k : AKey) (v : AV) : List (AKey × AV) → List (AKey × AV)
  | [] => [(k, v)]
  | (k', v') :: es =>
    if k'.read m = k.read m then (k, v) :: es
    else if bytesLt (k.read m).text (k'.read m).text then (k, v) :: (k', v') :: es
    else (k', v') :: mapSetA m k v es

/-- The key decoders, `/repo/codec.go:355-406`, on a zero key. -/
def decodeKeyA (f : AFlags) : KTy → AMem → Span → ARes
  | .str, m, sl => decodeStringA f m sl (.string .nil)
  | .int k, m, sl => decodeFromStringA (liftA (decodeInt k)) m sl (.flat (.int 0) rfl)
  | .text tk, m, sl => liftA (fun b _ => decodeKey (.text tk) b) m sl (.flat (.user none) rfl)

/-- A decoded key. -/
def keyOfA : AV → AKey
  | .string s => .str s
  | .flat (.int z) _ => .int z
  | .flat (.user (some s)) _ => .user s
  | _ => .str .nil

/-- Result of reading comma, key and colon. -/
inductive AKRes where
  | ok (k : AV) (r : Bytes) (m : AMem)
  | err (r : Bytes) (e : Err) (m : AMem)
  | crash (c : Crash)

/-- The key and the colon of a member, `/repo/decode.go:694-709, 847-863`. -/
def memberKeyRest (key : AMem → Span → ARes) (m : AMem) (sl : Span) (b : Bytes) : AKRes :=
  if hasNullPrefix b then .err b .syntax m
  else match key m (sl.tail b) with
    | .crash c => .crash c
    | .err _ r e m => .err (objectKeyError r e).1 (objectKeyError r e).2 m
    | .ok k r m =>
      match skipSpaces r with
      | [] => .err [] .syntax m
      | c :: t => if c ≠ ch! ':' then .err (c :: t) .syntax m else .ok k (skipSpaces t) m

/-- Comma, key and colon of a member, `/repo/decode.go:684-709, 836-866`. -/
def memberKeyA (key : AMem → Span → ARes) (m : AMem) (sl : Span) (first : Bool) (b : Bytes) : AKRes :=
  if first then memberKeyRest key m sl b
  else match b with
    | [] => .err b .syntax m
    | c :: t => if c ≠ ch! ',' then .err b .syntax m else memberKeyRest key m sl (skipSpaces t)

/-- The loops of `decodeMap`, `/repo/decode.go:674-727`, `decodeMapStringInterface`,
747-779, and `decodeMapStringRawMessage`, 799-833. -/
def mapLoopA (f : AFlags) (k : KTy) (dec : ADec) (zero p : AV) (fresh : Bool) (sl : Span) (input : Bytes) :
    Nat → Bool → List (AKey × AV) → Bytes → AMem → ARes
  | 0, _, _, _, _ => .crash .fuel
  | n + 1, first, es, b, m =>
    let b := skipSpaces b
    if b.head? = some (ch! '}') then .ok (.map es) b.tail m
    else
      let dest := if fresh then p else .map es
      match memberKeyA (decodeKeyA f k) m sl first b with
      | .crash c => .crash c
      | .err r e m => .err dest r e m
      | .ok kv b m =>
        match dec m (sl.tail b) zero with
        | .crash c => .crash c
        | .err _ _ e m =>
          match parseValue input with
          | .fail r e2 => .err dest r e2 m
          | .ok _ r => .err dest r e m
        | .ok v r m => mapLoopA f k dec zero p fresh sl input n false (mapSetA m (keyOfA kv) v es) r m

/-- `decodeMap`, `/repo/decode.go:649-728`, `decodeMapStringInterface`, 730-780, and
`decodeMapStringRawMessage`, 782-834. -/
def decodeMapA (f : AFlags) (k : KTy) (dec : ADec) (zero : AV) : ADec := fun m sl p =>
  let b := m.read sl
  if hasNullPrefix b then .ok (.flat .mapNil rfl) (b.drop 4) m
  else match b with
    | [] => inputErrA b p m
    | c :: t =>
      if b.length < 2 ∨ c ≠ ch! '{' then inputErrA b p m
      else match p with
        | .map es => mapLoopA f k dec zero p false sl b (b.length + 1) true es t m
        | _ => mapLoopA f k dec zero p true sl b (b.length + 1) true [] t m

/-- The key of a field, `/repo/decode.go:907`: it is not kept. -/
def nameKey (b : Bytes) : DRes :=
  match parseStringUnquote b [] with
  | .panic => .crash .panic
  | .fail r e => .err (.string []) r e
  | .ok s r _ => .ok (.string s) r

/-- The text of a decoded name. -/
def keyStr : DV → Bytes
  | .string s => s
  | _ => []

/-- The loop of `decodeStruct`, `/repo/decode.go:887-954`. -/
def structLoopA (c : DCfg) (names : List Bytes) (decs : List ADec) (sl : Span) (input : Bytes) :
    Nat → Bool → List AV → Bytes → AMem → ARes
  | 0, _, _, _, _ => .crash .fuel
  | n + 1, first, fs, b, m =>
    let b := skipSpaces b
    if b.head? = some (ch! '}') then .ok (.struct fs) b.tail m
    else
      match memberKey nameKey first b with
      | .inl c => .crash c
      | .inr (.inl (r, e)) => .err (.struct fs) r e m
      | .inr (.inr (kv, b)) =>
        match pickField c names (keyStr kv) with
        | none =>
          if c.disallowUnknown then .err (.struct fs) b (.other 2) m
          else match parseValue b with
            | .fail r e => .err (.struct fs) r e m
            | .ok _ r => structLoopA c names decs sl input n false fs r m
        | some i =>
          match decs[i]? with
          | none => .crash .panic    -- not reached: one decoder per name
          | some dec =>
            match dec m (sl.tail b) (fs.getD i (.flat (.user none) rfl)) with
            | .crash c => .crash c
            | .err x _ e m =>
              match parseValue input with
              | .fail r e2 => .err (.struct (fs.set i x)) r e2 m
              | .ok _ r => .err (.struct (fs.set i x)) r e m
            | .ok x r m => structLoopA c names decs sl input n false (fs.set i x) r m

/-- `decodeStruct`, `/repo/decode.go:868-955`. -/
def decodeStructA (c : DCfg) (names : List Bytes) (decs : List ADec) : ADec := fun m sl p =>
  let b := m.read sl
  if hasNullPrefix b then .ok p (b.drop 4) m
  else match b with
    | [] => inputErrA b p m
    | ch :: t =>
      if b.length < 2 ∨ ch ≠ ch! '{' then inputErrA b p m
      else structLoopA c names decs sl b (b.length + 1) true (match p with | .struct fs => fs | _ => []) t m

/-- `decodePointer`, `/repo/decode.go:971-988`. -/
def decodePointerA (elemPtr : Bool) (dec : ADec) (zero : AV) : ADec := fun m sl p =>
  let b := m.read sl
  if hasNullPrefix b then
    match p with
    | .ptr v => if elemPtr then (dec m sl v).map .ptr else .ok (.flat .ptrNil rfl) (b.drop 4) m
    | _ => .ok (.flat .ptrNil rfl) (b.drop 4) m
  else (dec m sl (match p with | .ptr v => v | _ => zero)).map .ptr

/-- The zero value of a `float64`. -/
def zeroFloat : DV := .float (.fin false [0x30] (.f [] [0x30] [] (.inl rfl) .zero .none))

/-- The end of `decodeInterface`, `/repo/decode.go:1057-1066`. -/
def ifaceEndA (t : DynTy) (b : Bytes) : ARes → ARes
  | .crash c => .crash c
  | .err _ _ e m => .err (.flat .ifaceNil rfl) b e m
  | .ok v r m => if skipSpaces r ≠ [] then .err (.flat .ifaceNil rfl) b .syntax m else .ok (.iface t v) b m

/-- The end of `decodeInterface` for `null`. -/
def ifaceNullA (b : Bytes) : ARes → ARes
  | .crash x => .crash x
  | .err _ _ e m => .err (.flat .ifaceNil rfl) b e m
  | .ok v r m => if skipSpaces r ≠ [] then .err (.flat .ifaceNil rfl) b .syntax m else .ok v b m

/-- `decodeInterface`, `/repo/decode.go:990-992, 1012-1067`. The value is decoded from
its text, a span of the input. -/
def ifaceValueA (f : AFlags) (c : DCfg) : Nat → ADec
  | 0 => fun _ _ _ => .crash .fuel
  | n + 1 => fun m sl _ =>
    match parseValue (m.read sl) with
    | .fail r e => .err (.flat .ifaceNil rfl) r e m
    | .ok v b =>
      match v with
      | [] => .crash .panic
      | ch :: _ =>
        let sv := sl.at 0 v
        if ch = ch! '{' then
          ifaceEndA .mapSI b (decodeMapA f .str (ifaceValueA f c n) (.flat .ifaceNil rfl) m sv (.map []))
        else if ch = ch! '[' then
          ifaceEndA .slice b (decodeSliceA (ifaceValueA f c n) (.flat .ifaceNil rfl) m sv (.slice [] []))
        else if ch = ch! '"' then ifaceEndA .string b (decodeStringA f m sv (.string .nil))
        else if ch = ch! 'n' then ifaceNullA b (liftA decodeNull m sv (.flat .ifaceNil rfl))
        else if ch = ch! 't' ∨ ch = ch! 'f' then ifaceEndA .bool b (liftA decodeBool m sv (.flat (.bool false) rfl))
        else if ch = ch! '-' ∨ isDigit ch then
          if c.useNumber then ifaceEndA .number b (decodeNumberA f m sv (.number .nil))
          else ifaceEndA .float64 b (liftA (decodeFloat c.lib false) m sv (.flat zeroFloat rfl))
        else .err (.flat .ifaceNil rfl) b .syntax m

/-- `decodeInterface`, `/repo/decode.go:990-1067`. -/
def decodeInterfaceA (f : AFlags) (c : DCfg) : ADec := fun m sl p => ifaceValueA f c (sl.len + 1) m sl p

/-- `Parse`, `/repo/json.go:221-231`. -/
def parseIntoA (dec : ADec) : ADec := fun m sl p =>
  match dec m (sl.tail (skipSpaces (m.read sl))) p with
  | .crash c => .crash c
  | .err p r e m => .err p (skipSpaces r) e m
  | .ok p r m => .ok p (skipSpaces r) m

/-- `decodeMaybeEmptyInterface`, `/repo/decode.go:1069-1084`. -/
def decodeIfaceMA (f : AFlags) (c : DCfg) (empty : Bool) : ADec := fun m sl p =>
  if hasNullPrefix (m.read sl) then .ok (.flat .ifaceNil rfl) ((m.read sl).drop 4) m
  else match p with
    | .iface _ _ => liftA decodeUnmarshalTypeError m sl p
    | _ => if empty then parseIntoA (decodeInterfaceA f c) m sl p else liftA decodeUnmarshalTypeError m sl p

/-- Types whose values consist of one piece. -/
def Ty.flat : Ty → Bool
  | .bool | .int _ | .float32 | .float64 | .bytes | .duration | .time | .jsonU _ | .textU _ | .unsupported => true
  | _ => false

/-- Types of destinations, as `Ty`. -/
inductive ATy where
  | flat (t : Ty) (h : t.flat = true)
  | number
  | string
  | raw
  | iface
  | ifaceM (empty : Bool)
  | slice (t : ATy)
  | array (n : Nat) (t : ATy)
  | map (k : KTy) (t : ATy)
  | mapSI
  | mapRaw
  | ptr (t : ATy)
  | struct (fs : List (Bytes × ATy))
  | quoted (t : ATy)
  | quotedInt (t : ATy)

mutual
/-- The type. -/
def ATy.ty : ATy → Ty
  | .flat t _ => t
  | .number => .number
  | .string => .string
  | .raw => .raw
  | .iface => .iface
  | .ifaceM e => .ifaceM e
  | .slice t => .slice t.ty
  | .array n t => .array n t.ty
  | .map k t => .map k t.ty
  | .mapSI => .mapSI
  | .mapRaw => .mapRaw
  | .ptr t => .ptr t.ty
  | .struct fs => .struct (tyF fs)
  | .quoted t => .quoted t.ty
  | .quotedInt t => .quotedInt t.ty
def tyF : List (Bytes × ATy) → List (Bytes × Ty)
  | [] => []
  | (n, t) :: fs => (n, t.ty) :: tyF fs
end

mutual
/-- The zero value of a type. -/
def zeroA : ATy → AV
  | .flat t _ => .keep (zero t) (.flat (.user none) rfl)
  | .number => .number .nil
  | .string => .string .nil
  | .raw => .flat .rawNil rfl
  | .iface | .ifaceM _ => .flat .ifaceNil rfl
  | .slice _ => .flat .sliceNil rfl
  | .array n t => .array (List.replicate n (zeroA t))
  | .map _ _ | .mapSI | .mapRaw => .flat .mapNil rfl
  | .ptr _ => .flat .ptrNil rfl
  | .struct fs => .struct (zeroFA fs)
  | .quoted t | .quotedInt t => zeroA t
def zeroFA : List (Bytes × ATy) → List AV
  | [] => []
  | (_, t) :: fs => zeroA t :: zeroFA fs
end

mutual
/-- The decoding function of a type, as selected by `constructCodec`, `/repo/codec.go:79-213`. -/
def decA (f : AFlags) (c : DCfg) : ATy → ADec
  | .flat t _ => liftA (dec c (fun _ _ _ => .crash .fuel) t)
  | .number => decodeNumberA f
  | .string => decodeStringA f
  | .raw => decodeRawA f
  | .iface => decodeInterfaceA f c
  | .ifaceM empty => decodeIfaceMA f c empty
  | .slice t => decodeSliceA (decA f c t) (zeroA t)
  | .array n t => decodeArrayA n (decA f c t) (zeroA t)
  | .map k t => decodeMapA f k (decA f c t) (zeroA t)
  | .mapSI => decodeMapA f .str (decodeInterfaceA f c) (.flat .ifaceNil rfl)
  | .mapRaw => decodeMapA f .str (decodeRawA f) (.flat .rawNil rfl)
  | .ptr t => decodePointerA t.ty.isPtr (decA f c t) (zeroA t)
  | .struct fs => decodeStructA c (fs.map (·.1)) (decFA f c fs)
  | .quoted t => decodeFromStringA (decA f c t)
  | .quotedInt t => decodeFromStringToIntA c.lib (decA f c t)
def decFA (f : AFlags) (c : DCfg) : List (Bytes × ATy) → List ADec
  | [] => []
  | (_, t) :: fs => decA f c t :: decFA f c fs
end

/-! ### The `Decoder` -/

/-- `Decoder`, `/repo/json.go:244-251`: the buffer is `mem[buf][:len]` (nil: none),
`remain` is `mem[buf][lo:len]`. -/
structure ASt where
  reader : Reader
  buf : Option Nat
  len : Nat
  lo : Nat
  offset : Nat
  err : Option Err

/-- `NewDecoder`, `/repo/json.go:254`. -/
def newDecoderA (r : Reader) : ASt := ⟨r, none, 0, 0, 0, none⟩

/-- `dec.remain`. -/
def ASt.remain (s : ASt) (m : AMem) : Bytes :=
  match s.buf with
  | none => []
  | some i => ((m.getD i []).take s.len).drop s.lo

/-- Making the buffer, or moving `remain` to its front, `/repo/json.go:305-310`: the
buffer and the memory. -/
def ASt.frontA (s : ASt) (m : AMem) : Nat × AMem :=
  match s.buf with
  | none => (m.length, m ++ [List.replicate minBufferSize 0])
  | some i => (i, m.set i (s.remain m ++ (m.getD i []).drop (s.remain m).length))

/-- A larger buffer with the same contents if there is little room, `/repo/json.go:312-316`. -/
def growA (m : AMem) (i len : Nat) : Nat × AMem :=
  if (m.getD i []).length - len < minReadSize then
    (m.length, m ++ [(m.getD i []).take len ++ List.replicate (2 * (m.getD i []).length - len) 0])
  else (i, m)

/-- Filling the buffer, `/repo/json.go:305-329`. -/
def ASt.refill (s : ASt) (m : AMem) : ASt × AMem :=
  let len := (s.remain m).length
  let (i, m) := s.frontA m
  let (i, m) := growA m i len
  let (d, e, rd) := readFull ((m.getD i []).length - len) s.reader
  let m := m.set i ((m.getD i []).take len ++ d ++ (m.getD i []).drop (len + d.length))
  let err := if d ≠ [] then none else if e = some .unexpectedEOF then some .eof else e
  let (rem, n) := skipSpacesN ((m.getD i []).take (len + d.length))
  (⟨rd, some i, len + d.length, len + d.length - rem.length, s.offset + n, err⟩, m)

/-- Result of `readValue`. -/
inductive ARV where
  | ok (v : Span)
  | err (e : Err)

/-- `/repo/json.go:298-303`. -/
def ASt.pending (s : ASt) (m : AMem) (e : Err) : ARV := .err (if s.remain m ≠ [] ∧ e = .eof then .unexpectedEOF else e)

/-- The loop of `readValue`, `/repo/json.go:282-330`. The value is a span of the buffer. -/
def readLoopA : Nat → ASt → AMem → ARV × ASt × AMem
  | 0, s, m => (.err .outOfFuel, s, m)
  | n + 1, s, m =>
    let more : ARV × ASt × AMem := match s.err with
      | some e => (s.pending m e, s, m)
      | none => readLoopA n (s.refill m).1 (s.refill m).2
    if s.remain m ≠ [] then
      match parseValue (s.remain m) with
      | .ok v r =>
        let (rem, k) := skipSpacesN r
        (.ok ⟨s.buf.getD 0, s.lo, v.length⟩, { s with lo := s.len - rem.length, offset := s.offset + (v.length + k) }, m)
      | .fail r e => if r ≠ [] then (.err e, s, m) else more
    else more

/-- `readValue`, `/repo/json.go:278-331`. -/
def ASt.readValue (s : ASt) (m : AMem) : ARV × ASt × AMem := readLoopA (s.reader.data.length + 2) s m

/-- What `Decode` does to a destination. -/
inductive AURes where
  | done (v : AV) (err : Option Err)
  | crash (c : Crash)

/-- `Decode`, `/repo/json.go:262-269`, into a destination of type `t` with contents `p`. -/
def ASt.decode (s : ASt) (f : AFlags) (c : DCfg) (t : ATy) (p : AV) (m : AMem) : AURes × ASt × AMem :=
  match s.readValue m with
  | (.err e, s, m) => (.done p (some e), s, m)
  | (.ok raw, s, m) =>
    match parseIntoA (decA f c t) m raw p with
    | .crash x => (.crash x, s, m)
    | .ok v _ m => (.done v none, s, m)
    | .err v _ e m => (.done v (some e), s, m)

/-- `Unmarshal`, `/repo/json.go:193-205`, of the bytes of a span; no flags. -/
def unmarshalA (c : DCfg) (t : ATy) (m : AMem) (sl : Span) (p : AV) : AURes × AMem :=
  match parseIntoA (decA ⟨false, false, false⟩ c t) m sl p with
  | .crash x => (.crash x, m)
  | .ok v r m => (.done v (if r ≠ [] then some .syntax else none), m)
  | .err v r e m => (.done v (if r ≠ [] then some .syntax else some e), m)

end JC

import Verif.Model.Decode
/-!
The path in an `*UnmarshalTypeError`: `/repo/decode.go` once more, with the `Field` of
the error.

`Model/Decode.lean` leaves out the texts in errors.  Here every decoding function that
changes `Field`, or passes on an error of another one, is repeated with the path it
reports: the list of the texts put in front of `Field`, each of them followed by a dot.
The path is empty unless the error is an `*UnmarshalTypeError` (`errors.As`); errors
of user-defined types that wrap one are not represented.  `Struct`, which
collects the names of types in the same places, is left out.  `Props/Path.lean` proves that
forgetting the path gives the functions of `Model/Decode.lean`.
-/
namespace JC

/-- Result of a decoding function and the path of its error. -/
abbrev PRes := DRes × List Bytes

/-- A decoding function that reports a path. -/
abbrev PDec := Bytes → DV → PRes

/-- A decoding function that makes its errors itself, with an empty `Field`. -/
def noPath (d : Dec) : PDec := fun b p => (d b p, [])

/-- `if errors.As(err, &e) { e.Field = s + "." + e.Field }`. -/
def under (s : Bytes) (e : Err) (p : List Bytes) : List Bytes := if e = .unmarshalType then s :: p else p

/-- The text of `Field` for a path. -/
def fieldText : List Bytes → Bytes
  | [] => []
  | s :: p => s ++ ch! '.' :: fieldText p

/-- The loop of `decodeArray`, `/repo/decode.go:516-542`, with 533-540. -/
def arrayElemsP (dec : PDec) (zero : DV) (first : Bool) (done : List DV) : Nat → List DV → Bytes → PRes
  | 0, mem, b => (arrayRest (.array (done ++ mem)) (b.length + 1) b, [])
  | n + 1, mem, b =>
    let b := skipSpaces b
    let elem := fun b =>
      match dec b (mem.headD zero) with
      | (.crash c, _) => (.crash c, [])
      | (.err x r e, s) => (.err (.array (done ++ x :: mem.tail)) r e, under (fmtNat done.length) e s)
      | (.ok x r, _) => arrayElemsP dec zero false (done ++ [x]) n mem.tail r
    if first then elem b
    else match b with
      | [] => (.err (.array (done ++ mem)) b .syntax, [])
      | c :: t =>
        if c = ch! ',' then elem (skipSpaces t)
        else if c = ch! ']' then (.ok (.array (done ++ mem)) t, [])
        else (.err (.array (done ++ mem)) b .syntax, [])

/-- `decodeArray`, `/repo/decode.go:505-565`. -/
def decodeArrayP (n : Nat) (dec : PDec) (zero : DV) : PDec := fun b p =>
  if hasNullPrefix b then (.ok p (b.drop 4), [])
  else match b with
    | [] => (inputErr b p, [])
    | c :: t =>
      if b.length < 2 ∨ c ≠ ch! '[' then (inputErr b p, [])
      else arrayElemsP dec zero true [] n (match p with | .array xs => xs | _ => []) t

/-- The loop of `decodeSlice`, `/repo/decode.go:597-646`, with 628-643. -/
def sliceLoopP (dec : PDec) (zero : DV) (input : Bytes) : Nat → List DV → List DV → Bytes → PRes
  | 0, _, _, _ => (.crash .fuel, [])
  | n + 1, done, mem, b =>
    let b := skipSpaces b
    let elem := fun b =>
      match dec b (mem.headD zero) with
      | (.crash c, _) => (.crash c, [])
      | (.err x _ e, s) =>
        match parseValue input with
        | .fail r e2 => (.err (.slice done (x :: mem.tail)) r e2, [])
        | .ok _ r => (.err (.slice done (x :: mem.tail)) r e, under (fmtNat done.length) e s)
      | (.ok x r, _) => sliceLoopP dec zero input n (done ++ [x]) mem.tail r
    if b.head? = some (ch! ']') then (.ok (.slice done mem) b.tail, [])
    else if done.isEmpty then elem b
    else match b with
      | [] => (.err (.slice done mem) b .syntax, [])
      | c :: t => if c ≠ ch! ',' then (.err (.slice done mem) b .syntax, []) else elem (skipSpaces t)

/-- `decodeSlice`, `/repo/decode.go:570-647`. -/
def decodeSliceP (dec : PDec) (zero : DV) : PDec := fun b p =>
  if hasNullPrefix b then (.ok .sliceNil (b.drop 4), [])
  else match b with
    | [] => (inputErr b p, [])
    | c :: t =>
      if b.length < 2 ∨ c ≠ ch! '[' then (inputErr b p, [])
      else sliceLoopP dec zero b (b.length + 1) [] (match p with | .slice xs sp => xs ++ sp | _ => []) t

/-- `decodeBytes`, `/repo/decode.go:405-439`: arrays are decoded by `decodeSlice`. -/
def decodeBytesP : PDec := fun b p =>
  if b.head? = some (ch! '[') then
    (decodeBytes b p, (decodeSliceP (noPath (decodeInt .uint8)) (.int 0) b (match p with
      | .bytes s sp => DV.slice (s.map byteDV) (sp.map byteDV)
      | _ => .sliceNil)).2)
  else (decodeBytes b p, [])

/-- `fmt.Sprint(k.Interface())`, `/repo/decode.go:720`. -/
def keyShown : KTy → MK → Bytes
  | .text tk, .user s => tk.sprint s
  | _, k => k.text

/-- The loops of `decodeMap`, `/repo/decode.go:674-727`, with 711-723; of `decodeMapStringInterface`,
747-779, with 763-776; and of `decodeMapStringRawMessage`, 799-833, with 816-830. -/
def mapLoopP (k : KTy) (dec : PDec) (zero p : DV) (fresh : Bool) (input : Bytes) : Nat → Bool → List (MK × DV) → Bytes → PRes
  | 0, _, _, _ => (.crash .fuel, [])
  | n + 1, first, m, b =>
    let b := skipSpaces b
    if b.head? = some (ch! '}') then (.ok (.map m) b.tail, [])
    else
      let dest := if fresh then p else .map m
      match memberKey (decodeKey k) first b with
      | .inl c => (.crash c, [])
      | .inr (.inl (r, e)) => (.err dest r e, [])
      | .inr (.inr (kv, b)) =>
        match dec b zero with
        | (.crash c, _) => (.crash c, [])
        | (.err _ _ e, s) =>
          match parseValue input with
          | .fail r e2 => (.err dest r e2, [])
          | .ok _ r => (.err dest r e, under (keyShown k (keyOf kv)) e s)
        | (.ok v r, _) => mapLoopP k dec zero p fresh input n false (mapSet (keyOf kv) v m) r

/-- `decodeMap`, `/repo/decode.go:649-728`, `decodeMapStringInterface`, 730-780, and
`decodeMapStringRawMessage`, 782-834. -/
def decodeMapP (k : KTy) (dec : PDec) (zero : DV) : PDec := fun b p =>
  if hasNullPrefix b then (.ok .mapNil (b.drop 4), [])
  else match b with
    | [] => (inputErr b p, [])
    | c :: t =>
      if b.length < 2 ∨ c ≠ ch! '{' then (inputErr b p, [])
      else match p with
        | .map m => mapLoopP k dec zero p false b (b.length + 1) true m t
        | _ => mapLoopP k dec zero p true b (b.length + 1) true [] t

/-- The loop of `decodeStruct`, `/repo/decode.go:887-954`, with 940-953. -/
def structLoopP (c : DCfg) (names : List Bytes) (decs : List PDec) (input : Bytes) : Nat → Bool → List DV → Bytes → PRes
  | 0, _, _, _ => (.crash .fuel, [])
  | n + 1, first, fs, b =>
    let b := skipSpaces b
    if b.head? = some (ch! '}') then (.ok (.struct fs) b.tail, [])
    else
      let key : Bytes → DRes := fun b => match parseStringUnquote b [] with
        | .panic => .crash .panic
        | .fail r e => .err (.string []) r e
        | .ok s r _ => .ok (.string s) r
      match memberKey key first b with
      | .inl c => (.crash c, [])
      | .inr (.inl (r, e)) => (.err (.struct fs) r e, [])
      | .inr (.inr (kv, b)) =>
        let k := match kv with | .string s => s | _ => []
        match pickField c names k with
        | none =>
          if c.disallowUnknown then (.err (.struct fs) b (.other 2), [])
          else match parseValue b with
            | .fail r e => (.err (.struct fs) r e, [])
            | .ok _ r => structLoopP c names decs input n false fs r
        | some i =>
          match decs[i]? with
          | none => (.crash .panic, [])
          | some dec =>
            match dec b (fs.getD i (.user none)) with
            | (.crash c, _) => (.crash c, [])
            | (.err x _ e, s) =>
              match parseValue input with
              | .fail r e2 => (.err (.struct (fs.set i x)) r e2, [])
              | .ok _ r => (.err (.struct (fs.set i x)) r e, under k e s)
            | (.ok x r, _) => structLoopP c names decs input n false (fs.set i x) r

/-- `decodeStruct`, `/repo/decode.go:868-955`. -/
def decodeStructP (c : DCfg) (names : List Bytes) (decs : List PDec) : PDec := fun b p =>
  if hasNullPrefix b then (.ok p (b.drop 4), [])
  else match b with
    | [] => (inputErr b p, [])
    | ch :: t =>
      if b.length < 2 ∨ ch ≠ ch! '{' then (inputErr b p, [])
      else structLoopP c names decs b (b.length + 1) true (match p with | .struct fs => fs | _ => []) t

/-- The same path with other contents of the destination. -/
def PRes.map (f : DV → DV) (r : PRes) : PRes := (r.1.map f, r.2)

/-- `decodePointer`, `/repo/decode.go:971-988`. -/
def decodePointerP (elemPtr : Bool) (dec : PDec) (zero : DV) : PDec := fun b p =>
  if hasNullPrefix b then
    match p with
    | .ptr v => if elemPtr then (dec b v).map .ptr else (.ok .ptrNil (b.drop 4), [])
    | _ => (.ok .ptrNil (b.drop 4), [])
  else (dec b (match p with | .ptr v => v | _ => zero)).map .ptr

/-- `decodeFromString`, `/repo/decode.go:299-318`. -/
def decodeFromStringP (dec : PDec) : PDec := fun b p =>
  if hasNullPrefix b then dec b p
  else match parseStringUnquote b [] with
    | .panic => (.crash .panic, [])
    | .fail _ _ => (inputErr [] p, [])
    | .ok v b _ =>
      match dec v p with
      | (.crash c, _) => (.crash c, [])
      | (.err p _ e, s) => (.err p b e, s)
      | (.ok p v, _) => if skipSpaces v ≠ [] then (.err p b .syntax, []) else (.ok p b, [])

/-- `decodeFromStringToInt`, `/repo/decode.go:320-403`. -/
def decodeFromStringToIntP (l : Lib) (dec : PDec) : PDec := fun b p =>
  if hasNullPrefix b then dec b p
  else if b ≠ [] ∧ b.head? ≠ some (ch! '"') then (.err p (unquotedErr l b).1 (unquotedErr l b).2, [])
  else if b.take 2 = bs! "\"\"" then (.err p b (.other 1), [])
  else match parseStringUnquote b [] with
    | .panic => (.crash .panic, [])
    | .fail _ _ => (inputErr [] p, [])
    | .ok v b _ =>
      let v := stripZeroes v
      match dec v p with
      | (.crash c, _) => (.crash c, [])
      | (.ok p r, _) => if r ≠ [] then (.err p r .unmarshalType, []) else (.ok p b, [])
      | (.err p _ e, s) =>
        if e = .syntax then
          if v.head? = some (ch! '-') then (.err p b .unmarshalType, []) else (.err p b (.other 1), [])
        else match parseNumber v with
          | .ok _ _ => (.err p b e, s)
          | .fail _ _ => match parseValue v with
            | .ok _ _ => (.err p b (.other 1), [])
            | .fail _ _ => (.err p b e, s)

/-- The end of `decodeInterface`, `/repo/decode.go:1057-1066`. -/
def ifaceEndP (t : Ty) (b : Bytes) : PRes → PRes
  | (.crash c, _) => (.crash c, [])
  | (.err _ _ e, s) => (.err .ifaceNil b e, s)
  | (.ok v r, _) => if skipSpaces r ≠ [] then (.err .ifaceNil b .syntax, []) else (.ok (.iface t v) b, [])

/-- `decodeInterface` on an interface that holds no pointer, `/repo/decode.go:990-992, 1012-1067`:
the path comes from `decodeMapStringInterface` and `decodeSlice`. -/
def ifaceValueP (c : DCfg) : Nat → PDec
  | 0 => fun _ _ => (.crash .fuel, [])
  | n + 1 => fun b p =>
    match parseValue b with
    | .fail r e => (.err .ifaceNil r e, [])
    | .ok v r =>
      match v with
      | [] => (.crash .panic, [])
      | ch :: _ =>
        if ch = ch! '{' then ifaceEndP .mapSI r (decodeMapP .str (ifaceValueP c n) .ifaceNil v (.map []))
        else if ch = ch! '[' then ifaceEndP (.slice .iface) r (decodeSliceP (ifaceValueP c n) .ifaceNil v (.slice [] []))
        else (ifaceValue c (n + 1) b p, [])

/-- `Parse`, `/repo/json.go:221-231`. -/
def parseIntoP (dec : PDec) : PDec := fun b p =>
  match dec (skipSpaces b) p with
  | (.crash c, _) => (.crash c, [])
  | (.err p r e, s) => (.err p (skipSpaces r) e, s)
  | (.ok p r, _) => (.ok p (skipSpaces r), [])

/-- `decodeInterface`, `/repo/decode.go:990-1067`. -/
def decodeInterfaceP (c : DCfg) (dyn : Ty → PDec) : PDec := fun b p =>
  match p with
  | .iface (.ptr t) v =>
    match v with
    | .ptr w =>
      if !t.isPtr && hasNullPrefix b then (.ok .ifaceNil (b.drop 4), [])
      else match parseIntoP (dyn t) b w with
        | (.crash c, _) => (.crash c, [])
        | (.err _ r e, s) => (.err .ifaceNil r e, s)
        | (.ok w r, _) => (.ok (.iface (.ptr t) (.ptr w)) r, [])
    | _ =>
      if hasNullPrefix b then (.ok .ifaceNil (b.drop 4), [])
      else (parseInvalid b .ifaceNil, [])
  | _ => ifaceValueP c (b.length + 1) b p

/-- `decodeMaybeEmptyInterface`, `/repo/decode.go:1069-1084`. -/
def decodeIfaceMP (c : DCfg) (dyn : Ty → PDec) (empty : Bool) : PDec := fun b p =>
  if hasNullPrefix b then (.ok .ifaceNil (b.drop 4), [])
  else match p with
    | .iface t v =>
      match t, v with
      | .ptr t, .ptr w => (parseIntoP (dyn t) b w).map fun w => .iface (.ptr t) (.ptr w)
      | .ptr _, _ => (parseInvalid b p, [])
      | _, _ => (decodeUnmarshalTypeError b p, [])
    | _ =>
      if empty then parseIntoP (decodeInterfaceP c dyn) b p
      else (decodeUnmarshalTypeError b p, [])

mutual
/-- The decoding function of a type, `/repo/codec.go:79-213`, as `dec`. -/
def decP (c : DCfg) (dyn : Ty → PDec) : Ty → PDec
  | .bool => noPath decodeBool
  | .int k => noPath (decodeInt k)
  | .float32 => noPath (decodeFloat c.lib true)
  | .float64 => noPath (decodeFloat c.lib false)
  | .number => noPath decodeNumber
  | .string => noPath decodeString
  | .bytes => decodeBytesP
  | .duration => noPath (decodeDuration c.lib)
  | .time => noPath (decodeTime c.lib)
  | .raw => noPath decodeRawMessage
  | .iface => decodeInterfaceP c dyn
  | .ifaceM empty => decodeIfaceMP c dyn empty
  | .slice t => decodeSliceP (decP c dyn t) (zero t)
  | .array n t => decodeArrayP n (decP c dyn t) (zero t)
  | .map k t => decodeMapP k (decP c dyn t) (zero t)
  | .mapSI => decodeMapP .str (decodeInterfaceP c dyn) .ifaceNil
  | .mapRaw => decodeMapP .str (noPath decodeRawMessage) .rawNil
  | .ptr t => decodePointerP t.isPtr (decP c dyn t) (zero t)
  | .struct fs => decodeStructP c (fs.map (·.1)) (decFP c dyn fs)
  | .quoted t => decodeFromStringP (decP c dyn t)
  | .quotedInt t => decodeFromStringToIntP c.lib (decP c dyn t)
  | .jsonU f => noPath (decodeJSONUnmarshaler f)
  | .textU f => noPath (decodeTextUnmarshaler f)
  | .unsupported => noPath decodeUnmarshalTypeError
def decFP (c : DCfg) (dyn : Ty → PDec) : List (Bytes × Ty) → List PDec
  | [] => []
  | (_, t) :: fs => decP c dyn t :: decFP c dyn fs
end

/-- Decoding functions where pointers in interfaces are followed at most `n` deep, as `decN`. -/
def decNP (c : DCfg) : Nat → Ty → PDec
  | 0 => decP c fun _ _ _ => (.crash .fuel, [])
  | n + 1 => decP c (decNP c n)

/-- `Unmarshal`, `/repo/json.go:193-205`, and the path of the error it returns. -/
def unmarshalP (c : DCfg) (n : Nat) (t : Ty) (b : Bytes) (p : DV) : URes × List Bytes :=
  match parseIntoP (decNP c n t) b p with
  | (.crash x, _) => (.crash x, [])
  | (.ok v r, _) => (.done v (if r ≠ [] then some .syntax else none), [])
  | (.err v r e, s) => if r ≠ [] then (.done v (some .syntax), []) else (.done v (some e), s)

end JC

import Verif.Model.Ints
/-!
Model of the choice of the encoding and decoding functions of a type: `constructCodec`,
`/repo/codec.go:79-213`, and the functions it calls, 215-471, 590-594 and 668-771.

A codec is represented by the function that was chosen, with the functions for element types. Struct
types are numbered and their codecs are found in the table `seen`, so that types can be recursive.

Simplifications: the fields of a struct are those that get a codec at 590, in order, and none of them is
embedded (C40 is about those); named pointer types (which have no methods) and the codec of the nil type
(81-82) are left out; the inline wrapper of values that are words of their own (71-73, 408-410) is the
subject of C58, the order of map keys that of C27.
-/
namespace JC

/-- Which of `Marshaler`, `encoding.TextMarshaler`, `Unmarshaler` and `encoding.TextUnmarshaler` a type
implements: the tests with `Implements`, `/repo/codec.go:191-208`. -/
structure Meths where
  jsonM : Bool := false
  textM : Bool := false
  jsonU : Bool := false
  textU : Bool := false
deriving DecidableEq, Repr

/-- The methods of a type and of pointers to it (`t` and `p` of `/repo/codec.go:187`). -/
structure MSets where
  val : Meths := {}
  ptr : Meths := {}
deriving DecidableEq, Repr

/-- The types that are compared by identity, `/repo/codec.go:84-100`: `json.Number`, `[]byte`, `time.Duration`,
`time.Time`, `interface{}` and `json.RawMessage`. -/
inductive Special where
  | number | bytes | duration | time | iface | raw
deriving DecidableEq, Repr

/-- Kinds of basic types, `/repo/codec.go:120-163`. -/
inductive BasicKind where
  | bool
  | int (k : IntKind)
  | float32 | float64
  | string
deriving DecidableEq, Repr

/-- What `constructMapCodec` asks of a key type, `/repo/codec.go:339-404`: is it the type `string` itself, of the kind of
strings, the type `time.Duration`, of the kind of an integer, or another type. -/
inductive KeyKind where
  | string | stringLike | duration
  | int (k : IntKind)
  | other
deriving DecidableEq, Repr

/-- A key type with its methods. -/
structure KeyTy where
  kind : KeyKind
  m : MSets := {}
deriving DecidableEq, Repr

/-- Go types, as far as `constructCodec` looks at them. -/
inductive GT where
  | special (s : Special)
  | basic (k : BasicKind) (m : MSets)
  /-- an interface type other than `interface{}` with the methods it asks for -/
  | ifc (m : Meths)
  | array (n : Nat) (e : GT) (m : MSets)
  | slice (e : GT) (m : MSets)
  | map (k : KeyTy) (e : GT) (m : MSets)
  | ptr (e : GT)
  | struct (id : Nat)
  /-- channels, functions, complex numbers -/
  | other (m : MSets)
deriving DecidableEq, Repr

/-- A struct type: the types of its fields with the `string` option, and its methods. -/
structure StructDecl where
  fields : List (GT × Bool)
  meths : MSets := {}

/-- All struct types. -/
abbrev TyEnv := Nat → StructDecl

/-- Encoding functions. -/
inductive EC where
  | special (s : Special)
  | basic (k : BasicKind)
  /-- `encodeMaybeEmptyInterface` -/
  | ifc
  | bytes
  /-- `encodeMapStringInterface` -/
  | mapSI
  /-- `encodeMapStringRawMessage` -/
  | mapRaw
  /-- `encodeUnsupportedTypeError` -/
  | unsupported
  | struct (id : Nat)
  /-- `encodeJSONMarshaler`; `addr`: the method is called on the address of the value -/
  | jsonM (addr : Bool)
  /-- `encodeTextMarshaler` -/
  | textM (addr : Bool)
  /-- `encodeKey` -/
  | key
  | array (n : Nat) (e : EC)
  | slice (e : EC)
  | map (k e : EC)
  | ptr (e : EC)
  /-- `encodeToString` -/
  | quoted (e : EC)
deriving DecidableEq, Repr

/-- Decoding functions. -/
inductive DC where
  | special (s : Special)
  | basic (k : BasicKind)
  | ifc
  | bytes
  | mapSI
  | mapRaw
  /-- `decodeUnmarshalTypeError` -/
  | unsupported
  | struct (id : Nat)
  /-- `decodeJSONUnmarshaler` -/
  | jsonU (addr : Bool)
  /-- `decodeTextUnmarshaler` -/
  | textU (addr : Bool)
  | array (n : Nat) (e : DC)
  | slice (e : DC)
  | map (k e : DC)
  | ptr (e : DC)
  /-- `decodeFromString` -/
  | quoted (e : DC)
  /-- `decodeFromStringToInt` -/
  | quotedInt (e : DC)
deriving DecidableEq, Repr

/-- `codec`, `/repo/codec.go:18-21`. -/
abbrev Codec := EC × DC

/-- `seen`: the struct types met so far with the codecs of their fields; `some none` is a type under construction,
`/repo/codec.go:445-456`. -/
abbrev CSeen := Nat → Option (Option (List Codec))

/-- The assignments at `/repo/codec.go:455-456`. -/
def CSeen.set (s : CSeen) (id : Nat) (x : Option (List Codec)) : CSeen := fun y => if y = id then some x else s y

/-- The methods of the types that are compared by identity. -/
def Special.meths : Special → MSets
  | .time => ⟨⟨true, true, false, false⟩, ⟨true, true, true, true⟩⟩
  | .raw => ⟨⟨true, false, false, false⟩, ⟨true, false, true, false⟩⟩
  | _ => {}

/-- The methods of a pointer to the type. Pointers to pointers and to interfaces have none. -/
def GT.ptrMeths (env : TyEnv) : GT → Meths
  | .special s => s.meths.ptr
  | .basic _ m | .array _ _ m | .slice _ m | .map _ _ m | .other m => m.ptr
  | .struct id => (env id).meths.ptr
  | .ifc _ | .ptr _ => {}

/-- The last part of `constructCodec`, `/repo/codec.go:187-212`: methods take the place of what the kind of the
type gives. -/
def withMethods (m : MSets) (canAddr : Bool) (c : Codec) : Codec :=
  let e :=
    if canAddr then
      if m.ptr.jsonM then .jsonM true
      else if m.ptr.textM then .textM true
      else c.1
    else c.1
  let e :=
    if m.val.jsonM then .jsonM false
    else if m.val.textM then .textM false
    else e
  let d :=
    if m.ptr.jsonU then .jsonU true
    else if m.ptr.textU then .textU true
    else c.2
  (e, d)

/-- The test for elements of kind `uint8`, `/repo/codec.go:269`; gives the methods of the element type. -/
def byteElem : GT → Option MSets
  | .basic (.int .uint8) m => some m
  | _ => none

/-- `constructSliceCodec` for elements of kind `uint8`, `/repo/codec.go:269-311`. -/
def byteSlice (m : MSets) : Codec :=
  (if m.val.jsonM then .slice (.jsonM false)
   else if m.val.textM then .slice (.textM false)
   else if m.ptr.jsonM then .slice (.jsonM true)
   else if m.ptr.textM then .slice (.textM true)
   else .bytes,
   if m.val.jsonU then .slice (.jsonU false)
   else if m.val.textU then .slice (.textU false)
   else if m.ptr.jsonU then .slice (.jsonU true)
   else if m.ptr.textU then .slice (.textU true)
   else .bytes)

/-- The key codecs, `/repo/codec.go:355-406`; `none`: the map type is not supported. The codec of an integer key is
that of `constructStringCodec`, 215-221, which calls `constructCodec` for the key type. -/
def keyCodec (k : KeyTy) : Option Codec :=
  if k.m.val.textM || k.m.ptr.textU then some (.textM false, .textU true)
  else match k.kind with
    | .string | .stringLike => some (.key, .basic .string)
    | .int i =>
      let c := withMethods k.m false (.basic (.int i), .basic (.int i))
      some (.quoted c.1, .quoted c.2)
    | .duration => some (.quoted (.special .duration), .quoted (.special .duration))
    | .other => none

/-- The pointer types that are compared by identity, `/repo/codec.go:102-112`: whether the element type is of those. -/
def ownPtr : GT → Bool
  | .special .number | .special .duration | .special .time | .special .raw => true
  | _ => false

/-- `constructCodec`, `/repo/codec.go:79-213`, with `constructArrayCodec` (241-249), `constructSliceCodec` (265-318),
`constructMapCodec` (332-416), `constructPointerCodec` (714-721), `constructInterfaceCodec` (735-740) and
`constructUnsupportedTypeCodec` (754-759); `c` is `constructStructType`, `σ` what it keeps in `seen`. -/
def constructCodec {σ : Type} (env : TyEnv) (c : Nat → Bool → σ → σ) : GT → Bool → σ → Codec × σ
  | .special s, _, seen => ((.special s, .special s), seen)
  | .basic k m, a, seen => (withMethods m a (.basic k, .basic k), seen)
  | .ifc m, a, seen => (withMethods ⟨m, {}⟩ a (.ifc, .ifc), seen)
  | .array n e m, a, seen =>
    let r := constructCodec env c e a seen
    (withMethods m a (.array n r.1.1, .array n r.1.2), r.2)
  | .slice e m, a, seen =>
    match byteElem e with
    | some me => (withMethods m a (byteSlice me), seen)
    | none =>
      let r := constructCodec env c e true seen
      (withMethods m a (.slice r.1.1, .slice r.1.2), r.2)
  | .map k e m, a, seen =>
    if k.kind = .string ∧ e = .special .iface then (withMethods m a (.mapSI, .mapSI), seen)
    else if k.kind = .string ∧ e = .special .raw then (withMethods m a (.mapRaw, .mapRaw), seen)
    else
      let r := constructCodec env c e false seen
      match keyCodec k with
      | none => (withMethods m a (.unsupported, .unsupported), r.2)
      | some kc => (withMethods m a (.map kc.1 r.1.1, .map kc.2 r.1.2), r.2)
  | .ptr e, a, seen =>
    let r := constructCodec env c e true seen
    (if ownPtr e then (.ptr r.1.1, .ptr r.1.2) else withMethods ⟨e.ptrMeths env, {}⟩ a (.ptr r.1.1, .ptr r.1.2), r.2)
  | .struct id, a, seen => (withMethods (env id).meths a (.struct id, .struct id), c id a seen)
  | .other m, a, seen => (withMethods m a (.unsupported, .unsupported), seen)

/-- The kind of a type, as `stringify` sees it, `/repo/codec.go:682-702`: an integer (`true`), another scalar, or neither. -/
def scalarKind : GT → Option Bool
  | .special .number => some false
  | .special .duration => some true
  | .basic (.int _) _ => some true
  | .basic _ _ => some false
  | _ => none

/-- `/repo/codec.go:676-680`. -/
def derefOnce : GT → GT
  | .ptr e => e
  | t => t

/-- `stringify`, `/repo/codec.go:668-705`. -/
def stringify (t : GT) (c : Codec) : Codec :=
  match scalarKind (derefOnce t) with
  | some true => (.quoted c.1, .quotedInt c.2)
  | some false => (.quoted c.1, .quoted c.2)
  | none => c

/-- The loop over the fields, `/repo/codec.go:517-609`, as far as codecs go: 590-594. -/
def fieldCodecs (env : TyEnv) (c : Nat → Bool → CSeen → CSeen) : List (GT × Bool) → Bool → CSeen → List Codec × CSeen
  | [], _, seen => ([], seen)
  | f :: fs, a, seen =>
    let r := constructCodec env c f.1 a seen
    let cs := fieldCodecs env c fs a r.2
    ((if f.2 then stringify f.1 r.1 else r.1) :: cs.1, cs.2)

/-- `constructStructType`, `/repo/codec.go:442-471`. The number is fuel: every level of the recursion adds a type to
`seen`. -/
def constructStruct (env : TyEnv) : Nat → Nat → Bool → CSeen → CSeen
  | 0, _, _, seen => seen
  | n + 1, id, a, seen =>
    match seen id with
    | some _ => seen
    | none =>
      let r := fieldCodecs env (constructStruct env n) (env id).fields a (seen.set id none)
      r.2.set id (some r.1)

/-- The test `t.Kind() == reflect.Pointer`, `/repo/codec.go:69`. -/
def GT.isPtr : GT → Bool
  | .ptr _ => true
  | _ => false

/-- `constructCachedCodec`, `/repo/codec.go:68-77`, without the cache: the codec of a type that `Append` or `Parse` met,
and the codecs of the fields of the struct types in it, of which there are `count`. -/
def codecOf (env : TyEnv) (count : Nat) (t : GT) : Codec × CSeen :=
  constructCodec env (constructStruct env count) t t.isPtr (fun _ => none)

end JC

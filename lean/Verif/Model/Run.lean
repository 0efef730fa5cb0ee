import Verif.Model.Codec
import Verif.Model.Recur
import Verif.Model.TextKey
/-!
Running the decoding functions that `constructCodec` has put together: the closures of `/repo/codec.go:229-239`
(strings), 258-263 (arrays), 326-330 (slices), 424-432 (maps), 479-483 (structs), 729-733 (pointers), 748-752
(interfaces), 767-771 (unsupported types), 779-783 and 791-795 (methods).

`Model/Codec.lean` says which function is chosen for a type, `Model/Decode.lean` what each function does. A closure
keeps the function for the elements and the type, from which it takes zero values and the methods to call.

What Go's types have beyond `GT` is in `Decls`. HasNames types of the same kind with the same methods are one type in `GT`,
so that they answer alike here. Keys of type `time.Duration`, and integer keys with `UnmarshalJSON`, are not represented.
-/
namespace JC

/-- What methods answer, and the names of fields. -/
structure Decls where
  /-- the error of `UnmarshalJSON` of a type for a text -/
  jsonU : GT → Bytes → Option Err
  /-- the error of `UnmarshalText` of a type for a text -/
  textU : GT → Bytes → Option Err
  /-- the text methods of a key type -/
  key : KeyTy → TextKey
  /-- an interface type has no methods at all (`NumMethod`, `/repo/decode.go:1079`) -/
  empty : Meths → Bool
  /-- the names of the fields of a struct type -/
  names : Nat → List Bytes

/-- The types with functions of their own, as `Model/Decode.lean` has them, `/repo/codec.go:84-100`. -/
def Special.ty : Special → Ty
  | .number => .number
  | .bytes => .bytes
  | .duration => .duration
  | .time => .time
  | .iface => .iface
  | .raw => .raw

/-- `/repo/codec.go:120-163` -/
def BasicKind.ty : BasicKind → Ty
  | .bool => .bool
  | .int k => .int k
  | .float32 => .float32
  | .float64 => .float64
  | .string => .string

/-- The type of the elements, `t.Elem()` (`/repo/codec.go:242`, 266, 335, 715). -/
def GT.elem : GT → GT
  | .array _ e _ | .slice e _ | .map _ e _ | .ptr e => e
  | t => t

/-- A call of a method of a type that does not have it, or of a value that is no pointer as if it was one
(`/repo/decode.go:1122-1128`, 1153-1160): where the method would be called there is a panic. -/
def noMethod (dec : Dec) : Dec := fun b p =>
  match dec b p with
  | .ok (.user (some _)) _ => .crash .panic
  | res => res

/-- The key function of a map with the type of its keys, chosen in `/repo/codec.go:355-398`; `none`: not represented. -/
def keyFun (w : Decls) (k : KeyTy) : DC → Option KTy
  | .basic .string => some .str
  | .quoted (.basic (.int i)) => some (.int i)
  | .textU _ => some (.text (w.key k))
  | _ => none

/-- `decodeMap` with a key function, `/repo/decode.go:649-728`. -/
def runMap (w : Decls) (t : GT) (k : DC) (elem : Dec) (z : DV) : Dec :=
  match t with
  | .map kt _ _ =>
    if k = .textU true ∧ kt.m.ptr.textU = false then decodeMapNoText
    else match keyFun w kt k with
      | some k => decodeMap k elem z
      | none => fun _ _ => .crash .fuel
  | _ => fun _ _ => .crash .fuel

/-- Running a decoding function that was chosen for the type (the closures of `/repo/codec.go:229-795` listed above); `structs` runs those of struct types, `z` gives zero
values. -/
def run (c : DCfg) (dyn : Ty → Dec) (w : Decls) (structs : Nat → Dec) (z : GT → DV) : DC → GT → Dec
  | .special s, _ => dec c dyn s.ty
  | .basic k, _ => dec c dyn k.ty
  | .ifc, t => decodeIfaceM c dyn (match t with | .ifc m => w.empty m | _ => false)
  | .bytes, _ => decodeBytes
  | .mapSI, _ => dec c dyn .mapSI
  | .mapRaw, _ => dec c dyn .mapRaw
  | .unsupported, _ => decodeUnmarshalTypeError
  | .struct id, _ => structs id
  | .jsonU addr, t => if addr then decodeJSONUnmarshaler (w.jsonU t) else noMethod (decodeJSONUnmarshaler fun _ => none)
  | .textU addr, t => if addr then decodeTextUnmarshaler (w.textU t) else noMethod (decodeTextUnmarshaler fun _ => none)
  | .array n e, t => decodeArray n (run c dyn w structs z e t.elem) (z t.elem)
  | .slice e, t => decodeSlice (run c dyn w structs z e t.elem) (z t.elem)
  | .map k e, t => runMap w t k (run c dyn w structs z e t.elem) (z t.elem)
  | .ptr e, t => decodePointer t.elem.isPtr (run c dyn w structs z e t.elem) (z t.elem)
  | .quoted e, t => decodeFromString (run c dyn w structs z e t)
  | .quotedInt e, t => decodeFromStringToInt c.lib (run c dyn w structs z e t)

/-- `decodeStruct` called through the closures for the struct types in `seen`, `/repo/codec.go:479-483`, with room for `n` calls. -/
def runStruct (c : DCfg) (dyn : Ty → Dec) (w : Decls) (env : TyEnv) (seen : CSeen) (z : GT → DV) : Nat → Nat → Dec
  | 0, _ => fun _ _ => .crash .fuel
  | n + 1, id =>
    match seen id with
    | some (some cs) => decodeStruct c (w.names id) (List.zipWith (fun f d => run c dyn w (runStruct c dyn w env seen z n) z d.2 f.1) (env id).fields cs)
    | _ => fun _ _ => .crash .panic

/-- Where pointers in interfaces are followed at most `k` deep (see `decN`), `/repo/decode.go:1005`. -/
def dynN (c : DCfg) : Nat → Ty → Dec
  | 0 => fun _ _ _ => .crash .fuel
  | k + 1 => decN c k

/-- `Unmarshal` into a non-nil pointer to a variable of type `t`, `/repo/json.go:193-205`, with `Parse`, 210-232: the
function is made by `constructCachedCodec` and run. `count`: the number of struct types. -/
def unmarshalG (c : DCfg) (w : Decls) (env : TyEnv) (count : Nat) (z : GT → DV) (n k : Nat) (t : GT) (b : Bytes) (p : DV) : URes :=
  let r := codecOf env count t
  match parseInto (run c (dynN c k) w (runStruct c (dynN c k) w env r.2 z n) z r.1.2 t) b p with
  | .crash x => .crash x
  | .ok v r => .done v (if r ≠ [] then some .syntax else none)
  | .err v r e => .done v (if r ≠ [] then some .syntax else some e)

end JC

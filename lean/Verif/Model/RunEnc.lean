import Verif.Model.Run
import Verif.Model.Value
/-!
Running the encoding functions that `constructCodec` has put together: the closures of `/repo/codec.go:223-227`
(strings), 251-256 (arrays), 320-324 (slices), 418-422 (maps), 473-477 (structs), 723-727 (pointers), 742-746
(interfaces), 761-765 (unsupported types), 773-777 and 785-789 (methods).

`Model/Codec.lean` says which function is chosen for a type; a `GV` of `Model/Encode.lean` is a function of the encoder with
the memory it is applied to. `see` goes through the memory of a variable with the functions that were chosen.

Simplifications: maps are gone through in the order of their contents (C27 is about the order); keys of type
`time.Duration` and integer keys with `MarshalJSON` are not represented, nor is the memory of types with an unmarshaling
method that are written by their kind.
-/
namespace JC

/-- What marshaling methods answer, and the `omitempty` options of fields. -/
structure MDecls where
  /-- `MarshalJSON` of a type, or of pointers to it, for a value -/
  jsonM : GT → DV → JsonRes
  /-- `MarshalText` -/
  textM : GT → DV → TextRes
  /-- the options of the fields of a struct type -/
  omits : Nat → List Bool
  /-- `emptyFuncOf` for memory that an unmarshaling method has written -/
  emptyU : GT → Option Bytes → Bool

/-- `emptyFuncOf`, `/repo/codec.go:862-916`: memory that `omitempty` drops. -/
def memEmpty (d : MDecls) (t : GT) : DV → Bool
  | .bool v => !v
  | .int z => z == 0
  | .float (.fin _ t _) => t == bs! "0" || t == bs! "-0"
  | .number s | .string s => s.length == 0
  | .bytes s _ => s.length == 0
  | .slice xs _ => xs.length == 0
  | .array xs => xs.length == 0
  | .map es => es.length == 0
  | .bytesNil | .ifaceNil | .sliceNil | .mapNil | .ptrNil | .rawNil => true
  | .raw s => s.length == 0
  | .iface _ v => v.nilWord
  | .user s => d.emptyU t s
  | _ => false

/-- The test for nil pointers and interfaces, `/repo/encode.go:1004-1015`, 1028-1039. -/
def nilReceiver (addr : Bool) : DV → Bool
  | .ptrNil | .ifaceNil => !addr
  | _ => false

/-- The functions that do not go into the elements of a value. -/
def seeLeaf (w : Decls) (d : MDecls) (v : DV) (t : GT) : EC → GV
  | .special s => toGV v s.ty
  | .basic k => toGV v k.ty
  | .ifc => toGV v (.ifaceM (match t with | .ifc m => w.empty m | _ => false))
  | .bytes => toGV v .bytes
  | .mapSI => toGV v .mapSI
  | .mapRaw => toGV v .mapRaw
  | .jsonM addr => .jsonM (if nilReceiver addr v then .isNil else d.jsonM t v) (memEmpty d t v)
  | .textM addr => .textM (if nilReceiver addr v then .isNil else d.textM t v) (memEmpty d t v)
  | _ => .unsupported

/-- `encodeToString` is applied to scalars and pointers to scalars, `/repo/codec.go:668-705`. -/
def seeQuoted (w : Decls) (d : MDecls) (v : DV) (t : GT) : EC → GV
  | .ptr e =>
    match v with
    | .ptrNil => .ptrNil
    | .ptr v => .ptr (seeLeaf w d v t.elem e)
    | _ => .unsupported
  | e => seeLeaf w d v t e

/-- The function of the keys of a map, `/repo/codec.go:355-406`. A key type that has no `MarshalText` panics in
`encodeTextMarshaler`. -/
def seeKey (w : Decls) (t : GT) (e : EC) (k : MK) : MKey :=
  match e, t with
  | .key, _ => k.toKey .str
  | .quoted (.basic (.int i)), _ => k.toKey (.int i)
  | .textM _, .map kt _ _ => if kt.m.val.textM then k.toKey (.text (w.key kt)) else .text .absent
  | _, _ => .str []

/-- A struct field as `encodeStruct` reads it, `/repo/codec.go:596-606`. -/
def fieldMeta (names : List Bytes) (omits : List Bool) : List FMeta := List.zipWith (fun n o => ⟨n, o⟩) names omits

mutual
/-- What an encoding function that was chosen for the type does to the contents of a variable (the closures of
`/repo/codec.go:223-789` listed above). -/
def see (w : Decls) (d : MDecls) (env : TyEnv) (seen : CSeen) : DV → EC → GT → GV
  | v, .quoted e, t => .quoted (seeQuoted w d v t e)
  | .sliceNil, .slice _, _ => .sliceNil
  | .slice xs _, .slice e, t => .slice (seeL w d env seen xs e t.elem)
  | .bytesNil, .slice _, _ => .sliceNil
  | .bytes s _, .slice e, t => .slice (s.map fun b => seeLeaf w d (.int b.toNat) t.elem e)
  | .array xs, .array _ e, t => .array (seeL w d env seen xs e t.elem)
  | .mapNil, .map _ _, _ => .mapNil
  | .map es, .map k e, t => .map (seeE w d env seen es k e t)
  | .ptrNil, .ptr _, _ => .ptrNil
  | .ptr v, .ptr e, t => .ptr (see w d env seen v e t.elem)
  | .struct xs, .struct id, _ =>
    match seen id with
    | some (some cs) => .struct (seeF w d env seen xs (List.zipWith (fun f c => (c.1, f.1)) (env id).fields cs) (fieldMeta (w.names id) (d.omits id)))
    | _ => .struct []
  | v, e, t => seeLeaf w d v t e
def seeL (w : Decls) (d : MDecls) (env : TyEnv) (seen : CSeen) : List DV → EC → GT → List GV
  | [], _, _ => []
  | v :: vs, e, t => see w d env seen v e t :: seeL w d env seen vs e t
def seeE (w : Decls) (d : MDecls) (env : TyEnv) (seen : CSeen) : List (MK × DV) → EC → EC → GT → List (MKey × GV)
  | [], _, _, _ => []
  | (k, v) :: es, ke, e, t => (seeKey w t ke k, see w d env seen v e t.elem) :: seeE w d env seen es ke e t
def seeF (w : Decls) (d : MDecls) (env : TyEnv) (seen : CSeen) : List DV → List (EC × GT) → List FMeta → List (FMeta × GV)
  | v :: vs, f :: fs, m :: ms => (m, see w d env seen v f.1 f.2) :: seeF w d env seen vs fs ms
  | _, _, _ => []
end

/-- `Append` of a variable of type `t`, `/repo/json.go:122-142`: the function is made by `constructCachedCodec` and run. -/
def appendG (cf : Cfg) (w : Decls) (d : MDecls) (env : TyEnv) (count : Nat) (t : GT) (v : DV) : Enc :=
  let r := codecOf env count t
  enc cf (see w d env r.2 v r.1.1 t)

end JC

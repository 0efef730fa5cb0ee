import Verif.Model.Codec
/-!
Model of `constructCodec`, `/repo/codec.go:79-213`, on all Go types, which may refer to
themselves: `type S []S`, `type M map[string]M`, `type P *P`, `type T struct { Next *T }`.
The types of `Model/Codec.lean` refer to themselves through structs only.

`constructCodec` looks up struct types among those met before, and no others; the depth
of its calls is bounded by the stack only. A goroutine whose stack is used up dies; this
is the result `none` of a run with too little stack. The simplifications are those of
`Model/Codec.lean` but for pointer types, which may be named.
-/
namespace JC

/-- A Go type, its element types and the types of its fields given by their numbers. -/
inductive TNode where
  | special (s : Special)
  | basic (k : BasicKind) (m : MSets)
  | ifc (m : Meths)
  | array (n : Nat) (e : Nat) (m : MSets)
  | slice (e : Nat) (m : MSets)
  | map (k : KeyTy) (e : Nat) (m : MSets)
  | ptr (e : Nat)
  | struct (fields : List (Nat × Bool)) (m : MSets)
  | other (m : MSets)
deriving DecidableEq, Repr

/-- All types. -/
abbrev Types := Nat → TNode

/-- `Elem`, for the kinds of types that have one. -/
def TNode.elem : TNode → Option Nat
  | .array _ e _ | .slice e _ | .map _ e _ | .ptr e => some e
  | _ => none

/-- The methods of a pointer to the type. -/
def TNode.ptrMeths : TNode → Meths
  | .special s => s.meths.ptr
  | .basic _ m | .array _ _ m | .slice _ m | .map _ _ m | .other m | .struct _ m => m.ptr
  | .ifc _ | .ptr _ => {}

/-- The test for elements of kind `uint8`, `/repo/codec.go:269`; gives the methods of the
element type. -/
def byteNode : TNode → Option MSets
  | .basic (.int .uint8) m => some m
  | _ => none

/-- The pointer types that are compared by identity, `/repo/codec.go:102-112`. -/
def ownNode : TNode → Bool
  | .special .number | .special .duration | .special .time | .special .raw => true
  | _ => false

/-- The kind of a type, as `stringify` sees it, `/repo/codec.go:682-702`. -/
def scalarNode : TNode → Option Bool
  | .special .number => some false
  | .special .duration => some true
  | .basic (.int _) _ => some true
  | .basic _ _ => some false
  | _ => none

/-- `/repo/codec.go:676-680`. -/
def derefNode (ts : Types) : TNode → TNode
  | .ptr e => ts e
  | t => t

/-- `stringify`, `/repo/codec.go:668-705`. -/
def stringifyT (ts : Types) (t : Nat) (c : Codec) : Codec :=
  match scalarNode (derefNode ts (ts t)) with
  | some true => (.quoted c.1, .quotedInt c.2)
  | some false => (.quoted c.1, .quoted c.2)
  | none => c

/-- The loop over the fields, `/repo/codec.go:517-609`, as far as codecs go: 590-594. -/
def fieldsT (ts : Types) (c : Nat → Bool → CSeen → Option (Codec × CSeen)) : List (Nat × Bool) → Bool → CSeen → Option (List Codec × CSeen)
  | [], _, seen => some ([], seen)
  | f :: fs, a, seen =>
    match c f.1 a seen with
    | none => none
    | some r =>
      match fieldsT ts c fs a r.2 with
      | none => none
      | some cs => some ((if f.2 then stringifyT ts f.1 r.1 else r.1) :: cs.1, cs.2)

/-- `constructCodec`, `/repo/codec.go:79-213`, with `constructArrayCodec` (241-249),
`constructSliceCodec` (265-318), `constructMapCodec` (332-416), `constructPointerCodec`
(714-721), `constructStructType` (442-471), `constructInterfaceCodec` (735-740) and
`constructUnsupportedTypeCodec` (754-759), with stack for a given number of nested
types. -/
def constructT (ts : Types) : Nat → Nat → Bool → CSeen → Option (Codec × CSeen)
  | 0, _, _, _ => none
  | n + 1, t, a, seen =>
    match ts t with
    | .special s => some ((.special s, .special s), seen)
    | .basic k m => some (withMethods m a (.basic k, .basic k), seen)
    | .ifc m => some (withMethods ⟨m, {}⟩ a (.ifc, .ifc), seen)
    | .array l e m => (constructT ts n e a seen).map fun r => (withMethods m a (.array l r.1.1, .array l r.1.2), r.2)
    | .slice e m =>
      match byteNode (ts e) with
      | some me => some (withMethods m a (byteSlice me), seen)
      | none => (constructT ts n e true seen).map fun r => (withMethods m a (.slice r.1.1, .slice r.1.2), r.2)
    | .map k e m =>
      if k.kind = .string ∧ ts e = .special .iface then some (withMethods m a (.mapSI, .mapSI), seen)
      else if k.kind = .string ∧ ts e = .special .raw then some (withMethods m a (.mapRaw, .mapRaw), seen)
      else (constructT ts n e false seen).map fun r =>
        match keyCodec k with
        | none => (withMethods m a (.unsupported, .unsupported), r.2)
        | some kc => (withMethods m a (.map kc.1 r.1.1, .map kc.2 r.1.2), r.2)
    | .ptr e => (constructT ts n e true seen).map fun r =>
        (if ownNode (ts e) then (.ptr r.1.1, .ptr r.1.2) else withMethods ⟨(ts e).ptrMeths, {}⟩ a (.ptr r.1.1, .ptr r.1.2), r.2)
    | .struct fs m =>
      match seen t with
      | some _ => some (withMethods m a (.struct t, .struct t), seen)
      | none => (fieldsT ts (constructT ts n) fs a (seen.set t none)).map fun r =>
          (withMethods m a (.struct t, .struct t), r.2.set t (some r.1))
    | .other m => some (withMethods m a (.unsupported, .unsupported), seen)

/-- The test `t.Kind() == reflect.Pointer`, `/repo/codec.go:69`. -/
def TNode.isPtr : TNode → Bool
  | .ptr _ => true
  | _ => false

/-- `constructCachedCodec`, `/repo/codec.go:68-77`, without the cache. -/
def codecT (ts : Types) (n : Nat) (t : Nat) : Option (Codec × CSeen) :=
  constructT ts n t (ts t).isPtr (fun _ => none)

end JC

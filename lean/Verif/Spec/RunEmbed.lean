import Verif.Model.RunEmbed
import Verif.Spec.Promote
import Verif.Spec.Run
/-!
Specification for C85: decoding into variables of declared struct types with embedded structs. The members of a struct are those of
Go's rule (C40); a member stands for a field that is read as its type says (C82); embedded structs are on the way to
it, and nil pointers on the way are set.
-/
namespace JC.Spec
open JC

/-- The members of a struct, by Go's rule and in order of declaration: names and paths. -/
def MembersOf (fs : List SItem) (l : List (Bytes × List Nat)) : Prop :=
  (l.map (·.2)).Pairwise Before ∧ ∀ n p, (n, p) ∈ l ↔ ∃ t, Dominant fs ⟨p, n, t⟩

/-- A step on the way to a promoted field: into an embedded struct, or through an embedded pointer to a struct of type `id`, whose type is
unexported or not. -/
inductive Hop where
  | struct (i : Nat)
  | ptr (i : Nat) (unexported : Bool) (id : Nat)
deriving DecidableEq, Repr

/-- A promoted field: the way to its struct, its number there, and its declaration. -/
structure Place where
  way : List Hop
  idx : Nat
  field : PField

/-- Where a path leads. -/
def place (env : PEnv) : Nat → List Nat → Option Place
  | _, [] => none
  | id, [i] => (env id).fields[i]?.map fun f => ⟨[], i, f⟩
  | id, i :: path =>
    match (env id).fields[i]? with
    | none => none
    | some f =>
      match embeds f with
      | none => none
      | some (id', ptr) => (place env id' path).map fun q => { q with way := (if ptr then .ptr i f.unexported id' else .struct i) :: q.way }

/-- What the field holds; behind a nil pointer, what it holds in a zeroed struct (`zs`). -/
def look (zs : Nat → DV) : List Hop → Nat → DV → DV
  | [], i, v => v.field i
  | .struct j :: hs, i, v => look zs hs i (v.field j)
  | .ptr j _ id :: hs, i, v => look zs hs i (match v.field j with | .ptr x => x | _ => zs id)

/-- Storing in the field; nil pointers on the way are set. -/
def store (zs : Nat → DV) : List Hop → Nat → DV → DV → DV
  | [], i, x, v => v.setField i x
  | .struct j :: hs, i, x, v => v.setField j (store zs hs i x (v.field j))
  | .ptr j _ id :: hs, i, x, v => v.setField j (.ptr (store zs hs i x (match v.field j with | .ptr x => x | _ => zs id)))

/-- There is a nil pointer of unexported type on the way. -/
def barred (zs : Nat → DV) : List Hop → DV → Bool
  | [], _ => false
  | .struct j :: hs, v => barred zs hs (v.field j)
  | .ptr j u id :: hs, v => match v.field j with | .ptr x => barred zs hs x | _ => u || barred zs hs (zs id)

/-- The pointers before that one are set. -/
def unbarred (zs : Nat → DV) : List Hop → DV → DV
  | [], v => v
  | .struct j :: hs, v => v.setField j (unbarred zs hs (v.field j))
  | .ptr j u id :: hs, v => match v.field j with
    | .ptr x => v.setField j (.ptr (unbarred zs hs x))
    | _ => if u then v else v.setField j (.ptr (unbarred zs hs (zs id)))

/-- Decoding a member into the field it stands for. -/
def intoPlace (zs : Nat → DV) (q : Place) (dec : Dec) : Dec := fun b v =>
  if barred zs q.way v then .err (unbarred zs q.way v) [] (.other 3)
  else (dec b (look zs q.way q.idx v)).map fun x => store zs q.way q.idx x v

/-- Decoding into a struct of type `id`, with room for `n` structs within each other. -/
noncomputable def structS (c : DCfg) (dyn : Ty → Dec) (w : Decls) (env : PEnv) (mem : Nat → List (Bytes × List Nat)) (z : NTy → DV) : Nat → Nat → Dec
  | 0, _ => fun _ _ => .crash .fuel
  | n + 1, id => decodeStructV c ((mem id).map (·.1)) ((mem id).map fun m =>
      match place env id m.2 with
      | some q => intoPlace (fun id => z (.ref id)) q (decWith c dyn (structS c dyn w env mem z n) z (fieldReading w env.ty (option q.field)))
      | none => fun _ _ => .crash .panic)

/-- `Unmarshal` into a variable of type `t`. -/
noncomputable def unmarshalS (c : DCfg) (w : Decls) (env : PEnv) (mem : Nat → List (Bytes × List Nat)) (z : NTy → DV) (n k : Nat) (t : GT) (b : Bytes) (p : DV) : URes :=
  match parseInto (decWith c (dynN c k) (structS c (dynN c k) w env mem z n) z (reading w env.ty t)) b p with
  | .crash x => .crash x
  | .ok v r => .done v (if r ≠ [] then some .syntax else none)
  | .err v r e => .done v (if r ≠ [] then some .syntax else some e)

/-- The variable has the field: the structs on the way are there, behind nil pointers the zeroed ones. -/
def HasField (zs : Nat → DV) : List Hop → Nat → DV → Prop
  | [], i, v => i < v.fields.length
  | .struct j :: hs, i, v => j < v.fields.length ∧ HasField zs hs i (v.field j)
  | .ptr j _ id :: hs, i, v => j < v.fields.length ∧ HasField zs hs i (match v.field j with | .ptr x => x | _ => zs id)

/-- The zero value of a type: all fields of a struct have theirs, embedded structs too, and embedded pointers are nil. -/
def zeroS (w : Decls) (env : PEnv) : Nat → NTy → DV
  | 0 => zeroWith fun _ => .struct []
  | n + 1 => zeroWith fun id => .struct ((env id).fields.map fun f =>
      match embeds f with
      | some (id', false) => zeroS w env n (.ref id')
      | some (_, true) => .ptrNil
      | none => zeroS w env n (reading w env.ty f.type))

end JC.Spec

import Verif.Model.Run
import Verif.Model.Promote
/-!
Running the decoding functions of struct types with embedded structs: `decodeStruct`, `/repo/decode.go:868-955`, with the
fields that `constructStructType` found (`Model/Promote.lean`), and `decodeEmbeddedStructPointer`, `/repo/decode.go:957-969`.

`Model/Run.lean` has no embedded fields, and in `Model/Embed.lean` struct types are finite trees and nothing but the embedded
fields is a struct. Here an address inside a struct is a path: the struct that a field is in holds one value for every field of
the Go type, an embedded struct is a struct within it, and an embedded pointer is nil or leads to one. That offsets lead
where paths do is the matter of C66 and C73. Memory of another shape does not occur and is read as empty.
-/
namespace JC

/-- The values of all fields of a struct. -/
def DV.fields : DV → List DV
  | .struct vs => vs
  | _ => []

/-- One field. -/
def DV.field (p : DV) (i : Nat) : DV := p.fields.getD i (.user none)

/-- Writing to one field. -/
def DV.setField (p : DV) (i : Nat) (x : DV) : DV := .struct (p.fields.set i x)

/-- The struct type that a field has, or points to, `/repo/codec.go:556-564`. -/
def GT.embedded : GT → Option Nat
  | .struct id => some id
  | .ptr (.struct id) => some id
  | _ => none

/-- The codec of a promoted field on the address of the struct, `/repo/decode.go:940` with `/repo/codec.go:622-627`: the offsets
of embedded structs are added up; for every embedded pointer on the way there is a call of `decodeEmbeddedStructPointer`
(`/repo/decode.go:957-969`) with its `unexported` flag. `zs` gives zeroed memory of a struct type, `dec` is the decoding function of
the field, whose type it is told. -/
def atPath (env : PEnv) (zs : Nat → DV) (dec : GT → Dec) : Nat → List Nat → List Bool → Dec
  | _, [], _, _, _ => .crash .panic
  | id, [i], _, b, p =>
    match (env id).fields[i]? with
    | none => .crash .panic
    | some f => (dec f.type b (p.field i)).map (p.setField i)
  | id, i :: path, via, b, p =>
    match (env id).fields[i]? with
    | none => .crash .panic
    | some f =>
      match f.type.embedded with
      | none => .crash .panic
      | some id' =>
        if f.type.isPtr then
          match via with
          | [] => .crash .panic
          | u :: via =>
            match p.field i with
            | .ptr v => (atPath env zs dec id' path via b v).map fun v => p.setField i (.ptr v)
            | _ =>
              if u then .err p [] (.other 3)
              else (atPath env zs dec id' path via b (zs id')).map fun v => p.setField i (.ptr v)
        else (atPath env zs dec id' path via b (p.field i)).map (p.setField i)

/-- The loop of `decodeStruct`, `/repo/decode.go:887-954` (see `structLoopD`), where the function of a field takes the address of
the whole struct. -/
def structLoopV (c : DCfg) (names : List Bytes) (decs : List Dec) (input : Bytes) : Nat → Bool → DV → Bytes → DRes
  | 0, _, _, _ => .crash .fuel
  | n + 1, first, p, b =>
    let b := skipSpaces b
    if b.head? = some (ch! '}') then .ok p b.tail
    else
      let key : Bytes → DRes := fun b => match parseStringUnquote b [] with
        | .panic => .crash .panic
        | .fail r e => .err (.string []) r e
        | .ok s r _ => .ok (.string s) r
      match memberKey key first b with
      | .inl c => .crash c
      | .inr (.inl (r, e)) => .err p r e
      | .inr (.inr (kv, b)) =>
        let k := match kv with | .string s => s | _ => []
        match pickField c names k with
        | none =>
          if c.disallowUnknown then .err p b (.other 2)
          else match parseValue b with
            | .fail r e => .err p r e
            | .ok _ r => structLoopV c names decs input n false p r
        | some i =>
          match decs[i]? with
          | none => .crash .panic    -- not reached: one decoder per name
          | some dec =>
            match dec b p with
            | .crash c => .crash c
            | .err p _ e =>
              match parseValue input with
              | .fail r e2 => .err p r e2
              | .ok _ r => .err p r e
            | .ok p r => structLoopV c names decs input n false p r

/-- `decodeStruct`, `/repo/decode.go:868-955`. -/
def decodeStructV (c : DCfg) (names : List Bytes) (decs : List Dec) : Dec := fun b p =>
  if hasNullPrefix b then .ok p (b.drop 4)
  else match b with
    | [] => inputErr b p
    | ch :: t =>
      if b.length < 2 ∨ ch ≠ ch! '{' then inputErr b p
      else structLoopV c names decs b (b.length + 1) true (.struct p.fields) t

/-- `decodeStruct` called through the closures for the struct types in `seen`, `/repo/codec.go:479-483`, with room for `n` calls. -/
def runStructP (c : DCfg) (dyn : Ty → Dec) (w : Decls) (env : PEnv) (seen : PSeen) (z : GT → DV) (zs : Nat → DV) : Nat → Nat → Dec
  | 0, _ => fun _ _ => .crash .fuel
  | n + 1, id =>
    match seen id with
    | some (some ss) => decodeStructV c (ss.map (·.sf.name))
        (ss.map fun s => atPath env zs (run c dyn w (runStructP c dyn w env seen z zs n) z s.codec.2) id s.sf.path s.via)
    | _ => fun _ _ => .crash .panic

/-- `Unmarshal` into a non-nil pointer to a variable of type `t`, `/repo/json.go:193-205`, with `Parse`, 210-232 (see `unmarshalG`). The
names that `w` has for fields play no part: they are those of the declarations. -/
def unmarshalV (c : DCfg) (w : Decls) (letter : Nat → Bool) (env : PEnv) (count : Nat) (z : GT → DV) (zs : Nat → DV) (n k : Nat) (t : GT) (b : Bytes) (p : DV) : URes :=
  let r := codecP letter env count t
  match parseInto (run c (dynN c k) w (runStructP c (dynN c k) w env r.2 z zs n) z r.1.2 t) b p with
  | .crash x => .crash x
  | .ok v r => .done v (if r ≠ [] then some .syntax else none)
  | .err v r e => .done v (if r ≠ [] then some .syntax else some e)

end JC

import Verif.Spec.Meaning
/-!
The values for which the encoder keeps its promises, and when a document is
made of JSON tokens.  Each exclusion in `Clean` corresponds to a disagreement
recorded in DESIGN.md, with a counterexample theorem in `Props/`.
-/
namespace JC.Spec
open JC

/-- A field behind a nil embedded pointer. -/
def isRollback : GV → Bool
  | .embNil _ => true
  | .emb v _ => isRollback v
  | _ => false

/-- Types the `string` option applies to, without `MarshalJSON`. -/
def Stringable : GV → Prop
  | .bool _ | .int _ | .uint _ | .float _ | .number _ | .string _ | .textM _ _ | .ptrNil => True
  | .ptr v => Stringable v
  | _ => False

/-- A `json.Number` that is not a number followed by something else. -/
def CleanNumber (s : Bytes) : Prop := s = [] ∨ JNumber s ∨ ¬ ∃ p q, s = p ++ q ∧ JNumber p

/-- Trusted raw messages must be JSON. -/
def CleanRaw (c : Cfg) : Option Bytes → Prop
  | none => True
  | some s => c.trustRaw = true → IsJson s

/-- A raw message that is JSON without leading whitespace. -/
def StrictRaw : Option Bytes → Prop
  | none => True
  | some s => IsJson s ∧ ∀ x t, s = x :: t → ¬ IsWs x

/-- Errors of user code are not the encoder's internal `rollback`. -/
def CleanKey : MKey → Prop
  | .text .absent => False
  | .text .isNil => False
  | .text (.err e) => e ≠ .rollback
  | _ => True

mutual
def Clean (c : Cfg) : GV → Prop
  | .number s => CleanNumber s
  | .slice xs => CleanL c xs
  | .array xs => CleanL c xs
  | .map es => CleanE c es
  | .mapSI es => CleanS c es
  | .mapRaw es => if c.sortMapKeys then ∀ e ∈ es, CleanRaw c e.2 else ∀ e ∈ es, StrictRaw e.2
  | .struct fs => CleanF c false fs
  | .ptr v => Clean c v
  | .iface v _ => Clean c v
  | .raw s => CleanRaw c (some s)
  | .jsonM (.ok s) _ => CleanRaw c s
  | .jsonM (.err e) _ => e ≠ .rollback
  | .textM .absent _ => False
  | .textM (.err e) _ => e ≠ .rollback
  | .quoted v => Stringable v ∧ Clean c v
  | .embNil _ => False
  | .emb v _ => Clean c v
  | _ => True
def CleanL (c : Cfg) : List GV → Prop
  | [] => True
  | v :: vs => Clean c v ∧ CleanL c vs
def CleanE (c : Cfg) : List (MKey × GV) → Prop
  | [] => True
  | (k, v) :: es => CleanKey k ∧ Clean c v ∧ CleanE c es
def CleanS (c : Cfg) : List (Bytes × GV) → Prop
  | [] => True
  | (_, v) :: es => Clean c v ∧ CleanS c es
/-- Fields behind a nil embedded pointer come before all members written (`any`:
a member has been written). -/
def CleanF (c : Cfg) (any : Bool) : List (FMeta × GV) → Prop
  | [] => True
  | (m, v) :: fs =>
    if m.omitempty = true ∧ isEmpty v = true then CleanF c any fs
    else if isRollback v = true then any = false ∧ CleanF c any fs
    else Clean c v ∧ CleanF c true fs
end

mutual
/-- Every leaf of the document is a JSON scalar, every key a JSON string. -/
def DocOk : Doc → Prop
  | .leaf _ t => ScalarTok t
  | .arr xs => DocOkL xs
  | .obj ms => DocOkM ms
  | .bare _ => True
def DocOkL : List Doc → Prop
  | [] => True
  | x :: xs => DocOk x ∧ DocOkL xs
def DocOkM : List (Role × Bytes × Doc) → Prop
  | [] => True
  | (_, k, x) :: ms => JString k ∧ DocOk x ∧ DocOkM ms
end

/-- The tree of a scalar token. -/
def scalarJson (t : Bytes) : Json :=
  if t = [0x6e, 0x75, 0x6c, 0x6c] then .null
  else if t = [0x74, 0x72, 0x75, 0x65] then .tru
  else if t = [0x66, 0x61, 0x6c, 0x73, 0x65] then .fls
  else if t.head? = some 0x22 then .str t
  else .num t

mutual
/-- The tree of a document. -/
def jsonOf : Doc → Json
  | .leaf _ t => scalarJson t
  | .arr xs => .arr (jsonOfL xs)
  | .obj ms => .obj (jsonOfM ms)
  | .bare _ => .obj []
def jsonOfL : List Doc → List Json
  | [] => []
  | x :: xs => jsonOf x :: jsonOfL xs
def jsonOfM : List (Role × Bytes × Doc) → List (Bytes × Json)
  | [] => []
  | (_, k, x) :: ms => (k, jsonOf x) :: jsonOfM ms
end

/-- Prefix and indent are whitespace. -/
def WsLayout (c : Cfg) : Prop := ∀ i, c.ind = some i → Ws i.pre ∧ Ws i.indent

/-- Prefix and indent contain no ESC. -/
def NoEscLayout (c : Cfg) : Prop := ∀ i, c.ind = some i → 0x1b ∉ i.pre ∧ 0x1b ∉ i.indent

end JC.Spec

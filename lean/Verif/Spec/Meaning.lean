import Verif.Spec.Render
import Verif.Model.Parse
/-!
What a value means to the encoder: a document, an error, or neither (`wild`:
the inputs on which the code panics or writes something that is no rendering of
a document). There are no buffers, colors or nesting levels here.
-/
namespace JC.Spec
open JC

/-- Outcome of encoding, before layout and colors. -/
inductive Meaning where
  | doc (x : Doc)
  | err (e : Err)
  | wild

/-- Outcome for a list of elements or members. -/
inductive MeaningL (α : Type) where
  | ok (xs : List α)
  | err (e : Err)
  | wild

/-- Elements in order; the first that is no document decides. -/
def seqElems : List Meaning → MeaningL Doc
  | [] => .ok []
  | .err e :: _ => .err e
  | .wild :: _ => .wild
  | .doc x :: r => match seqElems r with
    | .ok xs => .ok (x :: xs)
    | .err e => .err e
    | .wild => .wild

/-- Outcome for a map key. -/
inductive KeyMeaning where
  | ok (r : Role) (t : Bytes)
  | err (e : Err)
  | wild

/-- Members in order: key, then value. -/
def seqMembers : List (KeyMeaning × Meaning) → MeaningL (Role × Bytes × Doc)
  | [] => .ok []
  | (.err e, _) :: _ => .err e
  | (.wild, _) :: _ => .wild
  | (.ok _ _, .err e) :: _ => .err e
  | (.ok _ _, .wild) :: _ => .wild
  | (.ok r t, .doc x) :: ms => match seqMembers ms with
    | .ok xs => .ok ((r, t, x) :: xs)
    | .err e => .err e
    | .wild => .wild

/-- Fields of a struct: those omitted are skipped; a field behind a nil embedded
pointer is skipped too, unless a member was written before (then the code
leaves a stray comma). -/
def seqFields (html : Bool) (any : Bool) : List (FMeta × Bool × Meaning) → MeaningL (Role × Bytes × Doc)
  | [] => .ok []
  | (m, empty, x) :: r =>
    if m.omitempty = true ∧ empty = true then seqFields html any r
    else match x with
      | .err e => if e = .rollback then (if any then .wild else seqFields html any r) else .err e
      | .wild => .wild
      | .doc x => match seqFields html true r with
        | .ok xs => .ok ((.key, quote html m.name, x) :: xs)
        | .err e => .err e
        | .wild => .wild

/-- An error inside a container. (`rollback` only arises for the fields of a
struct, where it is handled.) -/
def innerErr (e : Err) : Meaning := if e = .rollback then .wild else .err e

def MeaningL.toArr : MeaningL Doc → Meaning
  | .ok xs => .doc (.arr xs)
  | .err e => innerErr e
  | .wild => .wild

def MeaningL.toObj : MeaningL (Role × Bytes × Doc) → Meaning
  | .ok xs => .doc (.obj xs)
  | .err e => innerErr e
  | .wild => .wild

def MeaningL.toStruct (nl : Bool) : MeaningL (Role × Bytes × Doc) → Meaning
  | .ok [] => .doc (.bare nl)
  | .ok xs => .doc (.obj xs)
  | .err e => innerErr e
  | .wild => .wild

def nullDoc : Meaning := .doc (.leaf .null (bs! "null"))

open Classical in
/-- A raw message. Untrusted: the JSON value the scanner finds at its start (see
C02). Trusted: the document it is, if it is one. -/
noncomputable def rawMeaning (c : Cfg) : Option Bytes → Meaning
  | none => nullDoc
  | some s =>
    if c.trustRaw then
      if h : ∃ j, JText j s then .doc (docS c.escapeHTML false h.choose) else .wild
    else
      match parseValue s with
      | .fail _ _ => .err .unsupportedValue
      | .ok v _ => if h : ∃ j, JText j v then .doc (docS c.escapeHTML false h.choose) else .wild

def keyMeaning (c : Cfg) : MKey → KeyMeaning
  | .str s => .ok .key (quote c.escapeHTML s)
  | .int z => .ok .plain (quote c.escapeHTML (paint (styleOf c) .number (fmtInt z)))
  | .uint n => .ok .plain (quote c.escapeHTML (paint (styleOf c) .number (fmtNat n)))
  | .text .isNil => .ok .null (bs! "null")
  | .text (.err e) => .err e
  | .text (.ok s) => .ok .text (quote c.escapeHTML s)
  | .text .absent => .wild

/-- The exponent of a float text without its leading zero. -/
def cleanExp (text : Bytes) : Bytes :=
  match text.reverse with
  | x :: 0x30 :: 0x2d :: 0x65 :: r => r.reverse ++ [0x65, 0x2d, x]
  | _ => text

open Classical in
/-- `json.Number`: its text, or `0`. Text that only starts with a number is
accepted by the code, too; that is no document. -/
noncomputable def numberMeaning (s : Bytes) : Meaning :=
  let n := if s = [] then [0x30] else s
  if JNumber n then .doc (.leaf .number n)
  else match parseNumber n with
    | .fail _ e => .err e
    | .ok _ _ => .wild

/-- A field with the `string` option. -/
def quoteMeaning (c : Cfg) : Meaning → Meaning
  | .doc (.leaf r t) => .doc (.leaf .plain (quote c.escapeHTML (paint (styleOf c) r t)))
  | .doc _ => .wild
  | .err e => .err e
  | .wild => .wild

def textMeaning (c : Cfg) : TextRes → Meaning
  | .isNil => nullDoc
  | .err e => .err e
  | .ok s => .doc (.leaf .text (quote c.escapeHTML s))
  | .absent => .wild

mutual
noncomputable def meaning (c : Cfg) : GV → Meaning
  | .nil => nullDoc
  | .bool v => .doc (.leaf .bool (if v then bs! "true" else bs! "false"))
  | .int z => .doc (.leaf .number (fmtInt z))
  | .uint n => .doc (.leaf .number (fmtNat n))
  | .float .nan => .err .unsupportedValue
  | .float .inf => .err .unsupportedValue
  | .float (.fin expo t _) => .doc (.leaf .number (if expo then cleanExp t else t))
  | .number s => numberMeaning s
  | .string s => .doc (.leaf .string (quote c.escapeHTML s))
  | .bytesNil => .doc (.leaf .nilBytes (bs! "null"))
  | .bytes s => .doc (.leaf .bytes (0x22 :: (b64Encode s ++ [0x22])))
  | .time s _ => .doc (.leaf .time (0x22 :: (s ++ [0x22])))
  | .sliceNil => nullDoc
  | .slice xs => (seqElems (meanL c xs)).toArr
  | .array xs => (seqElems (meanL c xs)).toArr
  | .mapNil => nullDoc
  | .map es =>
    if c.sortMapKeys = true ∧ es.length ≥ 2 ∧ es.any (fun e => e.1.uncallable) = true then .wild
    else
      let es := meanE c es
      let es := if c.sortMapKeys then sortBy (fun e => e.1.sortText) es else es
      (seqMembers (es.map fun e => (keyMeaning c e.1, e.2))).toObj
  | .mapSI es =>
    let es := meanS c es
    let es := if c.sortMapKeys then sortBy (fun e => e.1) es else es
    (seqMembers (es.map fun e => (.ok .key (quote c.escapeHTML e.1), e.2))).toObj
  | .mapRaw es =>
    if c.sortMapKeys then
      (seqMembers ((sortBy (fun e => e.1) es).map fun e => (.ok .key (quote c.escapeHTML e.1), rawMeaning c e.2))).toObj
    else match seqMembers (es.map fun e => (.ok .key (quote c.escapeHTML e.1), rawMeaning c e.2)) with
      | .ok xs => .doc (.obj xs)
      | _ => .wild
  | .struct fs => (seqFields c.escapeHTML false (meanF c fs)).toStruct (!fs.isEmpty)
  | .ptrNil => nullDoc
  | .ptr v => meaning c v
  | .iface v _ => meaning c v
  | .rawNil => rawMeaning c none
  | .raw s => rawMeaning c (some s)
  | .jsonM .isNil _ => nullDoc
  | .jsonM (.err e) _ => .err e
  | .jsonM (.ok s) _ => rawMeaning c s
  | .textM r _ => textMeaning c r
  | .quoted v => quoteMeaning c (meaning c v)
  | .embNil _ => .err .rollback
  | .emb v _ => meaning c v
  | .unsupported => .err .unsupportedType
noncomputable def meanL (c : Cfg) : List GV → List Meaning
  | [] => []
  | v :: vs => meaning c v :: meanL c vs
noncomputable def meanE (c : Cfg) : List (MKey × GV) → List (MKey × Meaning)
  | [] => []
  | (k, v) :: es => (k, meaning c v) :: meanE c es
noncomputable def meanS (c : Cfg) : List (Bytes × GV) → List (Bytes × Meaning)
  | [] => []
  | (k, v) :: es => (k, meaning c v) :: meanS c es
noncomputable def meanF (c : Cfg) : List (FMeta × GV) → List (FMeta × Bool × Meaning)
  | [] => []
  | (m, v) :: fs => (m, isEmpty v, meaning c v) :: meanF c fs
end

mutual
/-- No `,string` fields and no integer map keys. -/
def NoQuoted : GV → Prop
  | .slice xs => NoQuotedL xs
  | .array xs => NoQuotedL xs
  | .map es => NoQuotedE es
  | .mapSI es => NoQuotedS es
  | .struct fs => NoQuotedF fs
  | .ptr v => NoQuoted v
  | .iface v _ => NoQuoted v
  | .quoted _ => False
  | .emb v _ => NoQuoted v
  | _ => True
def NoQuotedL : List GV → Prop
  | [] => True
  | v :: vs => NoQuoted v ∧ NoQuotedL vs
def NoQuotedE : List (MKey × GV) → Prop
  | [] => True
  | (k, v) :: es => (∀ z, k ≠ .int z) ∧ (∀ n, k ≠ .uint n) ∧ NoQuoted v ∧ NoQuotedE es
def NoQuotedS : List (Bytes × GV) → Prop
  | [] => True
  | (_, v) :: es => NoQuoted v ∧ NoQuotedS es
def NoQuotedF : List (FMeta × GV) → Prop
  | [] => True
  | (_, v) :: es => NoQuoted v ∧ NoQuotedF es
end

end JC.Spec

import Verif.Model.Encode
import Verif.Spec.Doc
/-!
Specification of encoder output: documents whose tokens carry a role, and how a
document is laid out and colored. Nothing here uses the encoding functions; the
texts of scalars come from the functions characterised by C05, C06, C39, C50
and C52.
-/
namespace JC.Spec
open JC

/-- What a token is, as far as colors are concerned. `plain` tokens are never
colored. -/
inductive Role where
  | null | bool | number | string | key | bytes | nilBytes | time | text | plain
  | bracket | brace | comma | colon
deriving DecidableEq, Repr

/-- A document to be written. `bare` is a struct of which no field is written
(`nl`: it has fields). -/
inductive Doc where
  | leaf (r : Role) (t : Bytes)
  | arr (xs : List Doc)
  | obj (ms : List (Role × Bytes × Doc))
  | bare (nl : Bool)

/-- Colors (or none) and, for indented output, prefix and indent. -/
structure Style where
  clrs : Option Colors
  lay : Option (Bytes × Bytes)

/-- `ESC [ 0 m` -/
def reset : Bytes := [0x1b, 0x5b, 0x30, 0x6d]

/-- The color configured for a role; punctuation falls back to `Punc`. -/
def colorOf (c : Colors) : Role → Bytes
  | .null => c.null
  | .bool => c.bool
  | .number => c.number
  | .string => c.string
  | .key => c.key
  | .bytes => c.bytes
  | .nilBytes => c.bytes
  | .time => c.time
  | .text => c.textMarshaler
  | .plain => []
  | .bracket => if c.brackets = [] then c.punc else c.brackets
  | .brace => if c.braces = [] then c.punc else c.braces
  | .comma => if c.comma = [] then c.punc else c.comma
  | .colon => if c.colon = [] then c.punc else c.colon

/-- A token in its color. A nil byte slice is a colored `null` inside the color
of byte slices. -/
def paint (st : Style) (r : Role) (t : Bytes) : Bytes :=
  match st.clrs with
  | none => t
  | some c =>
    match r with
    | .plain => t
    | .nilBytes => c.bytes ++ (c.null ++ t ++ reset) ++ reset
    | r => colorOf c r ++ t ++ reset

/-- Prefix and one indent per nesting level. -/
def margin (st : Style) (d : Nat) : Bytes :=
  match st.lay with
  | none => []
  | some (p, i) => p ++ (List.replicate d i).flatten

/-- A line break followed by the margin of nesting level `d`; nothing in compact output. -/
def newline (st : Style) (d : Nat) : Bytes :=
  match st.lay with
  | none => []
  | some _ => 0x0a :: margin st d

/-- The space after a colon. -/
def gap (st : Style) : Bytes := if st.lay.isSome then [0x20] else []

mutual
/-- The text of a document whose first line is already indented, at nesting level `d`. -/
def render (st : Style) (d : Nat) : Doc → Bytes
  | .leaf r t => paint st r t
  | .arr xs => paint st .bracket [0x5b] ++ (renderElems st (d + 1) true xs ++
      ((if xs = [] then [] else newline st d) ++ paint st .bracket [0x5d]))
  | .obj ms => paint st .brace [0x7b] ++ (renderMembers st (d + 1) true ms ++
      ((if ms = [] then [] else newline st d) ++ paint st .brace [0x7d]))
  | .bare nl => paint st .brace [0x7b] ++ ((if nl then newline st d else margin st d) ++ paint st .brace [0x7d])
def renderElems (st : Style) (d : Nat) (first : Bool) : List Doc → Bytes
  | [] => []
  | x :: xs => (if first then [] else paint st .comma [0x2c]) ++ (newline st d ++ (render st d x ++
      renderElems st d false xs))
def renderMembers (st : Style) (d : Nat) (first : Bool) : List (Role × Bytes × Doc) → Bytes
  | [] => []
  | (r, k, x) :: ms => (if first then [] else paint st .comma [0x2c]) ++ (newline st d ++ (paint st r k ++
      (paint st .colon [0x3a] ++ (gap st ++ (render st d x ++ renderMembers st d false ms)))))
end

/-- A Go string as JSON text (C05, C06). -/
def quote (html : Bool) (s : Bytes) : Bytes := doEncodeString html [] s

/-- A JSON string copied from source text (C52). -/
def copyStr (html : Bool) (s : Bytes) : Bytes := if html then appendCompactEscapeHTML [] s else s

mutual
/-- The document of a JSON tree: members and elements in order. -/
def docOf (html : Bool) : Json → Doc
  | .null => .leaf .null [0x6e, 0x75, 0x6c, 0x6c]
  | .tru => .leaf .bool [0x74, 0x72, 0x75, 0x65]
  | .fls => .leaf .bool [0x66, 0x61, 0x6c, 0x73, 0x65]
  | .num s => .leaf .number s
  | .str s => .leaf .string (copyStr html s)
  | .arr xs => .arr (docOfL html xs)
  | .obj ms => .obj (docOfM html ms)
def docOfL (html : Bool) : List Json → List Doc
  | [] => []
  | j :: xs => docOf html j :: docOfL html xs
def docOfM (html : Bool) : List (Bytes × Json) → List (Role × Bytes × Doc)
  | [] => []
  | (k, j) :: ms => (.key, copyStr html k, docOf html j) :: docOfM html ms
end

/-- The style of an encoder configuration. -/
def styleOf (c : Cfg) : Style :=
  ⟨c.clrs, match c.ind with
    | none => none
    | some i => if i.disabled then none else some (i.pre, i.indent)⟩

mutual
/-- The document as the code colors it: a scalar read while the tokenizer's key
flag `k` is set is colored as a key. -/
def docS (html k : Bool) : Json → Doc
  | .null => .leaf (if k then .key else .null) [0x6e, 0x75, 0x6c, 0x6c]
  | .tru => .leaf (if k then .key else .bool) [0x74, 0x72, 0x75, 0x65]
  | .fls => .leaf (if k then .key else .bool) [0x66, 0x61, 0x6c, 0x73, 0x65]
  | .num s => .leaf (if k then .key else .number) s
  | .str s => .leaf (if k then .key else .string) (copyStr html s)
  | .arr xs => .arr (docSL html k xs)
  | .obj ms => .obj (docSM html ms)
def docSL (html k : Bool) : List Json → List Doc
  | [] => []
  | j :: xs => docS html k j :: docSL html (after k j) xs
def docSM (html : Bool) : List (Bytes × Json) → List (Role × Bytes × Doc)
  | [] => []
  | (k, j) :: ms => (.key, copyStr html k, docS html false j) :: docSM html ms
end

/-! ### Terminal color sequences -/

/-- Bytes allowed between `ESC [` and `m`. -/
def SgrParam (c : UInt8) : Prop := (0x30 ≤ c ∧ c ≤ 0x39) ∨ c = 0x3b

instance (c : UInt8) : Decidable (SgrParam c) := inferInstanceAs (Decidable (_ ∨ _))

/-- A color: nothing, or `ESC [ params m`. -/
inductive Sgr : Bytes → Prop
  | none : Sgr []
  | seq (ps : Bytes) : (∀ c ∈ ps, SgrParam c) → Sgr (0x1b :: 0x5b :: (ps ++ [0x6d]))

/-- All fields of a `Colors` are colors. -/
def ColorsSgr (cl : Colors) : Prop :=
  Sgr cl.null ∧ Sgr cl.bool ∧ Sgr cl.number ∧ Sgr cl.string ∧ Sgr cl.key ∧ Sgr cl.bytes ∧ Sgr cl.time ∧
  Sgr cl.punc ∧ Sgr cl.brackets ∧ Sgr cl.braces ∧ Sgr cl.comma ∧ Sgr cl.colon ∧ Sgr cl.textMarshaler

/-- Position inside a color sequence: outside, after `ESC`, after `ESC [`. -/
inductive AnsiSt where
  | out | esc | csi
deriving DecidableEq, Repr

/-- Remove all `ESC [ params m` sequences. -/
def stripAnsi : AnsiSt → Bytes → Bytes
  | _, [] => []
  | .out, c :: t => if c = 0x1b then stripAnsi .esc t else c :: stripAnsi .out t
  | .esc, c :: t => if c = 0x5b then stripAnsi .csi t else 0x1b :: c :: stripAnsi .out t
  | .csi, c :: t => if c = 0x6d then stripAnsi .out t else if SgrParam c then stripAnsi .csi t
      else 0x1b :: 0x5b :: c :: stripAnsi .out t

/-- A terminal: `params` are the bytes since `ESC [`, `active` says whether a color
is set. The answer is whether every line feed is written, and the text ends,
while no color is set (and no sequence is malformed). -/
def termOk (st : AnsiSt) (params : Bytes) (active : Bool) : Bytes → Bool
  | [] => st == .out && !active
  | c :: t =>
    match st with
    | .out => if c = 0x1b then termOk .esc [] active t
        else if c = 0x0a ∧ active = true then false else termOk .out [] active t
    | .esc => if c = 0x5b then termOk .csi [] active t else false
    | .csi => if c = 0x6d then termOk .out [] (!(params == [] || params == [0x30])) t
        else if SgrParam c then termOk .csi (params ++ [c]) active t else false

/-- Colorized text: layout and uncolored tokens without ESC, and tokens between
their color and a reset. -/
inductive Segs (cl : Colors) : Bytes → Prop
  | nil : Segs cl []
  | lay (w rest : Bytes) : 0x1b ∉ w → Segs cl rest → Segs cl (w ++ rest)
  | tok (r : Role) (t rest : Bytes) : r ≠ .plain → r ≠ .nilBytes → (∀ c ∈ t, 0x20 ≤ c) → Segs cl rest →
      Segs cl (colorOf cl r ++ t ++ reset ++ rest)
  | nilBytes (t rest : Bytes) : (∀ c ∈ t, 0x20 ≤ c) → Segs cl rest →
      Segs cl (cl.bytes ++ (cl.null ++ t ++ reset) ++ reset ++ rest)

end JC.Spec

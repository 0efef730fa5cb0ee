import Verif.Model.Alias
/-!
What it means that a value keeps to itself: the spans of memory that its texts lie in.
-/
namespace JC

/-- What a text belongs to. -/
inductive AKind where
  | str
  | num
  | raw
deriving DecidableEq

mutual
/-- The spans of all texts of a value, with what they belong to. -/
def AV.spans : AV → List (AKind × Span)
  | .flat _ _ => []
  | .number s => [(.num, s)]
  | .string s => [(.str, s)]
  | .raw s => [(.raw, s)]
  | .iface _ v => v.spans
  | .slice xs sp => spansL xs ++ spansL sp
  | .array xs => spansL xs
  | .map es => spansE es
  | .ptr v => v.spans
  | .struct fs => spansL fs
def spansL : List AV → List (AKind × Span)
  | [] => []
  | v :: vs => v.spans ++ spansL vs
def spansE : List (AKey × AV) → List (AKind × Span)
  | [] => []
  | (.str s, v) :: es => (.str, s) :: (v.spans ++ spansE es)
  | (.int _, v) :: es | (.user _, v) :: es => v.spans ++ spansE es
end

/-- The span is inside a buffer. -/
def AMem.has (m : AMem) (s : Span) : Prop := s.len = 0 ∨ s.buf < m.length ∧ s.off + s.len ≤ (m.getD s.buf []).length

/-- All texts of the value are inside buffers. -/
def AMem.holds (m : AMem) (v : AV) : Prop := ∀ x ∈ v.spans, m.has x.2

/-- No text of the value, among those of the given kinds, is in the buffer. -/
def AV.avoids (v : AV) (kinds : AKind → Prop) (buf : Nat) : Prop := ∀ x ∈ v.spans, kinds x.1 → x.2.len = 0 ∨ x.2.buf ≠ buf

/-- Writing bytes over a span. -/
def AMem.write (m : AMem) (s : Span) (b : Bytes) : AMem :=
  m.set s.buf ((m.getD s.buf []).take s.off ++ b.take s.len ++ (m.getD s.buf []).drop (s.off + (b.take s.len).length))

/-- Go's `append(s, b...)`: into the buffer if there is room behind the span, else into
a new one. -/
def AMem.append (m : AMem) (s : Span) (b : Bytes) : Span × AMem :=
  if s.off + s.len + b.length ≤ (m.getD s.buf []).length then
    (⟨s.buf, s.off, s.len + b.length⟩, m.write ⟨s.buf, s.off + s.len, b.length⟩ b)
  else m.alloc (m.read s ++ b)

/-- The `Decoder` without the place of its buffer. -/
def ASt.view (s : ASt) (m : AMem) : SDec := ⟨s.reader, s.buf.map (m.getD · []), s.len, s.lo, s.offset, s.err⟩

/-- The result of `Decode` as the program sees it when the memory is `m`. -/
def AURes.read (m : AMem) : AURes → URes
  | .done v e => .done (v.read m) e
  | .crash c => .crash c

/-! ### Programs that decode into variables -/

/-- What a call reports. -/
inductive AOut where
  | done (e : Option Err)
  | crash (c : Crash)
deriving DecidableEq

/-- A program with variables and a `Decoder`: it stops when a call panics. -/
structure ASess where
  dec : ASt
  mem : AMem
  vars : List AV
  log : List AOut
  stop : Bool

/-- Decoding the next value into the variable with the given number and type. -/
def ASess.step (f : AFlags) (c : DCfg) (x : ASess) (call : Nat × ATy) : ASess :=
  if x.stop then x else
  match x.vars[call.1]? with
  | none => x
  | some p =>
    match x.dec.decode f c call.2 p x.mem with
    | (.done v e, s, m) => ⟨s, m, x.vars.set call.1 v, x.log ++ [.done e], false⟩
    | (.crash k, s, m) => ⟨s, m, x.vars, x.log ++ [.crash k], true⟩

def ASess.run (f : AFlags) (c : DCfg) (calls : List (Nat × ATy)) (x : ASess) : ASess := calls.foldl (ASess.step f c) x

/-- The start, with variables of the program. -/
def ASess.start (r : Reader) (m : AMem) (vars : List AV) : ASess := ⟨newDecoderA r, m, vars, [], false⟩

/-- The same program when every value is a value, not a place in the memory. -/
structure PSess where
  dec : SDec
  vars : List DV
  log : List AOut
  stop : Bool

def PSess.step (c : DCfg) (n : Nat) (x : PSess) (call : Nat × Ty) : PSess :=
  if x.stop then x else
  match x.vars[call.1]? with
  | none => x
  | some p =>
    match x.dec.decode c n call.2 p with
    | (.done v e, s) => ⟨s, x.vars.set call.1 v, x.log ++ [.done e], false⟩
    | (.crash k, s) => ⟨s, x.vars, x.log ++ [.crash k], true⟩

def PSess.run (c : DCfg) (n : Nat) (calls : List (Nat × Ty)) (x : PSess) : PSess := calls.foldl (PSess.step c n) x

def PSess.start (r : Reader) (vars : List DV) : PSess := ⟨newDecoder r, vars, [], false⟩

/-- The program as its values read now. -/
def ASess.view (x : ASess) : PSess := ⟨x.dec.view x.mem, x.vars.map (AV.read x.mem), x.log, x.stop⟩

/-- The flag for the kind of text. -/
def AFlags.of (f : AFlags) : AKind → Bool
  | .str => f.dontCopyString
  | .num => f.dontCopyNumber
  | .raw => f.dontCopyRaw

end JC

import Verif.Model.Encoder
/-!
Model of `MarshalIndent`, `/repo/json.go:174-190`, which gives the output of
`Marshal` to `Indent`, `/repo/json.go:155-157`.  `Indent` is the function of
`encoding/json`, which is not part of `/repo`; it is modelled here after its
documentation and source, so that what `MarshalIndent` returns can be compared
with what an `Encoder` writes.
-/
namespace JC

/-- `appendNewline` of `encoding/json`: a line feed, the prefix, and one indent per level. -/
def indentLine (pre indent : Bytes) (d : Nat) : Bytes := 0x0a :: (pre ++ (List.replicate d indent).flatten)

/-- The loop of `appendIndent` in `encoding/json` over the bytes of a value. `str`: inside a
string, `esc`: after a backslash there; `need` is `needIndent`, `d` is `depth`. The scanner is
reduced to what the loop asks it: whether a byte is whitespace, part of a scalar, or punctuation.
The value is JSON, so the closing brackets match and `d - 1` is never below zero. -/
def indentBytes (pre indent : Bytes) : Bool → Bool → Bool → Nat → Bytes → Bytes
  | _, _, _, _, [] => []
  | true, esc, _, d, c :: t =>
    c :: indentBytes pre indent (esc || c != ch! '"') (!esc && c == ch! '\\') false d t
  | false, _, need, d, c :: t =>
    if c = 0x20 ∨ c = 0x09 ∨ c = 0x0a ∨ c = 0x0d then indentBytes pre indent false false need d t
    else if c = ch! '}' ∨ c = ch! ']' then
      if need then c :: indentBytes pre indent false false false d t
      else indentLine pre indent (d - 1) ++ c :: indentBytes pre indent false false false (d - 1) t
    else
      let d := if need then d + 1 else d
      (if need then indentLine pre indent d else []) ++
        if c = ch! '{' ∨ c = ch! '[' then c :: indentBytes pre indent false false true d t
        else if c = ch! ',' then c :: (indentLine pre indent d ++ indentBytes pre indent false false false d t)
        else if c = ch! ':' then c :: 0x20 :: indentBytes pre indent false false false d t
        else c :: indentBytes pre indent (c == ch! '"') false false d t

/-- The number of brackets that are open at once, at most: `str`, `esc` as above, `d` brackets
are open. -/
def nesting : Bool → Bool → Nat → Bytes → Nat
  | _, _, d, [] => d
  | true, esc, d, c :: t => nesting (esc || c != ch! '"') (!esc && c == ch! '\\') d t
  | false, _, d, c :: t =>
    if c = ch! '{' ∨ c = ch! '[' then nesting false false (d + 1) t
    else if c = ch! '}' ∨ c = ch! ']' then max d (nesting false false (d - 1) t)
    else nesting (c == ch! '"') false d t

/-- `maxNestingDepth` of `encoding/json`. -/
def maxNesting : Nat := 10000

/-- `Indent`, `/repo/json.go:155-157`: leading whitespace is dropped, trailing whitespace is
kept; a text that is not JSON, or nested too deeply, is an error. -/
def goIndent (s pre indent : Bytes) : Option Bytes :=
  match parseValue (skipSpaces s) with
  | .fail _ _ => none
  | .ok v r =>
    if skipSpaces r ≠ [] then none
    else if nesting false false 0 v > maxNesting then none
    else some (indentBytes pre indent false false false 0 v ++ r)

/-- `MarshalIndent`, `/repo/json.go:174-190`: bytes and error; `none` is a panic. When `Indent`
fails, the output of `Marshal` is returned beside the error. -/
def marshalIndent (v : GV) (pre indent : Bytes) : Option (Bytes × Option Err) :=
  match marshal v with
  | none => none
  | some (.error e) => some ([], some e)
  | some (.ok b) =>
    match goIndent b pre indent with
    | none => some (b, some .syntax)
    | some t => some (t, none)

end JC

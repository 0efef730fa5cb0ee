import Verif.Model.Utf8
import Verif.Model.Parse
/-!
Model of string unquoting (`/repo/parse.go:433-530`) and string encoding
(`/repo/encode.go:177-275`).
-/
namespace JC

/-- `/repo/parse.go:516-520`. -/
def appendRune (b : Bytes) (r : Nat) : Bytes := b ++ encodeRune r

/-- `/repo/parse.go:522-530`. -/
def appendCoerceInvalidUTF8 (b s : Bytes) : Bytes := (runes s).foldl appendRune b

/-- `hasPrefix(s, "\\u")`, `/repo/parse.go:686-688`. -/
def hasBackslashU (s : Bytes) : Bool := 2 ≤ s.length && s.take 2 == bs! "\\u"

/-- Outcome of the unquoting loop; `panic` is the index expression `s[0]` on an
empty slice (`/repo/parse.go:460`). -/
inductive UQ where
  | ok (r : Bytes)
  | err (e : Err)
  | panic
deriving DecidableEq, Repr

theorem indexByte_lt {s : Bytes} {c : UInt8} {i : Nat} (h : indexByte s c = some i) : i < s.length := by
  induction s generalizing i with
  | nil => simp [indexByte] at h
  | cons d t ih =>
    simp only [indexByte] at h
    split at h
    · injection h with h; subst h; simp
    · rw [Option.map_eq_some_iff] at h
      obtain ⟨k, hk, rfl⟩ := h
      have := ih hk; simp; omega

/-- The loop of `parseStringUnquote`, `/repo/parse.go:449-511`: `s` is what is
left of the string body, `r` the output so far. -/
def unquoteLoop (s r : Bytes) : UQ :=
  if s = [] then .ok r
  else
    match indexByte s (ch! '\\') with
    | none => .ok (appendCoerceInvalidUTF8 r s)
    | some i =>
      let r := appendCoerceInvalidUTF8 r (s.take i)
      match hs : s.drop (i + 1) with
      | [] => .panic
      | c :: t =>
        if c = ch! '"' ∨ c = ch! '\\' ∨ c = ch! '/' then unquoteLoop t (r ++ [c])
        else if c = ch! 'n' then unquoteLoop t (r ++ [0x0a])
        else if c = ch! 'r' then unquoteLoop t (r ++ [0x0d])
        else if c = ch! 't' then unquoteLoop t (r ++ [0x09])
        else if c = ch! 'b' then unquoteLoop t (r ++ [0x08])
        else if c = ch! 'f' then unquoteLoop t (r ++ [0x0c])
        else if c = ch! 'u' then
          match parseUnicode t with
          | none => .err .syntax
          | some r1 =>
            let s2 := t.drop 4
            if isSurrogate r1 then
              if !hasBackslashU s2 then unquoteLoop s2 (appendRune r runeError)
              else match parseUnicode (s2.drop 2) with
                | none => .err .syntax
                | some r2 =>
                  let r1' := utf16Decode r1 r2
                  if r1' ≠ runeError then unquoteLoop (s2.drop 6) (appendRune r r1')
                  else unquoteLoop s2 (appendRune r r1')
            else unquoteLoop s2 (appendRune r r1)
        else .err .syntax
termination_by s.length
decreasing_by
  all_goals
    have h1 := congrArg List.length hs
    simp only [List.length_drop, List.length_cons] at h1
    try simp only [List.length_drop]
    omega

/-- Result of `parseStringUnquote`: `ok s rest isNew`, where `isNew` tells that
`s` was built in the caller's buffer rather than sliced from the input. -/
inductive UR where
  | ok (s rest : Bytes) (isNew : Bool)
  | fail (rest : Bytes) (e : Err)
  | panic
deriving DecidableEq, Repr

/-- `/repo/parse.go:433-514`. The second argument is the caller's buffer. -/
def parseStringUnquote (b r : Bytes) : UR :=
  match parseStringFast b with
  | .fail rest e => .fail rest e
  | .ok s rest escaped =>
    if s.length < 2 then .panic       -- s[1 : len(s)-1]
    else
      let s := (s.drop 1).take (s.length - 2)
      if !escaped then .ok s rest false
      else match unquoteLoop s r with
        | .ok out => .ok out rest true
        | .err e => .fail rest e
        | .panic => .panic

/-- `hex` digit table, `/repo/encode.go:18`. -/
def hexDigit (n : UInt8) : UInt8 := if n < 10 then 0x30 + n else 0x57 + n

/-- The fast-path test of `doEncodeString`, `/repo/encode.go:188`. -/
def encPlain (html : Bool) (c : UInt8) : Bool :=
  0x20 ≤ c && c ≤ 0x7f && c != ch! '\\' && c != ch! '"' &&
    (!html || (c != ch! '<' && c != ch! '>' && c != ch! '&'))

/-- The loop of `doEncodeString`, `/repo/encode.go:185-270`: `pend` is
`s[i:j]`, the last argument is `s[j:]`; returns what is appended, up to but
excluding the closing quote. -/
def encLoop (html : Bool) (pend s : Bytes) : Bytes :=
  match hs : s with
  | [] => pend
  | c :: t =>
    if encPlain html c then encLoop html (pend ++ [c]) t
    else if c = ch! '\\' ∨ c = ch! '"' then pend ++ ([ch! '\\', c] ++ encLoop html [] t)
    else if c = 0x0a then pend ++ (bs! "\\n" ++ encLoop html [] t)
    else if c = 0x0d then pend ++ (bs! "\\r" ++ encLoop html [] t)
    else if c = 0x09 then pend ++ (bs! "\\t" ++ encLoop html [] t)
    else if c = ch! '<' ∨ c = ch! '>' ∨ c = ch! '&' then
      pend ++ (bs! "\\u00" ++ [hexDigit (c >>> 4), hexDigit (c &&& 0xF)] ++ encLoop html [] t)
    else if c < 0x20 then
      pend ++ (bs! "\\u00" ++ [hexDigit (c >>> 4), hexDigit (c &&& 0xF)] ++ encLoop html [] t)
    else
      let d := decodeRune s
      if d.1 = runeError ∧ d.2 = 1 then
        pend ++ (bs! "\\ufffd" ++ encLoop html [] (s.drop d.2))
      else if d.1 = 0x2028 ∨ d.1 = 0x2029 then
        pend ++ (bs! "\\u202" ++ [hexDigit (UInt8.ofNat (d.1 % 16))] ++ encLoop html [] (s.drop d.2))
      else encLoop html (pend ++ s.take d.2) (s.drop d.2)
termination_by s.length
decreasing_by
  all_goals
    have := decodeRune_size_pos c t
    subst hs
    simp only [List.length_drop, List.length_cons]
    omega

/-- `/repo/encode.go:177-275`; never returns an error. -/
def doEncodeString (html : Bool) (b s : Bytes) : Bytes :=
  b ++ (ch! '"' :: (encLoop html [] s ++ [ch! '"']))

/-- `RawValue.AppendUnquote`, `/repo/token.go:266-280`; `none` is a panic. -/
def appendUnquote (v b : Bytes) : Option Bytes :=
  match parseStringUnquote v b with
  | .panic => none
  | .fail _ _ => none
  | .ok s r isNew =>
    if r.length ≠ 0 then none
    else if isNew then some s else some (b ++ s)

/-- `RawValue.Unquote`, `/repo/token.go:283-285`. -/
def unquote (v : Bytes) : Option Bytes := appendUnquote v []

/-- The test for U+2028/U+2029 at the head of the remaining input,
`/repo/encode.go:1102`: the third byte if it holds. -/
def sepAt : Bytes → Option UInt8
  | c :: c1 :: c2 :: _ => if c = 0xE2 ∧ c1 = 0x80 ∧ c2 &&& 0xFE = 0xA8 then some c2 else none
  | _ => none

/-- The loop of `appendCompactEscapeHTML`, `/repo/encode.go:1062-1111`, returning
what is appended to `dst`. `inStr`, `escape` as in the code; `pend` is
`src[start:i]` (empty when `start >= i`) and `skip` is `start - i` when
positive. -/
def compactLoop (inStr escape : Bool) (skip : Nat) (pend : Bytes) : Bytes → Bytes
  | [] => pend
  | c :: t =>
    let pend' := if skip = 0 then pend ++ [c] else pend
    if !inStr then
      if c = ch! '"' then compactLoop true escape (skip - 1) pend' t
      else if c = ch! ' ' ∨ c = 0x0a ∨ c = 0x0d ∨ c = 0x09 then pend ++ compactLoop false escape 0 [] t
      else compactLoop false escape (skip - 1) pend' t
    else if escape then compactLoop true false (skip - 1) pend' t
    else if c = ch! '\\' then compactLoop true true (skip - 1) pend' t
    else if c = ch! '"' then compactLoop false false (skip - 1) pend' t
    else if c = ch! '<' ∨ c = ch! '>' ∨ c = ch! '&' then
      pend ++ (bs! "\\u00" ++ [hexDigit (c >>> 4), hexDigit (c &&& 0xF)] ++ compactLoop true false 0 [] t)
    else
      match sepAt (c :: t) with
      | some c2 => pend ++ (bs! "\\u202" ++ [hexDigit (c2 &&& 0xF)] ++ compactLoop true false 2 [] t)
      | none => compactLoop true false (skip - 1) pend' t

/-- `/repo/encode.go:1057-1118`. -/
def appendCompactEscapeHTML (dst src : Bytes) : Bytes := dst ++ compactLoop false false 0 [] src

end JC

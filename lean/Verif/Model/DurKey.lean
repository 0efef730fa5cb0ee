import Verif.Model.Decode
/-!
Maps with keys of type `time.Duration`.

The keys of `KTy` (`Model/Decode.lean`) are strings, integers and types with `UnmarshalText`. The kind
of `time.Duration` is `Int64`, so the case of integers is taken for it (`/repo/codec.go:380-389`); but
`constructStringCodec` asks `constructCodec` for the codec of the type, which is that of durations
(`/repo/codec.go:90-91`, 215-221). Writing is the same as for `int64`: `encodeDuration` is `appendInt64`
(`/repo/encode.go:331-337`), as `encodeInt64`, and the keys are sorted as the texts of integers. Reading is
repeated here with a decoding function for keys as a parameter.
-/
namespace JC

/-- The loop of `decodeMap`, `/repo/decode.go:674-727`, for any decoding function of keys. -/
def mapLoopBy (key : Bytes → DRes) (dec : Dec) (zero p : DV) (fresh : Bool) (input : Bytes) : Nat → Bool → List (MK × DV) → Bytes → DRes
  | 0, _, _, _ => .crash .fuel
  | n + 1, first, m, b =>
    let b := skipSpaces b
    if b.head? = some (ch! '}') then .ok (.map m) b.tail
    else
      let dest := if fresh then p else .map m
      match memberKey key first b with
      | .inl c => .crash c
      | .inr (.inl (r, e)) => .err dest r e
      | .inr (.inr (kv, b)) =>
        match dec b zero with
        | .crash c => .crash c
        | .err _ _ e =>
          match parseValue input with
          | .fail r e2 => .err dest r e2
          | .ok _ r => .err dest r e
        | .ok v r => mapLoopBy key dec zero p fresh input n false (mapSet (keyOf kv) v m) r

/-- `decodeMap`, `/repo/decode.go:649-728`. -/
def decodeMapBy (key : Bytes → DRes) (dec : Dec) (zero : DV) : Dec := fun b p =>
  if hasNullPrefix b then .ok .mapNil (b.drop 4)
  else match b with
    | [] => inputErr b p
    | c :: t =>
      if b.length < 2 ∨ c ≠ ch! '{' then inputErr b p
      else match p with
        | .map m => mapLoopBy key dec zero p false b (b.length + 1) true m t
        | _ => mapLoopBy key dec zero p true b (b.length + 1) true [] t

/-- The decoding function of a key of type `time.Duration`: `decodeFromString` (`/repo/decode.go:299-318`)
with `decodeDuration` (`/repo/decode.go:441-478`), as `/repo/codec.go:380-385` and 215-221 put them together. -/
def decodeDurKey (l : Lib) (b : Bytes) : DRes := decodeFromString (decodeDuration l) b (.int 0)

/-- `Unmarshal` (`/repo/json.go:193-205`) into a variable of type `map[time.Duration]T`. -/
def unmarshalDur (c : DCfg) (n : Nat) (t : Ty) (b : Bytes) (p : DV) : URes :=
  match parseInto (decodeMapBy (decodeDurKey c.lib) (decN c n t) (zero t)) b p with
  | .crash x => .crash x
  | .ok v r => .done v (if r ≠ [] then some .syntax else none)
  | .err v r e => .done v (if r ≠ [] then some .syntax else some e)

end JC

import Verif.Model.Decode
/-!
Decoding into a map whose key type has the method `MarshalText` but no `UnmarshalText`.
`constructMapCodec` chooses the text codec for a key type that has either of the two methods
(`/repo/codec.go:355-357`), so that the decoder of the keys calls a method that is not there.
-/
namespace JC

/-- `decodeTextUnmarshaler` for such a key type, `/repo/decode.go:1133-1176`: the type is no
`encoding.TextUnmarshaler`, so that the assertion at 1161 answers a nil interface, and the call of its method at
1162 panics. -/
def decodeKeyNoText (b : Bytes) : DRes :=
  match decodeTextUnmarshaler (fun _ => none) b (.user none) with
  | .ok (.user (some _)) _ => .crash .panic
  | res => res

/-- `decodeMap` for such a key type, `/repo/decode.go:649-728`. Nothing comes after the first key:
it is an error or a panic. The last case does not occur (`keyNoText_never`). -/
def decodeMapNoText : Dec := fun b p =>
  if hasNullPrefix b then .ok .mapNil (b.drop 4)
  else match b with
    | [] => inputErr b p
    | c :: t =>
      if b.length < 2 ∨ c ≠ ch! '{' then inputErr b p
      else
        let b := skipSpaces t
        if b.head? = some (ch! '}') then .ok (match p with | .map m => .map m | _ => .map []) b.tail
        else match memberKey decodeKeyNoText true b with
          | .inl c => .crash c
          | .inr (.inl (r, e)) => .err p r e
          | .inr (.inr (_, r)) => .err p r .syntax

/-- `Unmarshal` into a non-nil pointer to such a map, `/repo/json.go:193-205`. -/
def unmarshalNoText (b : Bytes) (p : DV) : URes :=
  match parseInto decodeMapNoText b p with
  | .crash x => .crash x
  | .ok v r => .done v (if r ≠ [] then some .syntax else none)
  | .err v r e => .done v (if r ≠ [] then some .syntax else some e)

end JC

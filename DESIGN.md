# Design of the Lean model of neilotoole/jsoncolor

The Go sources in `/repo` are modelled function by function in Lean 4
(`lean/Verif/Model/*`), small independent specifications are in
`lean/Verif/Spec/*`, helper lemmas in `lean/Verif/Lemmas/*`, and the property
theorems in `lean/Verif/Props/*`.  Nothing in `/repo` is executed; the model is
a reading of the text, and each definition cites the file and lines it reads.

## Conventions

* Bytes are `UInt8`, byte slices are `List UInt8`.  Slices are values: aliasing
  is modelled only where the property is about aliasing (C44, C67).
* A Go error is a value of `Err`, keyed by the Go error type; message texts
  are not modelled.
* The Go parse functions return `(v, r, err)`; the model returns
  `ok v r` or `fail r e`, because `v` is nil on every error path.  The
  remainder `r` is kept on errors because `Decoder.readValue` inspects it.
* Panics are an explicit outcome wherever an index is not guarded on the spot
  (tokenizer stack, `s[0]` in unquoting, `v[0]` in `decodeInterface`).
* Loops that are not structural recursions run on fuel; exhaustion is a
  distinct outcome, proved unreachable for the fuel the entry points supply.
* Mutable state (Indenter depth, Encoder, Decoder, Tokenizer, codec cache) is
  a record threaded through transition functions.
* Goroutines are interleavings of atomic steps.

## Trusted base

* The Lean kernel; axioms `propext`, `Classical.choice`, `Quot.sound` only
  (`vcheck` audits each theorem).
* That the Lean definitions are a faithful reading of the cited Go lines.
* Go runtime and library behaviour taken as given: slices, maps and `append`;
  `strconv.AppendInt/AppendUint` (modelled as decimal text), `strconv.AppendFloat`
  and `ParseFloat` (opaque), `time` formatting (opaque), `unicode/utf8`
  (modelled after RFC 3629), `encoding/base64` (modelled), `sort` (returns a
  sorted permutation), `encoding/json.Indent` (an oracle for the encoder;
  modelled in `Model/Indent.lean` for C63 and C64),
  `reflect` and `unsafe` field access (a value is its tree of fields),
  `sync/atomic`, `sync.Pool`.
* Not modelled: `reflect.go`, benchmarks, tests, `json.go` functions that delegate to
  `encoding/json` (`Compact`, `HTMLEscape`, `Indent`).

## Properties: what is modelled and how it is proved

| id | model | proof |
|----|-------|-------|
| C01 | all of `parse.go` scanning | soundness and completeness against an inductive RFC 8259 grammar, induction on fuel and on derivations |
| C02 | same | consumption lemma, locality lemma |
| C03 | same, with fuel and panic outcomes | fuel bound by induction; panic outcome unreachable |
| C04 | `parseStringFast`, `parseStringUnquote`, `parseUnicode` | refinement to a declarative meaning of string items |
| C05 | `doEncodeString`, `parseStringUnquote` | round trip by induction on the UTF-8 decoding of the string |
| C06 | `doEncodeString` | invariant on emitted chunks |
| C07 | `ascii.go` on fixed-width words | arithmetic of per-byte borrows and carries, induction over blocks |
| C08 | `parseInt`, `parseUint` | loop invariant: accumulator equals the digits' value and is in range |
| C09 | decimal formatting + C08 | round trip |
| C10 | sized decoders | case analysis on C08 |
| C11, C12 | `Tokenizer` state machine | induction on derivations, with a stack invariant |
| C13 | same | negation with witnesses; partial theorem for what does hold |
| C14, C15 | same | case analysis |
| C16, C17 | `encodeRawMessage`, token re-emission | refinement to `render` of the document |
| C18 | `encodeRawMessage` | negation (trailing data) and partial theorem |
| C19, C20, C21, C22 | all encoders, `Colors` | refinement of the encoder to `render`, then induction on documents; negations for `,string` with colors and zero Colors |
| C23, C24 | same, `Indenter` | induction on documents |
| C25 | same | rendered documents derive in the grammar; negations for `Number`, embedded nil pointers, unsorted raw maps |
| C26 | same | induction on values |
| C27 | map encoders | sorting of permutations with distinct keys |
| C28, C29, C30 | `Encoder` state machine | invariant over call histories; negations with witnesses |
| C31, C32, C33, C34 | `Decoder` state machine over a reader | invariant over histories; negations (numbers across buffer ends, offsets) |
| C48 | `Unmarshal` | what each decoder leaves behind, on success and on failure, by induction on types; negation for `1.` |
| C57 | `Unmarshal` | every decoder, given a value, fails with another error and leaves what follows the value, by induction on types; negations; `C57_unquoted` for numbers in place of strings |
| C60, C62 | `Unmarshal` when it fails | case analysis of the decoders; prefixes of members and elements through the tree decoder; negations |
| C61 | `Unmarshal` | the relation `Kept` (`Spec/Frame.lean`) by induction on types, for success and failure, from what decoders leave of their input being a suffix of it |
| C63 | `MarshalIndent`, with `encoding/json.Indent` as a state machine over bytes | refinement of the machine to `render`, by induction on derivations; negations |
| C65 | `Unmarshal` with the path of its error (`Model/Path.lean`), shown to be `Unmarshal` without it | the walk `Leads` through type and document (`Spec/Path.lean`) by induction on derivations and types; negation |
| C66 | offsets and codecs of promoted fields, `decodeEmbeddedStructPointer`, `decodeStruct` on memory cells (`Model/Embed.lean`) | values as trees, fields by paths, `Reads`, `Stores`, `Grows` (`Spec/Embed.lean`); simulation by the flat struct for all inputs, induction over the members for success; negation from C42 |
| C67 | `Unmarshal`, `Parse` and `Decoder` over a memory of buffers, with the zero-copy flags (`Model/Alias.lean`) | simulation by the model without memory, by induction on types; invariant of the `Decoder` (which buffers a call changes); spans of texts (`Spec/Alias.lean`); witnesses that the flags matter |
| C68 | the encoders on values with references to memory, with bounded stack (`Model/Graph.lean`) | `IsTree`, `Endless` (`Spec/Graph.lean`); simulation by `enc` by induction on trees, overflow by induction on the stack and the value, dichotomy by choice; negation |
| C69 | `constructCodec` on graphs of types, with bounded stack (`Model/Types.lean`) | `Ends`, `LeadsTo`, `IsType` (`Spec/Types.lean`); success gives a set of structs closed under fields; simulation by the model of C59 by induction on the structs not yet met and on types; negation |
| C70 | `dec`, `enc` and what the encoder sees in a decoded variable (`Model/Value.lean`) | `LibReturns`, `Ty.plain`, `told` (`Spec/Stable.lean`); invariant of what decoding leaves in a variable, by induction on types; then C38; negations |
| C71 | `parseValue` and its helpers with a bounded stack (`Model/Nest.lean`) | `levels`, `opens`, `tower` (`Spec/Nest.lean`); agreement with the unbounded parser by induction on fuel, exact need of valid texts by induction on derivations; negation |
| C72 | `decodeSlice`, `extendSlice`, `align` on a heap of arrays (`Model/SliceMem.lean`) | `HdrOk`, `HoldsSlice`, `SameRes`, `KeptAround`, `newCells` (`Spec/SliceMem.lean`); refinement of `sliceLoop` and an ownership invariant, by induction on the loop |
| C73 | offsets in bytes, `appendStructFields`, and the memory used at them (`Model/Layout.lean`) | `Lies`, `Right`, `Within` (`Spec/Layout.lean`): what lies where by path; induction on the tree of fields; negations |
| C74 | `encodeStruct`, `encodeEmbeddedStructPointer` on memory (`Model/EmbedEnc.lean`) | `Blocked`, `Sees`, `NilsFirst` (`Spec/EmbedEnc.lean`, `Spec/Stray.lean`): paths, without offsets; induction on places and on the loop; exact criterion for valid output; round trip with nil pointers; negation |
| C75 | `parse.go` with a count of steps (`Model/Work.lean`) | none but lengths; agreement with the uncounted parser and bounds by induction on fuel |
| C76 | `decodeInterface`, `decodeSlice`, `decodeMapStringInterface`, `Unmarshal` with a count of steps (`Model/Work.lean`) | `levels`, `tower` (`Spec/Nest.lean`); upper bound by induction on derivations, lower bound by induction on the tower; negation |
| C77 | `readValue` with a count of steps (`Model/StreamWork.lean`) | lengths; amortised bound: what failed to parse is no longer than the value found in the end, and a full buffer doubles; induction on rounds, also with the errors of the reader as a potential; negation |
| C78 | `enc` against a relation between values and documents (`Spec/Says.lean`) | refinement through the meanings of C21, both directions; mutual induction on values; negation |
| C79 | `constructStructType` with codecs and embedded fields (`Model/Promote.lean`) | `Reaches`, `Contains` (`Spec/Promote.lean`); invariant of the table `seen` with the origin of each member, by induction on the structs not yet met; simulation of the model of C40; negation |
| C80 | `decodeStruct` through the cyclic codecs of recursive types (`Model/Recur.lean`) | `GoRec`, `unroll`, `Solves` (`Spec/Recur.lean`); refinement of the finite types of `Model/Decode.lean` by induction on the room on the stack and on the type; uniqueness of the solution of the equations; negation |
| C81 | `decodeMap` with string, integer and text keys (`Model/Decode.lean`), keys without `UnmarshalText` (`Model/TextKey.lean`) | `HasKey`, `Gives`, `Absent` (`Spec/MapDec.lean`): keys and values member by member; induction on the members; negations |
| C82 | `unmarshalG`: the closures of `constructCodec` run on a document (`Model/Run.lean`) | `reading`, `fieldReading` (`Spec/Run.lean`): what a declared type is by its methods and kind; induction on the type and the depth of calls, on top of C59 and C80; negation |
| C83 | `appendG`: the encoding closures of `constructCodec` run on the contents of a variable (`Model/RunEnc.lean`) | `view`, `IsVar` (`Spec/RunEnc.lean`): how a value is written by its methods, kind and addressability; induction on contents, on top of C59, C80 and C82; negation |
| C84 | counting twins of all decoding functions (`Model/WorkTyped.lean`) | `perByte`, `perError`, `Concrete`, `NoIface` (`Spec/WorkTyped.lean`): potential argument with slack for retried text, induction on types; negation by lists with a wrong last element |
| C85 | `unmarshalV`: codecs of all struct types made and run, fields reached by paths (`Model/RunEmbed.lean`) | `MembersOf`, `place`, `look`, `store`, `barred`, `structS` (`Spec/RunEmbed.lean`): induction on the room for calls, uniqueness of ordered lists, lens laws for parting ways, simulation by a flat struct; agreement on ends of the text (fuel) |
| C86 | `appendP`: codecs of all struct types made and run, fields reached by paths (`Model/RunEncE.lean`) | `found`, `member`, `kindS`, `viewS`, `Neat`, `Settled` (`Spec/RunEncE.lean`): induction on the size of the contents, pruning of rolled back fields |
| C87 | `unmarshalV`, `appendP` and, for the flat type, `unmarshalG`, `appendG` | `flatEnv`, `Flat`, `SameEnd` (`Spec/Transparent.lean`): simulation of decoders, induction on contents for encoding, C83 for the flat type |
| C88 | the counting twins of C84 (`Model/WorkTyped.lean`) | `Bounded`, `quad`, `perSquare` (`Spec/WorkSquare.lean`): the square of what is left of the text as potential, induction on types and on pointers in interfaces, `Held` kept through decoding; one bound for all unrollings of a program's types |
| C89 | `Encoder` and `Decoder` put together (`Model/Encoder.lean`, `Model/Stream.lean`) | `PlainCalls`, `PlainEncoder`, `FitsBuffer`, `Sent` (`Spec/EncDec.lean`); the level of the Indenter never falls (`Lemmas/Rises.lean`), by induction on values; then C21, C31 and C38; negations |
| C90 | `io.ReadFull` over a source of pieces, and `readValue` over it (`Model/Pieces.lean`) | `EndsIn`, `Open` (`Spec/Pieces.lean`); simulation by the `Decoder` over data in one piece (`Lemmas/Pieces.lean`), then C31; negation for open connections |
| C91 | `Next` with a count of its steps (`Model/TokenWork.lean`) | twin and original agree; potential of ten steps for each byte left (`Props/TokenWork.lean`) |
| C92 | `Tokenizer` with `buffer`, `stack` and heap (`Model/TokenMem.lean`) | `NoSharing`, `aloneCalls`, `AtHome` (`Spec/TokenMem.lean`); frame conditions and refinement for every operation (`Lemmas/TokenMem.lean`), induction on calls; negations |
| C93 | `enc` and what it calls (`Model/Encode.lean`), `marshal`, `Encoder.encode` | `size`, `perColor`, `perLine`, `perUnit`, `IndentLib` (`Spec/Size.lean`); `Bounded` for every encoding function (`Lemmas/Size.lean`, `Lemmas/SizeEnc.lean`), induction on values and tokens |
| C94 | `Dec10`, `Dec10.expo`, `Dec10.fmtE`, `Dec10.fmtF` (`Model/Float.lean`), `encodeFloat` (`Model/Encode.lean`) | `Es6`, `readNum`, `SameNum`, `Below` (`Spec/Float.lean`): the rules of ECMAScript as a relation, and the value of a number text; cases of the layout (`Lemmas/Float.lean`, `Lemmas/FloatVal.lean`) |
| C95 | `encSteps` and the steps of each encoding function (`Model/EncodeWork.lean`) | `apart` (`Spec/EncWork.lean`), `size`, `perUnit` (`Spec/Size.lean`); `CostIn` and `Counts` for every encoding function (`Lemmas/EncWork*.lean`), induction on values and tokens |
| C96 | `dec`, `decN`, `unmarshal` and what they call (`Model/Decode.lean`) | `mass`, `room`, `rate`, `reach` (`Spec/Mass.lean`); `Got`, `Pays` and `Grow` for every decoding function (`Lemmas/MassDec.lean`, `Lemmas/MassAll.lean`), induction on types and loops |
| C97 | `SynErr`, `prefix32`, `parseValueM` and what it calls, `unmarshalErr` (`Model/Message.lean`) | `Viable`, `BadToken`, `Fault` (`Spec/Message.lean`); erasure to `parseValue` (`Lemmas/MessageErase.lean`), numbers (`Lemmas/MessageNum.lean`), `Near` carried through the recursion (`Lemmas/MessageFault.lean`, `Lemmas/MessageAt.lean`), lengths (`Lemmas/MessageSmall.lean`) |
| C98 | `TErr`, `inputErrorT`, `parseIntT`, `parseUintT`, `decT` and what it calls (`Model/TypeErr.lean`) | `Whole`, `WideFits` (`Spec/TypeErr.lean`); erasure to `dec`, the digit loops on integer parts, then cases on the value (`Lemmas/TypeErr.lean`); negations. Lists, maps and pointers: `decL`, `unmarshalL` (`Model/TypeErrList.lean`), `Within`, `SaysIn` (`Spec/TypeErrList.lean`), induction on the type and the elements |
| C99 | `mapLoopBy`, `decodeMapBy`, `decodeDurKey`, `unmarshalDur` (`Model/DurKey.lean`) | `HasDurKey` (`Spec/DurKey.lean`); the loop is that of `decodeMap` and monotone in the decoding function of keys, along an invariant of suffixes (`Lemmas/DurKey.lean`); members one by one as for C81 (`Lemmas/MapBy.lean`); negations |
| C64 | `encodeRawMessage` when trusted | from C13: which texts the Tokenizer cannot read; negations |
| C35, C51, C53 | `Unmarshal` into interface{} | refinement to the denotation of the derived tree |
| C37 | encoders and `Unmarshal` into interface{}; `toGV` shows a decoded value to the encoder | relation `SameTree` between the two kinds of trees (`Spec/Tree.lean`), through the rendered document |
| C58 | `Append`, `inlined`, `encodeMap` | words and variables (`Model/Iface.lean`) against the rule of the gc compiler for interfaces (`Spec/Iface.lean`), by induction on types; exactly which types agree; negations |
| C59 | `constructCodec` and what it calls | types as trees with numbered structs (`Model/Codec.lean`) against the rules of encoding/json (`Spec/Codec.lean`); invariant of the table `seen`, with fuel for recursive types; exact conditions; negations |
| C38 | encoders and `Unmarshal` into typed values | relation `Seen` between a decoded value of a type and the encoder's view of it (`Spec/Typed.lean`), through the rendered document, by induction on types; negations |
| C36, C54 | type-directed decoders | induction on types; negations for fixed-size arrays |
| C39 | base64 | round trip by blocks of three |
| C40 | `constructStructType`, `appendStructFields` over numbered struct types | order and uniqueness as invariants of `seen`; Go's selection rule on unfolded trees (`Spec/StructFields.lean`) by induction; negations |
| C41, C42 | `encodeStruct`, `decodeStruct` | against a declarative selection rule; `NilWord` (`Spec/Words.lean`) for interfaces; negations |
| C43 | cache as a state machine of atomic loads and stores | inductive invariant over interleavings |
| C44 | `Marshal`, `Encode` and the sorting map encoders as interleaved operations on a shared heap of arrays and a pool | refinement to calls on private lists, by an ownership invariant |
| C45 | `IsColorTerminal` of both systems over an environment and a writer | ranking of rules |
| C46 | `jc`'s `doMain` over flags and a world of files | case analysis, then C37 and C19; negation with `FORCE_COLOR` |
| C47 | `helper/fatihcolor` with the color library as a parameter | case analysis |
| C49, C50 | `encodeNumber`, `encodeFloat` | negation for C49 with partial; C50 from the number grammar |
| C52 | `appendCompactEscapeHTML` | induction over string items |
| C55 | `RawValue` methods | from C04 |
| C56 | encoders | partial (successful calls), negation (failing calls) |

## Disagreements between the code and its documentation found while reading

Each is stated as a negation theorem with a concrete witness where the model covers it.

1. Zero `Colors{}` is documented as "no colorization", yet every token is followed by `ESC[0m`.
2. `Decoder.readValue` splits a top-level number that straddles a buffer boundary into two values.
3. A `\uXXXX` escape cut by a buffer boundary can give a spurious syntax error.
4. `skipSpacesN` returns `(nil, 0)` for all-space input, so `InputOffset` can undercount.
5. `parseNumber` returns an empty remainder for `1ex`, so the Decoder reports an unexpected EOF.
6. The Tokenizer panics on `,` at top level.
7. The Tokenizer ends silently (`Err == nil`) on mismatched closers.
8. An untrusted `RawMessage` with leading space is rejected; trailing garbage is silently dropped.
9. `Encoder.Encode` returns nil the first time the writer fails.
10. The Indenter level is not restored on error paths, so later output is over-indented.
11. A nil embedded struct pointer leaves a stray comma (`{"A":1,,"B":2}`).
12. Structs with no emitted members are laid out differently from empty maps when indenting.
13. `Number("1abc")` is emitted verbatim.
14. `,string` fields and integer map keys have color codes escaped inside the JSON string.
15. The unsorted `map[string]RawMessage` path swallows errors.
16. Fixed-size array decoding accepts `[1 2]` into `[1]int` and rejects `[]` into `[1]int`.
17. Some error paths return partially appended output.
18. Field resolution forgets depth: `A.X` and `B.C.X` annihilate, while two fields that annihilate one level down let a third at their depth through; tags two levels down do not count.
19. Case-insensitive matching of non-ASCII keys is asymmetric.
20. `jc` colorizes file output when `FORCE_COLOR` is set.
21. `omitempty` on a field promoted through an embedded pointer tests the pointer's memory, not the field.
22. The Tokenizer's internal key flag is set by `{` and cleared only by `:`. After an empty object the flag stays set, so in `[{},1]` the `1` is reported with `IsKey`, and a colored `RawMessage` `[{},"x"]` colors `"x"` as a key.
23. The Tokenizer accepts token sequences that are no JSON (`1 2`, `[1 2`) with `Err` nil; a trusted `RawMessage` `1 2` is emitted as `12` when tokens are used.
24. A map whose key type has a pointer `TextUnmarshaler` but is itself no `TextMarshaler` panics when encoded.
25. An `omitempty` interface field holding a typed nil pointer or map is omitted.
26. `inlined` ignores arrays of length 1 with pointer elements, channels and functions, so `Append` reads the wrong memory for them (C58).
27. `TextMarshaler` map keys are colored as `TextMarshaler`, not `Key`. A colored nil `[]byte` gets two colors and two resets.
28. The nil interface as the only key of a map with `TextMarshaler` keys is written as the bare key `null` (`{null:1}`); with a second key, sorting panics.
29. A nil pointer with the `string` option is written as the string `"null"`.
30. A trusted `RawMessage` `[` succeeds and leaves the nesting level one too deep.
31. With the zero-copy flags a `Decoder` stores slices of its own buffer: the next call that reads overwrites them, and appending to a decoded `RawMessage` overwrites the input still to be decoded (C67).
32. Decoding `null` into a non-nil `**T` sets the inner pointer to nil and keeps the outer one; a `RawMessage` stores the text `null`.
33. An integer overflow inside a value is reported by `Unmarshal` as a syntax error when input is left after it.
34. An object key `"null"` decodes to the integer map key 0.
35. `[,1]` is accepted for a `[0]T` array (like `[1 2]` for `[1]T`), and `[]` is rejected for `[1]T`.
36. A reader's `io.ErrUnexpectedEOF` (a truncated compressed stream, say) is reported by the Decoder as a clean `io.EOF`.
37. An error that the reader returns behind some data is dropped; the Decoder asks again.
38. `jc` reports success when writing its output failed (consequence of 9).
39. A nil `[]interface{}` or `map[string]interface{}` inside an interface comes back as a nil interface; keys that differ only in bytes that are not UTF-8 collide.
40. Two direct fields of a struct with the same name are both emitted (a duplicate key); Go drops both.
41. An embedded field of an unexported non-struct type is emitted if it has a tag; a tag with an invalid name turns an embedded struct into a member; names with `;` are not taken from tags.
42. A type that embeds (a pointer to) the type it is first met in loses the promoted fields: with `A{X int; Next *B}` and `B{*A; Y int}`, a `B` inside an `A` has only the member `Y`.
43. `Unmarshal` of `1.` or `1e` into an integer reports a type error instead of a syntax error: `parseInt` skips the dot when the fraction does not parse.
44. `Unmarshal` of an integer beyond 64 bits into an integer reports a syntax error: `parseInt` returns the whole input behind the overflow, which is taken for trailing data.
45. Names that are not integers, for a map with integer keys, and `[]` for a fixed-size array are reported as syntax errors.
46. A value that is not a string, for a field with the `string` option of a type other than an integer, is reported as an unexpected end of input: the error is built from the rest that the parser of strings returned, which is nil.
47. A pointer to a nil pointer, slice, map or interface is written as `null` and comes back as a nil pointer (as in encoding/json), so typed values do not all round-trip.
48. Strings that are not UTF-8 come back coerced, and a zero `json.Number` comes back as `0`.
49. The keys of a map are never taken from the data word, so for pointer keys (to a `TextMarshaler`) the key codec reads what the pointer points to as if it were the pointer.
50. A type with `MarshalText` whose pointers have `MarshalJSON` is written with `MarshalText` even where it is addressable.
51. The codecs of a struct type are made once, for the place where it is met first: in `struct { A S; B *S }`, pointer methods of the fields of `S` are not called for `B`.
52. Map keys of a string type are written with `MarshalText` if they have it (encoding/json uses the string); keys of an integer type with `MarshalJSON` are written with it, in quotes.
53. `Unmarshal` into a map whose keys have `MarshalText` but no `UnmarshalText` panics (the mirror image of 24), and so does `Unmarshal` into a slice of bytes that have `UnmarshalJSON` with a value receiver.
54. The `string` option quotes what the methods of a type give; encoding/json ignores it there.
55. `Unmarshal` does not check the text before it decodes: after a syntax error slices, structs and maps hold what came before it, a nil pointer has become a pointer to a zero value, and an interface has been set to nil.
56. `Unmarshal` stops at the first value that does not fit instead of skipping it; a slice is left with the elements before it, and a nil map stays nil.
57. `MarshalIndent` breaks lines even with empty prefix and indent and writes `{}` for structs without members, unlike an `Encoder`; values nested deeper than 10000 levels make it fail; with an invalid `json.Number` it returns both the compact text and an error.
58. Trusted raw messages that are not JSON are not written verbatim when the Tokenizer can read them: `1 2` becomes `12`, `[1}x` becomes `[1`, `1,2` panics. When it cannot, the nesting level stays at that of the brackets read so far; with `EscapeHTML` `t rue` becomes `true`.
59. The `Field` of an `*UnmarshalTypeError` ends with a dot (`a.0.` instead of `a.0`).
60. `Field` has the keys of the text, not the names of the fields (`A.` for `{"A":true}` and a field `a`; encoding/json says `a`), and integer keys written anew (`0` for `-0`).
61. `Marshal` has no check for values that contain themselves (encoding/json returns an `*UnsupportedValueError`): the stack of the goroutine is used up, which ends the program.
62. Types that contain themselves without a struct in between (`type S []S`, `type M map[string]M`, `type P *P`) use up the stack when their codec is constructed, even for nil or empty values and with a `MarshalJSON` method; encoding/json handles them.
63. `{"p":true,"p":null}` into a struct with a field `p` of type `**bool` leaves a pointer to nil there (see 32: null goes through pointers to pointers), which `Marshal` writes like nil.
64. `parseValue` recurses once per open bracket and has no limit (encoding/json refuses more than 10000 levels), so a long enough text of `[` overflows the stack of the goroutine, which cannot be recovered.
65. (from 21) For a string, slice or interface field with `omitempty` behind an embedded pointer that is the last field, `emptyFuncOf` reads past the end of the struct; for a map it follows the pointer to the embedded struct as if it were a map.
66. (from C76) Decoding into `interface{}` parses each nested value again for each value around it (`/repo/decode.go:1012`): the work is the length times the nesting, for `[[[...]]]` the square of the length.
67. (from C77) `readValue` drops an error that comes with data and starts over: a reader that delivers n pieces with errors between them costs the square of n.
68. C79: the fields of what an embedded pointer points to are constructed as addressable as the embedding struct (`codec.go:569` passes `canAddr`), though what a pointer points to is always addressable. With `type T struct { *E }`, `type E struct { X M }` and `func (*M) MarshalJSON`, a `T` that is not behind a pointer is written without calling the method of `X`; `encoding/json` calls it (`C79_fails_embedded`).
69. C80: `decodeStruct` and the functions it calls through the fields recurse once per open brace and have no limit (see 64), so that a long enough text for a list or a tree overflows the stack (`C80_fails_deep`); `encoding/json` refuses more than 10000 levels.
70. C81: an error for a key of a map leaves `decodeMap` with the input after the key (`decode.go:698-700`), which `Unmarshal` takes for trailing data, so that the error of `UnmarshalText` for a key becomes a syntax error although the document is valid (`C81_rejected`, `C81_fails_error`); only inside another value does the error survive. `encoding/json` returns the error of `UnmarshalText`, and an `*UnmarshalTypeError` for a bad integer key.
71. C81: a map whose key type has `MarshalText` but no `UnmarshalText` gets the text decoder for its keys (`codec.go:355-357`), which calls a method of a nil interface: every object with a member panics (`C81_fails_nomethod`). `encoding/json` uses the kind of the key type.
72. C82: for a map type whose keys have `MarshalText` only, the function made by `constructMapCodec` panics on every object with a member (`C82_fails_nomethod`), so the reading of the type by its kind is not what `Unmarshal` does (see 71).
73. C83: `Append` of a nil pointer to a scalar in a field with the `string` option writes `"null"`, where `encoding/json` writes `null` (`C83_fails_quoted`).
74. C84: decoding a text with an element of the wrong type into a recursive type takes time quadratic in the length of the text, because `decodeStruct` parses each enclosing object again to find its end (`C84_fails_list`).
75. C85: a member is not decoded at all if by Go's rule it belongs to a promoted field, but another embedded struct has a field of this name at a greater depth (`C85_fails_depth`; the consequence of C40's failure for `Unmarshal`).
76. C86: for a variable of a declared type whose embedded pointer is nil and not in front, `Append` writes commas for the fields behind it, which is no JSON (`C86_fails_comma`; C74 for types in general).
77. C86: `omitempty` does not drop an integer 0 behind an embedded pointer that is set, because the test reads the pointer (`C86_fails_omitempty`; the consequence of C73 for `Append`), and a member that Go's rule finds is not written where C40 fails (`C86_fails_depth`).
78. C87: what `Marshal` writes of a variable of a declared type with a nil embedded pointer cannot be read back by `Unmarshal` if the pointer is not in front (`C87_fails_nil`; a consequence of C74).
79. C89: an integer sent by an `Encoder` behind 32767 bytes of output is read by the `Decoder` as two integers, without an error (`C89_fails_number`); a string with a quote and a `<` sent behind 32762 bytes is refused (`C89_fails_escape`). Both are consequences of C31.
80. C90: `readValue` fills its buffer with `io.ReadFull` (`/repo/json.go:318`), which returns only when all 32768 bytes are there or the reader fails. On a connection that stays open a value that has arrived completely is not returned (`C90_waits_first`, `C90_waits_again`); two programs that talk to each other through `Encoder` and `Decoder` wait for each other for ever (`C90_dialogue_partial`). `encoding/json` calls `Read` once and looks at what it has.
81. C92: the `stack` of a `Tokenizer` is a slice of its own `buffer` (`/repo/token.go:73-76, 201-206`), so a copy made by assignment writes into the original. A copy that looks ahead in `[[1],{"a":2}]` makes the original end at `]` with a nil `Err` (`C92_fails_copy`). Saving a Tokenizer and assigning it again works up to eight open brackets and gives wrong indexes from nine on (`C92_fails_restore`).
82. C97: `syntaxError` (`codec.go:963-970`) never sets `Offset`, so it is 0 for every text (`C97_offset`, `C97_fails_offset`); `encoding/json` says how many bytes were read.
83. C97: `parseNull`, `parseTrue` and `parseFalse` report an early end for every text of fewer than four or five bytes, such as `nux`, which no continuation makes JSON (`C97_fails_end`).
84. C97: `prefix` (`codec.go:994-999`) cuts after 32 bytes, which may be inside a character, so that the message is not UTF-8 although the text is (`C97_fails_utf8`).
85. C97: `parseArray` (`parse.go:637`) reports a comma before `]` as one after an object field (`C97_fails_words`).
86. C98: `inputError` (`codec.go:980`) and `parseInt`, `parseUint` (`parse.go:74, 81, 108, 112, 161, 165`) give the rest of the input to the error, so `Value` shows what follows a short value: for `[true,7]` and a slice of integers it is `"true,7]"` (`C98_fails_value`). The range checks of the sized types cut it off (`decode.go:67`).
87. C98: `parseInt` and `parseUint` report an overflow before they see a fraction, so `9223372036854775808.5` is a number that overflows and `1.5` is not (`C98_fails_over`).
88. C98: `decodeDuration` (`decode.go:453`) names the type `int32` in its error (`C98_fails_type`).
89. C99: the keys of a `map[time.Duration]T` are read by `decodeDuration` (`codec.go:385`), so `{"\"1ns\"":true}` has the key 1, and two members with different strings can be one key (`C99_fails_text`). `encoding/json` and a `map[int64]T` refuse it; `Marshal` never writes such a key.

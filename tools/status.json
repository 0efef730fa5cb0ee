{
 "C01": [
  "proved",
  "Valid is sound and complete for the RFC 8259 grammar."
 ],
 "C02": [
  "proved",
  "Scanner consumption and locality."
 ],
 "C03": [
  "proved",
  "Scanner, string unquoting and Unmarshal into every destination."
 ],
 "C04": [
  "proved",
  "parseStringUnquote is related to a separate inductive meaning of JSON string bodies."
 ],
 "C05": [
  "proved",
  ""
 ],
 "C06": [
  "proved",
  ""
 ],
 "C07": [
  "proved",
  "SWAR checks equal per-byte checks."
 ],
 "C08": [
  "proved",
  "uint64 takes unsigned literals only; -0 is an error as in encoding/json."
 ],
 "C09": [
  "proved",
  ""
 ],
 "C10": [
  "proved",
  "All eleven integer kinds; int and uint taken as 64 bits."
 ],
 "C11": [
  "proved",
  "Tokens, their texts and their concatenation for every JSON text."
 ],
 "C12": [
  "partial",
  "IsKey is wrong after an empty object (C12_isKey_fails); all other fields proved for all documents, all fields for documents without an empty object."
 ],
 "C13": [
  "partial",
  "The claim is false as stated (three counterexample theorems); the exact behaviour on every input is proved."
 ],
 "C14": [
  "proved",
  ""
 ],
 "C15": [
  "proved",
  ""
 ],
 "C16": [
  "proved",
  "For messages accepted as JSON; leading whitespace is an error without TrustRawMessage, see C18."
 ],
 "C17": [
  "partial",
  "Proved without colors for all messages, with colors for those without empty objects (C17_fails_color)."
 ],
 "C18": [
  "partial",
  "False: trailing data is dropped and leading whitespace rejected; proved relative to the first value."
 ],
 "C19": [
  "partial",
  "False for `,string` fields and integer map keys (C19_fails_*); proved for all other values, all palettes of SGR sequences, flags and indents."
 ],
 "C20": [
  "partial",
  "False for Numbers with garbage and for trusted messages that are not JSON (C20_fails_*); proved for clean values (Spec/Clean.lean)."
 ],
 "C21": [
  "partial",
  "Exact rendering by role proved; false after an empty object in a RawMessage and for TextMarshaler keys (C21_fails_*)."
 ],
 "C22": [
  "partial",
  "False for the zero Colors{}; nil Colors proved for clean values."
 ],
 "C23": [
  "partial",
  "False for Numbers with garbage (C23_fails_number); proved for clean values."
 ],
 "C24": [
  "partial",
  "Layout proved for clean values; structs without members differ (C24_fails_*)."
 ],
 "C25": [
  "partial",
  "False for bad Numbers, nil embedded pointers, unsorted maps of bad RawMessages and nil text keys (C25_fails_*); proved for the rest (clean values)."
 ],
 "C26": [
  "proved",
  ""
 ],
 "C27": [
  "partial",
  "Independent of iteration order when key texts are distinct; false for TextMarshaler keys with equal texts. Nil keys cannot be compared (C27_fails_nil_key)."
 ],
 "C28": [
  "proved",
  ""
 ],
 "C29": [
  "partial",
  "False with an Indenter after a failed call; proved without Indenter for all histories, with one for successful calls, and in general up to the level of the Indenter (C29_level_partial)."
 ],
 "C30": [
  "partial",
  "False for the failing call itself, which returns nil; stickiness proved for all histories."
 ],
 "C31": [
  "partial",
  "False for streams over 32768 bytes when a top-level number or a \\u escape behind a \\\" falls on a buffer end (C31_fails_*); proved for all other streams, values and Decode results."
 ],
 "C32": [
  "partial",
  "False for longer streams (C32_fails); exact for every stream of at most 32768 bytes, bounds for every reader and history."
 ],
 "C33": [
  "partial",
  "Stickiness and the origin of errors proved for every reader and history; ends of streams proved with the conditions of C31; four negations."
 ],
 "C34": [
  "proved",
  ""
 ],
 "C35": [
  "proved",
  "For interfaces not holding a pointer (a held pointer is decoded through); ParseFloat is a parameter."
 ],
 "C36": [
  "partial",
  "False for Go arrays (C36_fails_array); proved for every destination type without them."
 ],
 "C37": [
  "partial",
  "False for nil slices and maps held in interfaces and for keys that collide after coercion (C37_fails_*); proved for all other trees, and without exception for every tree that Unmarshal produces. That ParseFloat inverts AppendFloat is a hypothesis."
 ],
 "C38": [
  "partial",
  "Proved for all types of the statement (and floats, numbers, times, durations, interfaces, integer keys and the string option) when strings and keys are valid UTF-8 and no pointer points to a nil pointer, slice, map or interface; false otherwise (C38_fails_*). Strings that are not UTF-8 are coerced as the format demands. Empty values under omitempty come back as zero values. That ParseFloat and time.Parse invert their formatters is a hypothesis."
 ],
 "C39": [
  "proved",
  ""
 ],
 "C40": [
  "partial",
  "Order of members, direct fields and uniqueness of promoted ones are proved for all types. The choice among promoted fields is proved for types that do not embed themselves and whose equal names are nested or one level deep; it fails for other collisions."
 ],
 "C41": [
  "partial",
  "False for fields behind embedded pointers and interfaces holding nil; proved otherwise. C41_iface_exact: which interfaces are left out."
 ],
 "C42": [
  "partial",
  "False for non-ASCII names and keys when case is ignored (C42_fails_unicode); proved otherwise, with the effect of decoding an object into a struct."
 ],
 "C43": [
  "proved",
  "Every schedule of loads, constructions and stores; construction is a function of the type. Entries can be lost (C43_lossy), which only costs time."
 ],
 "C44": [
  "proved",
  "Refinement of a shared heap to private lists, for the encoder buffers and the mapslices."
 ],
 "C45": [
  "proved",
  "Unix and Windows versions."
 ],
 "C46": [
  "partial",
  "False with FORCE_COLOR (C46_fails_force); proved otherwise, with the data written being the data read for every flag and environment. C46_no_input, C46_source: where the data is read."
 ],
 "C47": [
  "proved",
  "The color library is a parameter."
 ],
 "C48": [
  "partial",
  "Proved when the value is delimited from what follows, for every destination; `1.` and `1e` into an integer report a type error."
 ],
 "C49": [
  "partial",
  "False for a number followed by other text; proved otherwise."
 ],
 "C50": [
  "proved",
  "strconv's text is a parameter of a stated form."
 ],
 "C51": [
  "partial",
  "False for types that see the text, such as RawMessage (C51_fails_raw); proved for all others."
 ],
 "C52": [
  "proved",
  ""
 ],
 "C53": [
  "proved",
  ""
 ],
 "C54": [
  "partial",
  "False for RawMessage and pointers to pointers (C54_fails_*); proved for all other destinations."
 ],
 "C55": [
  "proved",
  ""
 ],
 "C56": [
  "partial",
  "False on error paths and for trusted non-JSON messages; proved for clean values."
 ],
 "C57": [
  "partial",
  "Proved for every destination without fixed-size arrays, integer map keys, the `string` option of non-integers, and integers at the top; a concrete valid text for each of these is reported as a syntax error. C57_unquoted: numbers in place of strings."
 ],
 "C58": [
  "partial",
  "False for channels, functions and arrays of one pointer or map (also as the only field of structs), and for pointer keys of maps; C58_exact and C58_keys_exact show that these are the only types."
 ],
 "C59": [
  "partial",
  "False for value MarshalText with pointer MarshalJSON, for some key types, for the string option with methods or pointers, and for structs met both addressable and not; apart from the first kinds C59_enc_exact shows the last to be the only obstacle, and C59_dec_partial covers decoding. Embedded fields are treated in C79."
 ],
 "C60": [
  "partial",
  "False for trailing data, slices, structs, pointers, interfaces that hold a value; scalars, nil maps and nil interfaces are left alone by texts that do not begin with a value."
 ],
 "C61": [
  "proved",
  ""
 ],
 "C62": [
  "partial",
  "False: decoding stops at the first value that does not fit; what comes before it is stored (structs, nil slices)."
 ],
 "C63": [
  "partial",
  "False for empty prefix and indent, structs without members, numbers that are none, and values nested more than 10000 levels deep; proved for the others. What MarshalIndent returns is proved for all clean values."
 ],
 "C64": [
  "partial",
  "False for messages made of tokens only (numbers joined, text dropped, panic), and the nesting level is not restored; proved for messages in which something is no token."
 ],
 "C65": [
  "partial",
  "False for the text of Field: every part has a dot behind it, the last one too; proved for the list of its parts."
 ],
 "C66": [
  "partial",
  "Proved for all inputs that the promoted fields and the error are those of a flat struct (C66_flat), that memory keeps its shape and only named fields and nil pointers of exported type change (C66_grows), and that the promoted fields are those of C40 (C66_fields). That a pointer is set exactly when a member goes behind it, and that members for fields behind nil pointers of unexported type are errors, is C66_members_partial, without non-ASCII names and keys when case is ignored (C66_fails_unicode, from C42) and without raw messages and Unmarshalers as fields."
 ],
 "C67": [
  "proved",
  "Pointers found in interfaces are not in the memory model; Unmarshalers are taken to copy what they keep."
 ],
 "C68": [
  "partial",
  "Values that contain themselves use up the stack; for values without errors inside, returning is equivalent to being a tree. Nil embedded pointers are not in the equivalence."
 ],
 "C69": [
  "partial",
  "False for types that come back to themselves without a struct in between (type S []S): the stack is used up. C69_exact shows that these, and the types that lead to them, are the only ones; the others get the codec of C59. Embedded fields are left out here; C79 has them."
 ],
 "C70": [
  "partial",
  "False for an empty json.Number (written as 0) and for pointers to nil, which repeated members can leave behind (C70_fails_*); proved for all other results, with the behaviour of ParseFloat, ParseDuration and time.Parse on their own output as hypotheses (LibReturns)."
 ],
 "C71": [
  "partial",
  "False: there is no limit to nesting, so for every stack there is a short valid text that ends the program (C71_fails_deep). Proved: room for one call more than the text has opening brackets is enough, and a valid document needs exactly as many calls as it has levels."
 ],
 "C72": [
  "proved",
  ""
 ],
 "C73": [
  "partial",
  "Proved for encoding and decoding of all fields. False for omitempty behind an embedded pointer: the pointer is read as if it were the field, and a string or slice field is read past the end of the struct (C73_fails_*)."
 ],
 "C74": [
  "partial",
  "Proved for all values: what the encoder sees is what the paths read. Fields behind nil pointers are left out exactly when they come before all members; otherwise a comma is left over and the text is not JSON (C74_fails_comma, C74_stray_iff, C74_json_iff say exactly when). The round trip is proved when no embedded pointer is nil (C74_roundtrip_partial) and when the fields behind nil pointers come first, in which case exactly the nil pointers are nil again (C74_roundtrip_nil_partial), both with the exclusions of C38."
 ],
 "C75": [
  "proved",
  "At most ten steps for each byte of a value (C75_value), at most ten for each byte of any input plus fourteen (C75_linear). The counting functions return what the model of the parser returns (C75_same)."
 ],
 "C76": [
  "partial",
  "False: every nested value is parsed once for each value around it, so that [[[...]]] takes at least a quarter of the square of its length (C76_tower, C76_fails_deep). Proved: at most sixty-one steps for each byte on each level (C76_levels_partial), linear when the text does not start with a value (C76_bad), and never more than the square for any bytes (C76_quadratic)."
 ],
 "C77": [
  "partial",
  "Proved for readers that fail in the end only: 139 steps for each byte passed over and forty for each call (C77_value_partial, C77_total_partial). False for readers that have more data after an error, as a file that is being written: the error is dropped and everything is parsed and moved again, so that n single bytes take at least n(n-1)/2 steps (C77_pieces, C77_fails_pieces). For every reader: each dropped error costs at most 160 steps for each byte of the value and forty more, on top of the 139 and forty (C77_errors_partial, C77_total_errors_partial)."
 ],
 "C78": [
  "partial",
  "Proved, with the converse and the generic reading of the text, for Clean and Tidy values, without the raw messages of C18, the omitempty fields of C41 and nil embedded pointers after a member (C78_says_partial, C78_succeeds_partial, C78_error_partial, C78_generic_partial). False for these (C78_fails_raw, C78_fails_omitempty, C78_fails_embedded)."
 ],
 "C79": [
  "partial",
  "Decoding is proved for fair types (C79_dec_partial), encoding for fair types with fields that are encoded alike wherever their struct is (C79_enc_partial), in particular for types without pointer-only methods (C79_values_partial) and for pointers to types without maps (C79_pointers_partial). The members are those of C40 (C79_members). False for fields behind an embedded pointer in a struct that is not addressable (C79_fails_embedded)."
 ],
 "C80": [
  "partial",
  "With room for one call of decodeStruct more than the text has opening braces, Unmarshal does what it does into the written-out type (C80_unmarshal) and returns (C80_returns); the decoding functions are the only ones that satisfy their equations (C80_solves, C80_unique); round trip as in C38 (C80_roundtrip_partial, C80_list). That one stack suffices for every text is false, since the nesting is not bounded (C80_fails_deep, C80_fails)."
 ],
 "C81": [
  "partial",
  "C81_accepts, C81_kept and C81_last determine the outcome for every key type, C81_rejected the error for a key. The error of UnmarshalText is replaced by a syntax error at the top level (C81_fails_error), and key types with MarshalText only panic (C81_fails_nomethod)."
 ],
 "C82": [
  "partial",
  "C82_reading_partial is the equality, C82_unmarshal_partial reduces it to a finite type, C82_returns_partial and C82_roundtrip_partial follow. Map keys where the package chooses other functions panic (C82_fails_nomethod); time.Duration keys and embedded structs are not represented."
 ],
 "C83": [
  "partial",
  "C83_view_partial is the equality with the rules of encoding/json; C83_roundtrip_partial adds C82 for types without methods (but those of keys), for variables with UTF-8 strings and no pointers to nil; C83_injective_partial follows. Fails for types where the package chooses other functions: C83_fails_quoted. time.Duration keys and embedded structs are not represented."
 ],
 "C84": [
  "partial",
  "C84_same erases the counts to C57/C66's decoders; C84_decoded is the bound for texts that are decoded, C84_any_partial and C84_finite_partial for all texts, C84_recursive_partial for recursive types. Fails for recursive types with texts that have errors (C84_list, C84_fails_list: every level is parsed again) and for interfaces (C84_fails_iface). Not counted: memory moved by append and the cost of map stores."
 ],
 "C85": [
  "partial",
  "C85_unmarshal_partial for ordinary types (conditions of C40, C79, C82), C85_flat_partial against flat structs, C85_plain against C82, C85_enough_partial (stack: one call per opening brace) and C85_returns_partial. Fails where C40 fails (C85_fails_depth: a member for which a deeper field has the same name in another branch is dropped)."
 ],
 "C86": [
  "partial",
  "C86_seen_partial: exactly what is written for ordinary types, with roll-backs and the test for omitempty at the pointer; C86_view_partial and C86_settled_partial: it is Go's rule if nil embedded pointers come first (or are set) and the test answers as for the field. Fails for a nil pointer that comes later (C86_fails_comma), omitempty behind a pointer (C86_fails_omitempty) and where C40 fails (C86_fails_depth)."
 ],
 "C87": [
  "partial",
  "C87_decode_partial, C87_encode_partial: the same as for the flat type, for ordinary types; C87_roundtrip_partial: what is written comes back. Missing: embedded pointers to unexported types (C87_fails_unexported) and variables with nil embedded pointers when written (C87_fails_nil), where the statement is false."
 ],
 "C88": [
  "proved",
  "C88_square for types within bounds, C88_concrete without interfaces for every destination, C88_program for all types of a program however often written out, C88_new for new variables; C88_list shows that the square is met. Not counted: memory moved by append and the cost of map stores."
 ],
 "C89": [
  "partial",
  "C89_stream: the output is a stream, for all sequences of calls. C89_texts_partial, C89_roundtrip_partial: it is read back if it fits the first buffer of 32768 bytes, or holds no number at the top level and no \\u escape behind an escaped quote. False for longer output: C89_fails_number (12 comes back as 1 without an error), C89_fails_escape."
 ],
 "C90": [
  "partial",
  "C90_pieces, C90_stream_partial: pieces do not matter. C90_buffered, C90_ends. C90_full_partial: a value is returned once 32768 bytes have been received. False before that: C90_waits_first, C90_waits_again, C90_fails: readValue calls io.ReadFull with the whole buffer, so a value shorter than 32768 bytes is returned only when the other side closes the connection; C90_dialogue_partial: a dialogue through Encoder and Decoder halts."
 ],
 "C91": [
  "proved",
  "C91_next: the counting twin returns what the Tokenizer returns. C91_token, C91_calls, C91_linear (13 steps a byte and 17 more). Growing the stack is not counted."
 ],
 "C92": [
  "partial",
  "C92_refines: the stack in memory refines the list of Model/Token.lean. C92_separate, C92_fresh: Tokenizers that share no memory, in any order. C92_new, C92_reset: a new or reset Tokenizer shares with none. C92_copy_partial: copies made before the first bracket. C92_restore_partial, C92_home: saving and going back, with at most eight open brackets. False otherwise: C92_fails_copy (a lookahead by a copy ends the original in the middle of a valid text with a nil Err), C92_fails_restore (wrong Index inside nine arrays)."
 ],
 "C93": [
  "proved",
  "C93_size: enc with any options; C93_marshal: six bytes a unit; C93_encode: what a call of Encode writes. C93_tight: six is needed. C93_square, C93_not_linear: with indentation the length of a line counts, so that no fixed number is enough. Of encoding/json.Indent, used with TrustRawMessage only, it is assumed that it writes at most one line for each byte (IndentLib)."
 ],
 "C94": [
  "proved",
  "C94_es6, C94_value, C94_injective, C94_cutoff, C94_length, C94_empty. The shortest decimal that strconv computes is given (Dec10); the choice of the format, the layout of AppendFloat in both formats and the cleanup of the exponent are modelled. ECMAScript writes 0 for the negative zero, the library -0 (as encoding/json does); Es6 keeps the sign."
 ],
 "C95": [
  "proved",
  "C95_work: any options; C95_unsorted: without SortMapKeys the sort library is not called; C95_marshal: sixty steps a unit. C95_counted: every byte appended is a step, so that the count does not leave out what is written. C95_square: with indentation the work of slices in slices is at least the square of their number, as C93_square. Steps are counted by a function beside each encoding function (Model/EncodeWork.lean); append is taken at its amortised cost, what the sort library takes is given, the methods of values are not counted, and strconv, base64 and encoding/json.Indent take a step a byte."
 ],
 "C96": [
  "proved",
  "C96_typed: any type and contents, with the types that pointers in interfaces lead to; C96_new: a new variable; C96_any: three for each byte into interface{}. C96_three: two are not enough. C96_type_matters: no number is enough for all types, since one null makes an element of any size. Counted are values, elements, entries, pointers, interfaces and bytes; spare memory of slices that holds nothing and what the methods of destinations make is not."
 ],
 "C97": [
  "partial",
  "C97_where_partial: the place; C97_first: the first byte that cannot stand where it does is not before it; C97_json: there is an error exactly when the text is not JSON; C97_length: length and what is quoted; C97_unmarshal: the model agrees with Unmarshal into a RawMessage. Missing: Offset is never set (C97_offset, C97_fails_offset). Also C97_fails_end: an early end is reported for texts that cannot be continued; C97_fails_utf8: a character may be cut; C97_fails_words: the message for arrays speaks of objects. Errors of destinations that do not take every value are not in the model."
 ],
 "C98": [
  "partial",
  "C98_erases: the model is that of C10 and the decoders with the error added; C98_about_partial: what the error is about and which type it names; C98_alone, C98_long: exactly the value if nothing follows or if it is long; C98_short: length; C98_integer, C98_no_integer: every case for integers; C98_over_partial: overflows. Missing: a short value is shown with what follows it (C98_fails_value), numbers with a fraction are called overflows (C98_fails_over), the error of a duration names int32 (C98_fails_type). strconv.Quote is a parameter; errors of structs are not in the model. Lists, maps with string keys and pointers, to any depth: C98_list_erases, C98_list_partial: the error is about a value at its place in the document; C98_list_long; C98_fails_list."
 ],
 "C99": [
  "partial",
  "C99_key: which strings are keys; C99_int64: what a map with int64 keys takes, with the same entries; C99_plain_partial: the equivalence for texts without a backslash; C99_roundtrip_partial: with the restrictions of C38; C99_accepts, C99_kept, C99_last, C99_rejected: which objects are taken, the entries afterwards, and the error for a key that is no duration, as for C81. False in general: a duration as text, in quotation marks inside the string, is a key as well (C99_fails_text, C99_fails). Nested types with such maps (C82, C83) are not represented."
 ]
}
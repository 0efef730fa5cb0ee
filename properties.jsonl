{"id": "C01", "title": "Valid accepts exactly JSON", "statement": "Valid(data) returns true if and only if data is optional whitespace, one JSON value of the RFC 8259 grammar, optional whitespace (string bytes may be any byte >= 0x20 other than quote and backslash, as in encoding/json).", "quantifier": "every byte string data, of every length and nesting depth", "why_tests_cant": "the set of inputs is infinite; a validator can be wrong on one untested nesting, escape or number shape", "anchors": ["json.go:Valid", "parse.go:parseValue", "parse.go:parseObject", "parse.go:parseArray", "parse.go:parseNumber", "parse.go:parseStringFast"]}
{"id": "C02", "title": "Parsing splits the input exactly", "statement": "When the parser accepts a value it has consumed exactly the bytes of one JSON value: the consumed bytes followed by the returned remainder are the original input, and parsing the consumed bytes followed by any other admissible continuation consumes the same bytes.", "quantifier": "every byte string and every continuation", "why_tests_cant": "quantifies over all inputs and all continuations", "anchors": ["json.go:Parse", "parse.go:parseValue"]}
{"id": "C03", "title": "Parsing always terminates and never indexes out of range", "statement": "Valid, Unquote of a parsed string and Unmarshal into interface{} return for every input: no input makes the scanner loop forever or index outside a slice.", "quantifier": "every byte string", "why_tests_cant": "termination and absence of panics are claims about all inputs", "anchors": ["parse.go:parseValue", "parse.go:parseStringUnquote", "json.go:Valid", "decode.go:decodeInterface"]}
{"id": "C04", "title": "String literals decode to their meaning", "statement": "Decoding a JSON string literal yields the UTF-8 of its characters: simple escapes, \\uXXXX in either case, surrogate pairs combined, lone surrogates and malformed UTF-8 replaced by U+FFFD; whether the fast or the slow scanner ran is not observable.", "quantifier": "every string literal", "why_tests_cant": "infinitely many mixes of escapes, surrogates and raw bytes", "anchors": ["parse.go:parseStringFast", "parse.go:parseStringUnquote", "parse.go:parseUnicode", "token.go:RawValue.Unquote"]}
{"id": "C05", "title": "String encode/decode round trip", "statement": "Encoding any Go string and decoding the result gives back the string with malformed UTF-8 replaced by U+FFFD, hence the same string when it is valid UTF-8, with EscapeHTML on or off.", "quantifier": "every byte string, both flag settings", "why_tests_cant": "a round trip over all strings cannot be enumerated", "anchors": ["encode.go:doEncodeString", "parse.go:parseStringUnquote", "decode.go:decodeString"]}
{"id": "C06", "title": "Encoded strings are safe to embed", "statement": "The encoding of any string is a JSON string literal with no control byte, no raw ESC, no U+2028/U+2029, and, under EscapeHTML, no '<', '>' or '&'.", "quantifier": "every byte string", "why_tests_cant": "one unescaped byte in one context is an injection hole", "anchors": ["encode.go:doEncodeString", "codec.go:encodeString"]}
{"id": "C07", "title": "Word-at-a-time ASCII scanning equals byte-at-a-time", "statement": "The 8/4/3/2/1-byte-block ASCII checks accept a slice exactly when every byte is ASCII (printable ASCII), whatever its length and wherever the offending byte is.", "quantifier": "every byte slice of every length", "why_tests_cant": "bit tricks with carries and borrows must be right for all 2^64 words and every tail length", "anchors": ["ascii.go:asciiValid", "ascii.go:asciiValidPrint", "ascii.go:hasLess64", "ascii.go:hasMore64"]}
{"id": "C08", "title": "Integer literals decode exactly or fail", "statement": "Decoding an integer literal into int64/uint64 stores exactly its mathematical value when it fits and returns an error when it does not; it never wraps, and fractions or exponents are errors.", "quantifier": "every byte string", "why_tests_cant": "boundaries around MinInt64, MaxInt64, MaxUint64 and every digit count", "anchors": ["parse.go:parseInt", "parse.go:parseUint", "decode.go:decodeInt64", "decode.go:decodeUint64"]}
{"id": "C09", "title": "Integer round trip", "statement": "Encoding any int64 or uint64 and decoding the text gives back the same number.", "quantifier": "every 64-bit integer", "why_tests_cant": "2^64 values", "anchors": ["jsoncolor.go:appendInt64", "jsoncolor.go:appendUint64", "parse.go:parseInt", "parse.go:parseUint"]}
{"id": "C10", "title": "Narrow integers never truncate", "statement": "Decoding into int8/16/32 or uint8/16/32 stores the literal's value if it is in the type's range and otherwise returns an error and leaves the destination unchanged.", "quantifier": "every width, every input, every prior destination value", "why_tests_cant": "range checks at every width for all literals", "anchors": ["decode.go:decodeInt8", "decode.go:decodeInt16", "decode.go:decodeInt32", "decode.go:decodeUint8", "decode.go:decodeUint16", "decode.go:decodeUint32"]}
{"id": "C11", "title": "Tokenizer yields the document's tokens", "statement": "On a valid JSON document the Tokenizer yields exactly its tokens in order, their concatenation is the document without insignificant whitespace, and it ends with Err nil.", "quantifier": "every valid JSON document", "why_tests_cant": "all documents, all whitespace layouts", "anchors": ["token.go:Tokenizer.Next", "token.go:NewTokenizer"]}
{"id": "C12", "title": "Tokenizer position fields", "statement": "For each token of a valid document Depth is the number of enclosing containers, Index the element position within the innermost one, IsKey is true exactly for object keys, and Delim is non-zero exactly for delimiters.", "quantifier": "every token of every valid document", "why_tests_cant": "unbounded nesting and widths", "anchors": ["token.go:Tokenizer.Next", "token.go:Tokenizer.push", "token.go:Tokenizer.pop", "token.go:Tokenizer.index"]}
{"id": "C13", "title": "Tokenizer reports malformed input", "statement": "On malformed input the Tokenizer sets Err and returns false; it never panics and never stops silently before the end of the input.", "quantifier": "every byte string", "why_tests_cant": "needs every malformed input, not a sample", "anchors": ["token.go:Tokenizer.Next", "token.go:Tokenizer.pop"]}
{"id": "C14", "title": "Tokenizer errors are sticky and Reset clears everything", "statement": "Once Err is set every further Next returns false and changes nothing; after Reset(b) the Tokenizer behaves exactly like NewTokenizer(b).", "quantifier": "every reachable tokenizer state and every later call sequence", "why_tests_cant": "history quantifier", "anchors": ["token.go:Tokenizer.Next", "token.go:Tokenizer.Reset"]}
{"id": "C15", "title": "RawValue classification", "statement": "For each scalar token exactly one of String, Null, True, False, Number is true and it is the right one.", "quantifier": "every scalar token", "why_tests_cant": "all tokens", "anchors": ["token.go:RawValue"]}
{"id": "C16", "title": "RawMessage keeps key order and tokens", "statement": "Encoding a RawMessage emits the same tokens in the same order as the source (keys never reordered, duplicates kept), changing only insignificant whitespace and, under EscapeHTML, the spelling of HTML-significant characters in strings.", "quantifier": "every valid RawMessage, every color and indent configuration", "why_tests_cant": "order over unbounded objects; previous versions were nondeterministic", "anchors": ["encode.go:encodeRawMessage", "encode.go:appendRawMessageTokens"]}
{"id": "C17", "title": "RawMessage renders like the equivalent native value", "statement": "The layout (newlines, indentation, commas, colon spacing, colors by token kind) of a RawMessage is that produced for the equivalent natively-encoded maps and slices, at any nesting level of the surrounding document.", "quantifier": "every valid RawMessage, every configuration, every starting depth", "why_tests_cant": "two separate code paths must agree on all trees", "anchors": ["encode.go:appendRawMessageTokens", "encode.go:appendRawMessageItemPrefix", "encode.go:encodeMap", "encode.go:encodeArray"]}
{"id": "C18", "title": "Bad RawMessages are rejected without output", "statement": "Without TrustRawMessage, encoding a RawMessage that is not one JSON value returns an error and appends nothing; what is accepted is emitted completely.", "quantifier": "every byte string as RawMessage", "why_tests_cant": "all malformed messages", "anchors": ["encode.go:encodeRawMessage"]}
{"id": "C19", "title": "Color transparency", "statement": "Removing the ANSI color sequences from colorized output gives exactly the output produced without colors, for the same value, flags and indentation.", "quantifier": "every value, every Colors whose fields are ANSI SGR sequences or empty, every flag and indent setting", "why_tests_cant": "all values times all palettes", "anchors": ["jsoncolor.go:Colors", "encode.go", "codec.go:constructStringEncodeFunc"]}
{"id": "C20", "title": "Colors are always reset", "statement": "Colorized output is a sequence of color-token-reset segments: no color is left active after any token, at line ends, or at the end of the output.", "quantifier": "every value and every Colors", "why_tests_cant": "one missing reset corrupts the terminal", "anchors": ["jsoncolor.go:appendNull", "jsoncolor.go:appendPunc", "encode.go:encodeString", "encode.go:encodeKey"]}
{"id": "C21", "title": "Each token gets its configured color", "statement": "Keys get Key, strings String, numbers Number, booleans Bool, null Null, byte slices Bytes, times Time, TextMarshalers TextMarshaler; brackets/braces/comma/colon get their own field or Punc when that is empty.", "quantifier": "every value and every Colors", "why_tests_cant": "token roles in unbounded trees", "anchors": ["jsoncolor.go:puncColor", "jsoncolor.go:appendPunc", "encode.go:appendRawMessageScalar"]}
{"id": "C22", "title": "nil and zero Colors mean no colorization", "statement": "Encoding with nil Colors or with the zero value Colors{} produces output without any escape sequence.", "quantifier": "every value", "why_tests_cant": "README promise over all values", "anchors": ["jsoncolor.go:Colors", "README.md"]}
{"id": "C23", "title": "Indentation transparency", "statement": "Removing insignificant whitespace from indented output gives the compact output for the same value.", "quantifier": "every value, every whitespace prefix/indent", "why_tests_cant": "all trees and all indents", "anchors": ["encode.go:Indenter", "encode.go:encodeArray", "encode.go:encodeMap", "encode.go:encodeStruct"]}
{"id": "C24", "title": "Indented layout", "statement": "With a prefix and indent set, every array element and object member starts on its own line with the prefix and one indent per nesting level, closers of non-empty containers are on their own line at the parent's level, empty slices and maps stay on one line, and a colon is followed by one space.", "quantifier": "every value and every prefix/indent", "why_tests_cant": "unbounded depth", "anchors": ["encode.go:Indenter.appendIndent", "encode.go:encodeArray", "encode.go:encodeMap"]}
{"id": "C25", "title": "Encoder output is valid JSON", "statement": "Whenever encoding without colors succeeds the output is a valid JSON text.", "quantifier": "every Go value and every flag/indent setting", "why_tests_cant": "all values", "anchors": ["json.go:Append", "json.go:Marshal", "encode.go", "encode.go:encodeNumber", "encode.go:encodeStruct"]}
{"id": "C26", "title": "Append only appends", "statement": "Append(b, x, ...) returns b followed by bytes that do not depend on b; on error the bytes of b are still intact.", "quantifier": "every prefix b, every value, every configuration", "why_tests_cant": "all prefixes and values", "anchors": ["json.go:Append", "encode.go"]}
{"id": "C27", "title": "Sorted maps are deterministic", "statement": "With SortMapKeys the output does not depend on Go's map iteration order and keys appear in increasing byte order of their key text (the string, the decimal text of an integer, or the marshalled text).", "quantifier": "every map and every iteration order", "why_tests_cant": "iteration order is random at run time", "anchors": ["encode.go:encodeMapStringInterface", "encode.go:encodeMapStringRawMessage", "encode.go:encodeMap", "codec.go:intStringsAreSorted"]}
{"id": "C28", "title": "Encode writes all or nothing, once", "statement": "A successful Encode performs exactly one Write consisting of the encoding followed by a newline; a failing encoding performs no Write and returns the error.", "quantifier": "every value and every encoder state", "why_tests_cant": "all values, all histories", "anchors": ["json.go:Encoder.Encode"]}
{"id": "C29", "title": "Encode does not depend on history", "statement": "What Encode writes for a value depends only on the value and the encoder's settings, not on what was encoded before, whether it succeeded or failed.", "quantifier": "every sequence of Encode calls", "why_tests_cant": "unbounded histories", "anchors": ["json.go:Encoder.Encode", "encode.go:Indenter"]}
{"id": "C30", "title": "Write errors are reported and sticky", "statement": "When the writer fails, that Encode call returns the error, and every later Encode returns it without writing.", "quantifier": "every history of values and writer outcomes", "why_tests_cant": "fault schedules", "anchors": ["json.go:Encoder.Encode"]}
{"id": "C31", "title": "Streaming decode equals splitting the stream", "statement": "Decoding a stream that is a whitespace-separated sequence of JSON values yields exactly those values in order, wherever the internal buffer boundaries fall.", "quantifier": "every sequence of values, every stream length", "why_tests_cant": "buffer boundaries at 32768 bytes and later fall anywhere in a value", "anchors": ["json.go:Decoder.readValue", "json.go:Decoder.Decode"]}
{"id": "C32", "title": "InputOffset is the stream position", "statement": "After each Decode, InputOffset is the number of stream bytes up to the end of the value just returned or the start of the next token.", "quantifier": "every stream and every point in it", "why_tests_cant": "positions over unbounded streams", "anchors": ["json.go:Decoder.InputOffset", "json.go:Decoder.readValue", "parse.go:skipSpacesN"]}
{"id": "C33", "title": "End of stream is reported precisely", "statement": "At a clean end Decode returns io.EOF, in the middle of a value io.ErrUnexpectedEOF, and a reader error is returned as is and is sticky.", "quantifier": "every stream truncation point and reader error", "why_tests_cant": "every crash point of the reader", "anchors": ["json.go:Decoder.readValue"]}
{"id": "C34", "title": "No byte is lost or duplicated by buffering", "statement": "At any time the bytes returned or skipped so far, followed by Buffered(), followed by what the reader has not yet delivered, are the original stream.", "quantifier": "every stream and every history of Decode calls", "why_tests_cant": "buffer moves and growth over all histories", "anchors": ["json.go:Decoder.readValue", "json.go:Decoder.Buffered"]}
{"id": "C35", "title": "Unmarshal into interface{} means the document", "statement": "Unmarshal into an empty interface succeeds exactly when the input is valid JSON whose numbers are representable, and stores the document's tree: maps with the last of duplicate keys, slices in order, decoded strings, booleans, nil, numbers.", "quantifier": "every byte string", "why_tests_cant": "all documents", "anchors": ["json.go:Unmarshal", "decode.go:decodeInterface", "decode.go:decodeMapStringInterface", "decode.go:decodeSlice"]}
{"id": "C36", "title": "Unmarshal accepts only valid JSON", "statement": "If Unmarshal returns nil for any destination type then the input is valid JSON.", "quantifier": "every byte string and every destination type", "why_tests_cant": "all inputs times all types", "anchors": ["json.go:Unmarshal", "decode.go"]}
{"id": "C37", "title": "Generic round trip", "statement": "Marshalling a tree of interface{} values and unmarshalling it gives an equal tree (strings coerced to valid UTF-8), with or without indentation and HTML escaping.", "quantifier": "every finite tree", "why_tests_cant": "all trees", "anchors": ["json.go:Marshal", "json.go:Unmarshal"]}
{"id": "C38", "title": "Typed round trip", "statement": "Marshalling a value of a supported composite type (booleans, integers, strings, byte slices, slices, arrays, string maps, pointers, structs) and unmarshalling into a zero value of the same type gives the value back.", "quantifier": "every type built from those and every value of it", "why_tests_cant": "all types and values", "anchors": ["encode.go", "decode.go", "codec.go"]}
{"id": "C39", "title": "Byte slices survive base64", "statement": "Encoding any []byte gives a base64 JSON string that decodes to the same bytes; nil becomes null.", "quantifier": "every byte slice", "why_tests_cant": "all lengths mod 3", "anchors": ["encode.go:doEncodeBytes", "decode.go:decodeBytes"]}
{"id": "C40", "title": "Struct field selection", "statement": "A struct's members are its non-ignored exported fields in declaration order with promoted fields of embedded structs in place; a direct field hides promoted fields of the same name; two promoted fields of the same name at the same depth annihilate unless exactly one is tagged.", "quantifier": "every struct type", "why_tests_cant": "all struct shapes", "anchors": ["codec.go:appendStructFields", "codec.go:ambiguousNameTagCount"]}
{"id": "C41", "title": "omitempty omits exactly empty fields", "statement": "A field with omitempty is left out exactly when its value is false, 0, a nil pointer or interface, or an empty array, slice, map or string; all other fields are present.", "quantifier": "every struct value", "why_tests_cant": "all values", "anchors": ["encode.go:encodeStruct", "codec.go:emptyFuncOf"]}
{"id": "C42", "title": "Field matching when decoding", "statement": "When decoding an object into a struct, a key that equals a field name selects that field; otherwise an ASCII case-insensitive match selects the first such field unless disabled; other keys are skipped, or rejected under DisallowUnknownFields.", "quantifier": "every key and every struct", "why_tests_cant": "all keys and field sets", "anchors": ["decode.go:decodeStruct", "codec.go:constructStructType", "parse.go:appendToLower"]}
{"id": "C43", "title": "The codec cache is transparent under concurrency", "statement": "However concurrent first uses of types interleave, every Encode/Decode uses the codec that a fresh construction for its type would give.", "quantifier": "every interleaving of cache loads, constructions and stores by any number of goroutines", "why_tests_cant": "schedules", "anchors": ["codec.go:cacheLoad", "codec.go:cacheStore", "codec.go:constructCachedCodec"]}
{"id": "C44", "title": "Pooled buffers do not leak between calls", "statement": "The slice returned by Marshal never changes afterwards and no call's output contains bytes of another call, whatever the interleaving of pool operations.", "quantifier": "every history of Marshal/Encode calls", "why_tests_cant": "aliasing over all histories", "anchors": ["json.go:Marshal", "json.go:encoderBufferPool"]}
{"id": "C45", "title": "IsColorTerminal precedence", "statement": "NO_COLOR wins over FORCE_COLOR, which wins over TERM=dumb, which wins over terminal detection; non-file writers are not color terminals unless forced.", "quantifier": "every environment and writer", "why_tests_cant": "all environments", "anchors": ["terminal.go:IsColorTerminal"]}
{"id": "C46", "title": "jc does not colorize files", "statement": "The jc command never writes color sequences to an output file, and writes plain output to stdout when -c=false or stdout is not a color terminal.", "quantifier": "every flag combination and environment", "why_tests_cant": "documented 'never'", "anchors": ["cmd/jc/main.go:doMain"]}
{"id": "C47", "title": "fatihcolor conversion", "statement": "ToCoreColors maps each fatih color to the escape prefix it would print and nil to no color; nil Colors to nil.", "quantifier": "every fatih Colors value", "why_tests_cant": "all colors", "anchors": ["helper/fatihcolor/fatihcolor.go:ToCoreColors", "helper/fatihcolor/fatihcolor.go:ToCoreColor"]}
{"id": "C48", "title": "Unmarshal rejects trailing data", "statement": "Unmarshal returns a syntax error whenever anything but whitespace follows the first value.", "quantifier": "every byte string", "why_tests_cant": "all inputs", "anchors": ["json.go:Unmarshal"]}
{"id": "C49", "title": "Number is emitted only if it is a JSON number", "statement": "Encoding a json.Number succeeds only when its text is a JSON number (or empty, giving 0), and emits that text.", "quantifier": "every string", "why_tests_cant": "all strings", "anchors": ["encode.go:encodeNumber", "parse.go:parseNumber"]}
{"id": "C50", "title": "Float exponent clean-up keeps the number", "statement": "The e-09 to e-9 rewrite yields a valid JSON number denoting the same value, and NaN and infinities are errors.", "quantifier": "every float rendering", "why_tests_cant": "all renderings", "anchors": ["encode.go:encodeFloat"]}
{"id": "C51", "title": "Whitespace does not matter when decoding", "statement": "Two documents that differ only in insignificant whitespace unmarshal to equal results.", "quantifier": "every pair of such documents", "why_tests_cant": "all layouts", "anchors": ["json.go:Unmarshal", "parse.go:skipSpaces"]}
{"id": "C52", "title": "HTML escaping of raw strings keeps their meaning", "statement": "Under EscapeHTML a string token copied from a RawMessage still decodes to the same string and contains no '<', '>', '&' or U+2028/2029.", "quantifier": "every string token", "why_tests_cant": "all tokens", "anchors": ["encode.go:appendCompactEscapeHTML"]}
{"id": "C53", "title": "UseNumber keeps number text", "statement": "With UseNumber every number of the document is stored with exactly its source spelling, so decoding then encoding reproduces it.", "quantifier": "every document", "why_tests_cant": "all numbers", "anchors": ["decode.go:decodeInterface", "decode.go:decodeNumber"]}
{"id": "C54", "title": "null handling when decoding", "statement": "Decoding null sets pointers, maps, slices and interfaces to nil and leaves every other destination unchanged without error.", "quantifier": "every destination type and prior value", "why_tests_cant": "all types", "anchors": ["decode.go"]}
{"id": "C55", "title": "Unquote agrees with Unmarshal", "statement": "For a string token of the Tokenizer, Unquote returns what Unmarshal would store for it, AppendUnquote(b) appends exactly those bytes to b, and neither panics.", "quantifier": "every string token and prefix", "why_tests_cant": "all tokens", "anchors": ["token.go:RawValue.Unquote", "token.go:RawValue.AppendUnquote"]}
{"id": "C56", "title": "Nesting level bookkeeping is balanced", "statement": "Every encoding call leaves the Indenter at the nesting level it found it at.", "quantifier": "every value, every outcome including errors", "why_tests_cant": "all error points inside nested values", "anchors": ["encode.go:Indenter.push", "encode.go:Indenter.pop"]}
{"id": "C57", "title": "Valid JSON is never a syntax error", "statement": "Unmarshal of a valid JSON text returns a syntax error only if a user-defined type reports one; values that do not fit the destination get another error.", "quantifier": "every JSON text and destination", "why_tests_cant": "all types, all prior values", "anchors": ["json.go:Unmarshal", "decode.go", "codec.go:inputError"]}
{"id": "C58", "title": "The encoder reads the value that an interface holds", "statement": "Append, and the encoding of map entries, pass to the codec of a type the address of exactly the value that the interface or map entry holds, whether Go stores that value in the data word of the interface or behind it.", "quantifier": "every type and value, every memory", "why_tests_cant": "pointer-shaped types, structs and arrays of one such field, map keys", "anchors": ["json.go:Append", "codec.go:inlined", "codec.go:constructInlineValueEncodeFunc", "encode.go:encodeMap"]}
{"id": "C59", "title": "Methods are chosen as encoding/json chooses them", "statement": "For every type, and every struct type its values can contain, the encoding and decoding functions (by kind, Marshaler, TextMarshaler, Unmarshaler or TextUnmarshaler of the value or of its address) are those that encoding/json uses for it at that place.", "quantifier": "every set of mutually recursive type declarations", "why_tests_cant": "method sets with value and pointer receivers, addressable and other values, map keys, the string option", "anchors": ["codec.go:constructCodec", "codec.go:constructSliceCodec", "codec.go:constructMapCodec", "codec.go:constructStructType", "codec.go:stringify", "codec.go:constructPointerCodec"]}
{"id": "C60", "title": "Text that is not JSON leaves the destination alone", "statement": "Unmarshal of a text that is not valid JSON returns an error and the destination is as it was before, as encoding/json guarantees by checking the whole text first.", "quantifier": "every invalid text, destination and prior contents", "why_tests_cant": "truncated documents, trailing data, nil pointers, interfaces that hold a value", "anchors": ["json.go:Unmarshal", "decode.go", "codec.go:inputError"]}
{"id": "C61", "title": "Unmarshal changes only what the text names", "statement": "Whether Unmarshal succeeds or fails, struct fields whose names do not occur in the text (up to case) and map entries whose keys do not occur keep their contents, at any depth reached through fields, pointers and array elements; pointers and maps become nil only through a null.", "quantifier": "every text, valid or not, every destination and prior contents", "why_tests_cant": "repeated members, null followed by an object, errors in the middle", "anchors": ["json.go:Unmarshal", "decode.go:decodeStruct", "decode.go:decodeMap", "decode.go:decodeMapStringInterface", "decode.go:decodeMapStringRawMessage", "decode.go:decodeArray", "decode.go:decodePointer"]}
{"id": "C62", "title": "Values that do not fit are skipped", "statement": "When a value in a valid document does not fit its destination, Unmarshal skips it and stores the others as best it can (documentation of encoding/json), and reports the first such error.", "quantifier": "every valid document, struct or slice type", "why_tests_cant": "a mismatch before, between and behind members that fit", "anchors": ["decode.go:decodeStruct", "decode.go:decodeSlice", "json.go:Unmarshal"]}
{"id": "C63", "title": "MarshalIndent and Encoder agree", "statement": "MarshalIndent(x, prefix, indent) returns exactly what an Encoder after SetIndent(prefix, indent) writes for x, without the final line feed, and returns an error exactly when the Encoder does, the same one.", "quantifier": "every value, prefix and indent", "why_tests_cant": "two independent implementations of the layout: the Indenter, and encoding/json.Indent over the output of Marshal", "anchors": ["json.go:MarshalIndent", "json.go:Marshal", "json.go:Encode", "json.go:SetIndent", "encode.go:appendIndent"]}
{"id": "C64", "title": "Trusted messages that are not JSON are written verbatim", "statement": "With TrustRawMessage, a RawMessage (or the output of MarshalJSON) that is not JSON is written byte for byte, uncolored, or with HTML characters escaped if EscapeHTML is set, and nothing else changes.", "quantifier": "every byte string, colors and layout", "why_tests_cant": "malformed messages that the Tokenizer reads without an error", "anchors": ["encode.go:encodeRawMessage", "encode.go:appendRawMessageVerbatim", "encode.go:appendRawMessageTokens"]}
{"id": "C65", "title": "The Field of a type error leads to the value that does not fit", "statement": "When Unmarshal of a JSON text fails with an *UnmarshalTypeError, its Field is the dotted path (indices of elements, keys of members) from the destination to a value of the text that does not fit the type it should go to.", "quantifier": "every type, text and destination", "why_tests_cant": "trailing dots, keys in other case, integer keys, interfaces that hold pointers, errors that lose their path", "anchors": ["decode.go:decodeArray", "decode.go:decodeSlice", "decode.go:decodeMap", "decode.go:decodeMapStringInterface", "decode.go:decodeMapStringRawMessage", "decode.go:decodeStruct", "decode.go:decodeInterface"]}
{"id": "C66", "title": "Embedded structs decode like a flat struct", "statement": "Unmarshal into a struct with embedded structs and embedded pointers to structs does to the promoted fields what it would do to the fields of a flat struct, with the same error; a field behind a nil pointer counts as zero; a nil embedded pointer is set, to a zero value, exactly when a member goes to a field behind it, and never if its type is unexported (then there is an error); nothing else in memory changes.", "quantifier": "every struct type without recursive embedding, every text, every prior contents", "why_tests_cant": "offsets in nested embedded structs, several pointers on the way, null members, hidden and ambiguous fields, fields that are left out", "anchors": ["codec.go:appendStructFields", "codec.go:constructEmbeddedStructPointerCodec", "decode.go:decodeEmbeddedStructPointer", "decode.go:decodeStruct"]}
{"id": "C67", "title": "What has been decoded stays as it is", "statement": "Without DontCopyString, DontCopyNumber and DontCopyRawMessage, values share no memory with the input or the buffer of the Decoder: overwriting the input of Unmarshal, later calls of Decode, and writing or appending to a decoded RawMessage change neither earlier values nor what comes next. Kinds of texts whose flag is not set keep this with the other flags set. With any flags, Decode stores the right value, and it reads the same until a call turns to the reader.", "quantifier": "all types without pointers found in interfaces, all readers, all histories of Decode into fresh or reused variables, all flags", "why_tests_cant": "Decode hands out slices of a buffer that the next call overwrites; one missing copy makes results change behind the back of the program.", "anchors": ["decode.go", "json.go"]}
{"id": "C68", "title": "Marshal returns for every value", "statement": "Encoding a value returns, with a result or with an error, also when the value refers to itself through pointers, slices, maps or interfaces; what is shared inside a value is written at each place, as if it were not shared.", "quantifier": "every value and every memory its references point to, all settings", "why_tests_cant": "cycles through structs, slices and maps, fields that are left out, errors inside a cycle", "anchors": ["encode.go:encodePointer", "encode.go:encodeSlice", "encode.go:encodeArray", "encode.go:encodeMap", "encode.go:encodeMapStringInterface", "encode.go:encodeStruct", "encode.go:encodeInterface"]}
{"id": "C69", "title": "Every type can be encoded and decoded, also one that refers to itself", "statement": "Marshal and Unmarshal find the encoding and decoding functions of every Go type, including types whose declaration refers to itself through structs, pointers, slices, maps or arrays; the functions do not depend on how deep the stack is.", "quantifier": "every set of type declarations", "why_tests_cant": "types that contain themselves through slices, maps or pointers only, such as type S []S; methods on such types", "anchors": ["codec.go:constructCodec", "codec.go:constructSliceCodec", "codec.go:constructMapCodec", "codec.go:constructPointerCodec", "codec.go:constructArrayCodec", "codec.go:constructStructType"]}
{"id": "C70", "title": "Decoding, encoding and decoding again is decoding", "statement": "What Unmarshal stores in a fresh variable of a type is written by Marshal without an error, and comes back unchanged (up to the memory beyond the length of slices) when that text is unmarshalled into another fresh variable; encoding that variable gives the same text again.", "quantifier": "every type made of scalars, byte slices, times, durations, interfaces, slices, arrays, maps, pointers and structs, with or without the string option; every text", "why_tests_cant": "repeated members and keys, reused memory of slices, missing members, strings that are not UTF-8, integer keys, quoted numbers with leading zeroes", "anchors": ["decode.go", "encode.go", "codec.go:constructCodec"]}
{"id": "C71", "title": "A text cannot end the program that parses it", "statement": "Valid returns for every text: however deeply a text nests, the parser either reports a result or an error, and does not run out of stack.", "quantifier": "every text and every size of the stack", "why_tests_cant": "recursion on untrusted input, texts of opening brackets only, documents with more levels than the stack has room", "anchors": ["parse.go:parseValue", "parse.go:parseObject", "parse.go:parseArray", "json.go:Valid"]}
{"id": "C72", "title": "Decoding a slice stays within its memory", "statement": "decodeSlice reads and writes no memory outside of the array of its slice or of arrays it made itself, leaves the rest of that array and all other arrays alone, stores the elements that decoding into a list would give, and allocates memory in proportion to the text and only when the slice has no room; elements are aligned and do not overlap.", "quantifier": "every heap of arrays, every slice header that lies within its array, every text, every decoder of elements, every size and alignment", "why_tests_cant": "unsafe address arithmetic, slices that share an array or begin in the middle of it, nil and empty slices, growth, failed decoding", "anchors": ["decode.go:decodeSlice", "reflect.go:extendSlice", "reflect_optimize.go:extendSlice", "codec.go:alignedSize", "codec.go:align"]}
{"id": "C73", "title": "Fields are found where they lie", "statement": "Whatever memory is used for a field of a struct, direct or promoted through embedded structs and pointers, in encoding, decoding or testing for omitempty, is used as the type that is there and lies within the struct; different fields share no memory.", "quantifier": "every struct type, given by the kinds, sizes and alignments of its fields and by the structs it embeds to any depth", "why_tests_cant": "unsafe offset arithmetic, offsets added through embedded structs, embedded pointers, alignment, omitempty behind pointers", "anchors": ["codec.go:appendStructFields", "codec.go:emptyFuncOf", "encode.go:encodeStruct", "encode.go:encodeEmbeddedStructPointer", "decode.go:decodeStruct", "decode.go:decodeEmbeddedStructPointer"]}
{"id": "C74", "title": "Encoding structs with embedded structs and pointers", "statement": "For a struct with embedded structs and embedded pointers, at any depth, the encoder writes the promoted fields with the values that are found by following their paths, as a flat struct would be written; fields behind nil pointers are left out; what was written comes back when it is decoded into a fresh struct.", "quantifier": "every struct type made of fields, embedded structs and embedded pointers, every value of it, every configuration of the encoder", "why_tests_cant": "offsets added or kept in codecs, rollback of a key that was already written, commas written before it is known whether there is a member", "anchors": ["encode.go:encodeStruct", "encode.go:encodeEmbeddedStructPointer", "codec.go:constructEmbeddedStructPointerCodec", "codec.go:appendStructFields"]}
{"id": "C75", "title": "The parser takes linear time", "statement": "Parsing a JSON value takes a number of steps proportional to the length of the value, whatever follows it; testing any bytes with Valid takes a number of steps proportional to their number, whether they are JSON or not.", "quantifier": "every sequence of bytes; steps are bytes looked at plus calls and loop rounds", "why_tests_cant": "a string is scanned up to three times, and quadratic scanning shows only on inputs of a shape nobody benchmarks", "anchors": ["parse.go:parseValue", "parse.go:parseString", "parse.go:parseStringFast", "parse.go:parseNumber", "json.go:Valid"]}
{"id": "C76", "title": "The work of decoding into interface{}", "statement": "Unmarshal into an empty interface takes a number of steps proportional to the length of the text.", "quantifier": "every sequence of bytes, every configuration of the decoder; steps are bytes looked at plus calls and loop rounds", "why_tests_cant": "the work grows with the nesting, which only adversarial inputs make large", "anchors": ["decode.go:decodeInterface", "decode.go:decodeMapStringInterface", "decode.go:decodeSlice", "json.go:Unmarshal"]}
{"id": "C77", "title": "The work of reading a stream", "statement": "A call of Decoder.Decode finds its value in a number of steps proportional to the bytes it passes over, and reading a whole stream takes a number of steps proportional to its length plus the number of values, no matter how the data is divided.", "quantifier": "every reader, every stream, every number of calls; steps are bytes looked at or moved plus calls and loop rounds", "why_tests_cant": "a value that spans buffers is parsed again after each read, the buffer is moved and doubled; only large values show how often", "anchors": ["json.go:readValue", "json.go:Decode", "parse.go:parseValue"]}
{"id": "C78", "title": "The text written says what the value holds", "statement": "Without colors, encoding succeeds exactly for values that some JSON document represents, and the text written is such a document: strings and keys mean the Go strings, numbers have their value, maps have exactly their entries in the required order, structs their fields except empty omitempty ones.", "quantifier": "every value, configuration without colors, indentation of white space, buffer and nesting depth", "why_tests_cant": "validity of the output says nothing about its content; each encoder function could write valid JSON for another value", "anchors": ["encode.go", "json.go:Marshal"]}
{"id": "C79", "title": "Promoted fields are encoded and decoded by the functions of their types", "statement": "Every member of every struct that values of a type can contain, promoted or not, stands for the field at the end of its path through embedded structs, goes through the embedded pointers on that path, and has the encoding and decoding function that encoding/json gives to this field: a promoted field is addressable if the struct is, or by a pointer on the way.", "quantifier": "all types, structs (recursive ones included), embeddings, tags, method sets", "why_tests_cant": "methods with pointer receivers are called only for addressable values; a wrong codec for a promoted field changes the output silently", "anchors": ["codec.go:constructStructType", "codec.go:appendStructFields", "codec.go:constructEmbeddedStructPointerCodec"]}
{"id": "C80", "title": "Decoding into recursive types", "statement": "A struct type that occurs in itself, behind pointers, slices or maps, has one decoding function that refers to itself; it returns for every text, behaves as for the finite type written out as deep as the text is nested, and variables of recursive types survive marshalling and unmarshalling.", "quantifier": "all families of mutually recursive struct types that Go allows, texts, destinations", "why_tests_cant": "the codec of a recursive type is a cyclic graph of closures: a wrong reference or an unbounded recursion would hang or corrupt lists and trees", "anchors": ["codec.go:constructStructType", "codec.go:constructStructDecodeFunc", "decode.go:decodeStruct"]}
{"id": "C81", "title": "Decoding objects into maps", "statement": "Unmarshal of an object into a map succeeds exactly if every member has a key of the key type (a string, an integer of the type's range, a text that UnmarshalText takes) and a value of the element type; then each such key has the value of its last member, decoded afresh, and all other keys are as before; a key that UnmarshalText rejects is reported with its error.", "quantifier": "all key types, element types, objects, texts, maps", "why_tests_cant": "maps with typed keys are the one place where the text of a key is interpreted; a stale key or element variable, a lost entry or a wrong error is silent data corruption", "anchors": ["decode.go:decodeMap", "decode.go:decodeTextUnmarshaler", "decode.go:objectKeyError", "codec.go:constructMapCodec"]}
{"id": "C82", "title": "Unmarshal into a variable of a declared type", "statement": "For every declared type (methods, kinds, string options, recursive structs), Unmarshal reads a document into a variable of the type as the type's methods, kind and field options say: the function that constructCodec builds, when run, equals decoding into that reading of the type; it returns for every document, and what Marshal writes comes back.", "quantifier": "all type environments, types, method answers, documents, destinations", "why_tests_cant": "the choice of function and the behaviour of functions are proved separately elsewhere; a closure that is run with the wrong type, element function, zero value or pointer flag would be seen by neither", "anchors": ["codec.go:constructCodec", "codec.go:constructArrayDecodeFunc", "codec.go:constructSliceDecodeFunc", "codec.go:constructMapDecodeFunc", "codec.go:constructStructDecodeFunc", "codec.go:constructPointerDecodeFunc", "json.go:Unmarshal"]}
{"id": "C83", "title": "Marshal of a variable of a declared type", "statement": "For every declared type (methods, kinds, omitempty and string options, recursive structs), Append writes a variable of the type as the type's methods, kind, field options and addressability say; for types without methods Unmarshal of what was written gives the variable back, so different variables are written differently.", "quantifier": "all type environments, types, method answers, contents of variables, configurations", "why_tests_cant": "the choice of the encoding function is proved separately from what encoding functions do; a closure run with the wrong element type, key function, receiver or field function would be seen by neither", "anchors": ["codec.go:constructCodec", "codec.go:constructArrayEncodeFunc", "codec.go:constructSliceEncodeFunc", "codec.go:constructMapEncodeFunc", "codec.go:constructStructEncodeFunc", "codec.go:constructPointerEncodeFunc", "codec.go:emptyFuncOf", "json.go:Append"]}
{"id": "C84", "title": "Work of decoding into variables of any type", "statement": "Decoding a text into a variable takes a number of steps that is at most linear in the length of the text: for texts that can be decoded with a factor that only depends on the pointers in a row and the nested string options of the type, for all other texts with a factor that depends on the depth of the type.", "quantifier": "all types without interfaces, all texts, all destinations, all configurations", "why_tests_cant": "decoders that look again at text they have seen (elements of the wrong type, strings that hold numbers, keys) may turn a small text into a lot of work; C76 only covered interface{}", "anchors": ["decode.go", "parse.go:parseValue", "parse.go:parseStringUnquote", "json.go:Unmarshal", "json.go:Parse"]}
{"id": "C85", "title": "Unmarshal into declared types with embedded structs", "statement": "Unmarshal into a variable of a declared type stores every member in the field that Go's rule for embedded structs names, decoded as the type of that field is to be read; nil embedded pointers on the way are set unless their type is unexported, and nothing else changes. So a variable takes from any text what a flat struct with the promoted fields would take.", "quantifier": "all declared types that refer to each other in any way, all tags, all inputs, all variables, all configurations", "why_tests_cant": "joins the choice of fields (C40), of codecs (C79), the running of codecs (C82) and the way through embedded pointers (C66), which were separate, for types that refer to each other in any way", "anchors": ["codec.go:constructStructType", "codec.go:appendStructFields", "codec.go:constructEmbeddedStructPointerCodec", "decode.go:decodeStruct", "decode.go:decodeEmbeddedStructPointer", "json.go:Unmarshal"]}
{"id": "C86", "title": "Marshal of declared types with embedded structs", "statement": "Marshal of a variable of a declared type writes for every struct within it the members that Go's rule for embedded structs gives, in order of declaration, each as the type, the options, the methods and the addressability of its field say; fields behind nil embedded pointers are left out without a trace, and omitempty looks at the field itself.", "quantifier": "all declared types that refer to each other in any way, all tags, all variables, all configurations, all buffers", "why_tests_cant": "joins the choice of fields (C40), of codecs (C79), the running of codecs (C83) and nil embedded pointers (C73, C74), which were separate, for types that refer to each other in any way", "anchors": ["codec.go:constructStructType", "codec.go:appendStructFields", "codec.go:constructEmbeddedStructPointerCodec", "encode.go:encodeStruct", "encode.go:encodeEmbeddedStructPointer", "json.go:Append"]}
{"id": "C87", "title": "Embedding is transparent; declared types with embedded structs come back", "statement": "Unmarshal into and Marshal of a variable of a declared type with embedded structs do what they do with a variable of the type that has the promoted fields as its own: the same errors, the same text, and the same contents of the fields. What Marshal writes, Unmarshal reads into a zero variable so that all members hold what they held.", "quantifier": "all declared types that refer to each other in any way, all variables, all texts, all layouts", "why_tests_cant": "embedding is a way of writing a struct, and a round trip is what users of Marshal and Unmarshal expect; C82 and C83 have it for types without embedding", "anchors": ["codec.go:constructStructType", "codec.go:appendStructFields", "decode.go:decodeStruct", "decode.go:decodeEmbeddedStructPointer", "encode.go:encodeStruct", "encode.go:encodeEmbeddedStructPointer", "json.go:Append", "json.go:Unmarshal"]}
{"id": "C88", "title": "Work of decoding any text is at most quadratic", "statement": "Decoding any text, with or without errors, into a variable of any type of a program, recursive or with interfaces or both, takes a number of steps that is at most a constant times the square of the length of the text. The constant depends on the pointers in a row, the nested string options and how deep pointers in interfaces go, but not on how deep the types are, the text or the destination. For recursive types the square is met.", "quantifier": "all types that refer to each other in any way, all texts, all destinations whose interfaces hold pointers to types within the bound, all configurations", "why_tests_cant": "C84 showed that a number of steps for each byte is not enough for recursive types and interfaces; this shows how bad it gets, so that nesting types and text cannot make it cubic or exponential", "anchors": ["decode.go", "parse.go:parseValue", "json.go:Unmarshal", "json.go:Parse"]}
{"id": "C89", "title": "Encoder to Decoder", "statement": "What an Encoder without colors writes, call after call, is a stream of JSON values each followed by a newline, whatever calls fail in between and whatever is set in between (as long as prefix and indent are whitespace). A Decoder that reads it returns the texts of the successful calls one by one, without their newlines, and then io.EOF. Values of supported types sent in this way come back equal, one by one, in zero variables of their types.", "quantifier": "all sequences of Encode calls and settings, all clean values, all supported types, any number of further calls at the end", "why_tests_cant": "Encoder and Decoder are the streaming interface; programs connect one to the other through pipes, files and sockets and rely on the boundaries between values being kept", "anchors": ["json.go:Encoder", "json.go:Encode", "json.go:Decoder", "json.go:readValue", "json.go:Decode", "encode.go"]}
{"id": "C90", "title": "Decoder: data in pieces, and when a call returns", "statement": "However the data of a reader is cut into pieces, and whether its error comes with the last piece or on its own, a Decoder returns the same values. A value that has been received completely is returned, also if the connection stays open; a value in the buffer is returned without a call of Read. On a reader that ends every call returns.", "quantifier": "all readers: any data in any pieces (also empty ones) with any error behind them, and connections on which nothing more comes; any number of calls", "why_tests_cant": "sockets and pipes deliver data in arbitrary pieces and stay open; a Decoder that waits for more than it needs stops a dialogue between two programs", "anchors": ["json.go:readValue", "json.go:NewDecoder", "json.go:Decode"]}
{"id": "C91", "title": "Work of the Tokenizer", "statement": "The work of the Tokenizer is linear in the length of the text, whether or not it is JSON. A token costs a number of steps proportional to its own length and that of the spaces before it, not to what follows. Further calls of Next, behind the end or behind an error, cost a constant each.", "quantifier": "all byte strings, all states of the Tokenizer, any number of calls", "why_tests_cant": "the Tokenizer is offered for highly efficient parsing on the fly, of input that may come from an adversary", "anchors": ["token.go:Next", "token.go:Tokenizer", "parse.go:parseString", "parse.go:parseNumber"]}
{"id": "C92", "title": "Tokenizers in memory and their copies", "statement": "A Tokenizer works alike whether its stack is in its own buffer or on the heap. Tokenizers do not disturb each other, in whatever order they are called. A Tokenizer copied by assignment can be used beside the original, and one that is saved by assignment, called and assigned again is where it was.", "quantifier": "all texts, any number of Tokenizers, any order of calls, any growth of slices, copies after any number of calls", "why_tests_cant": "Tokenizer is a struct with exported fields, which Go programs copy to look ahead; its stack is a slice into a buffer inside the struct itself", "anchors": ["token.go:Tokenizer", "token.go:push", "token.go:pop", "token.go:Next", "token.go:Reset"]}
{"id": "C93", "title": "Size of the text that is written", "statement": "What is written for a value takes at most a fixed number of bytes for each unit of the size of the value (a value, element, member, or byte of a string, name, number or time): six without colors and indentation, and more for each by the longest color and by the length of a line. This holds also when a call fails or when a RawMessage is not JSON.", "quantifier": "all values, all options, palettes, prefixes and indents, any buffer and nesting level before, with or without an error", "why_tests_cant": "the buffers of Marshal and Encode are as large as the text; a value from outside must not blow them up", "anchors": ["encode.go:doEncodeString", "encode.go:encodeArray", "encode.go:encodeMap", "encode.go:encodeStruct", "encode.go:encodeRawMessage", "encode.go:appendCompactEscapeHTML", "json.go:Marshal", "json.go:Encode"]}
{"id": "C94", "title": "Floats are written as ECMAScript writes them", "statement": "A finite float is written as Number::toString of ECMAScript asks for, with the sign of a negative zero kept: the digits of its shortest decimal, with an exponent exactly if it is not zero and below 1e-6 or not below 1e21, and the exponent without leading zeros. The text is worth the float, different floats have different texts, a float64 takes at most 25 bytes, and omitempty leaves out exactly the zeros.", "quantifier": "all finite floats (sign, digits and position of the point of the shortest decimal), all options and palettes", "why_tests_cant": "the comment at encode.go:104 promises it; a wrong cutoff or cleanup of the exponent yields a different number", "anchors": ["encode.go:encodeFloat", "encode.go:encodeFloat32", "encode.go:encodeFloat64"]}
{"id": "C95", "title": "The work of encoding", "statement": "Encoding a value takes at most a fixed number of steps for each byte that the bound on the size of the text (C93) allows: it is linear in the size of the value without indentation, sixty steps a unit for Marshal. Apart from that each pointer or interface that is followed takes a step, and maps take what the sort library takes for their keys. What the buffer holds before does not count.", "quantifier": "all values, all options, palettes, prefixes and indents, any buffer and nesting level before, any cost of the sort library, with or without an error or a panic", "why_tests_cant": "encoding must not become slow on large values, deep values, long strings or raw messages, nor by appending to a long buffer", "anchors": ["encode.go:doEncodeString", "encode.go:encodeToString", "encode.go:encodeArray", "encode.go:encodeMap", "encode.go:encodeMapStringInterface", "encode.go:encodeMapStringRawMessage", "encode.go:encodeStruct", "encode.go:encodeRawMessage", "encode.go:appendRawMessageTokens", "encode.go:appendCompactEscapeHTML", "json.go:Append", "json.go:Marshal"]}
{"id": "C96", "title": "Size of what is decoded", "statement": "What a text makes a destination take, with or without an error, is at most a fixed number for each byte of the text: none for numbers and times, three for an interface{} or a string, and for a slice, array, map or pointer what its elements take and the size of a new element more. What was in the destination before counts once.", "quantifier": "all destination types and contents, all texts, all options, pointers in interfaces nested to any depth, with or without an error", "why_tests_cant": "a short text from outside must not make the decoder fill memory without bound", "anchors": ["decode.go:decodeInterface", "decode.go:decodeSlice", "decode.go:decodeArray", "decode.go:decodeMap", "decode.go:decodeStruct", "decode.go:decodePointer", "decode.go:decodeFromString", "decode.go:decodeFromStringToInt", "decode.go:decodeBytes", "parse.go:parseStringUnquote", "json.go:Unmarshal"]}
{"id": "C97", "title": "What a syntax error says and where it points", "statement": "The error of a text that is not JSON quotes the text from the place where it goes wrong: what stands before can be continued to a JSON text, and either the whole text only ends too early, or the first byte quoted may not stand there, or a wrong token begins there. At most 32 bytes are quoted and the message has at most 124 bytes. The Offset of the error is the number of bytes before that place.", "quantifier": "all texts, arrays and objects nested to any depth", "why_tests_cant": "whoever reads the message looks for the fault where it points, and a log must not fill with the text that is wrong", "anchors": ["codec.go:syntaxError", "codec.go:unexpectedEOF", "codec.go:prefix", "codec.go:inputError", "parse.go:parseValue", "parse.go:parseObject", "parse.go:parseArray", "parse.go:parseStringFast", "parse.go:parseUnicode", "parse.go:parseNumber", "parse.go:parseNull", "json.go:Unmarshal"]}
{"id": "C98", "title": "What a type error says about a plain value", "statement": "If a value does not fit a destination of a plain type (booleans, integers, floats, numbers, strings, durations, times), the Value of the *UnmarshalTypeError shows that value and nothing else, cut after 32 bytes; it speaks of an overflow exactly if the value is an integer out of range; and Type is the type of the destination.", "quantifier": "all plain types, all values of JSON, anything behind the value", "why_tests_cant": "the text behind the value shows up in the message only if there is any, and the words depend on digits, sign, fraction and the width of the type", "anchors": ["codec.go:unmarshalTypeError", "codec.go:unmarshalOverflow", "codec.go:inputError", "codec.go:prefix", "parse.go:parseInt", "parse.go:parseUint", "decode.go:decodeInt8", "decode.go:decodeUint8", "decode.go:decodeBool", "decode.go:decodeFloat64", "decode.go:decodeNumber", "decode.go:decodeString", "decode.go:decodeDuration", "decode.go:decodeTime"]}
{"id": "C99", "title": "Maps with time.Duration keys", "statement": "A map with keys of type time.Duration is read exactly like a map with keys of type int64, as the type's kind says and encoding/json does it, and what is written for it comes back.", "quantifier": "all texts, element types and destinations", "why_tests_cant": "the keys are handled by the codec of durations, which takes more than integers, wrapped into the reading of a string", "anchors": ["codec.go:constructMapCodec", "codec.go:constructStringCodec", "decode.go:decodeFromString", "decode.go:decodeDuration", "decode.go:decodeMap", "encode.go:encodeDuration"]}

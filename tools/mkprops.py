import json
P=[]
def p(id,title,statement,quant,why,anchors):
    P.append(dict(id=id,title=title,statement=statement,quantifier=quant,why_tests_cant=why,anchors=anchors))

p("C01","Valid accepts exactly JSON",
 "Valid(data) returns true if and only if data is optional whitespace, one JSON value of the RFC 8259 grammar, optional whitespace (string bytes may be any byte >= 0x20 other than quote and backslash, as in encoding/json).",
 "every byte string data, of every length and nesting depth","the set of inputs is infinite; a validator can be wrong on one untested nesting, escape or number shape",
 ["json.go:Valid","parse.go:parseValue","parse.go:parseObject","parse.go:parseArray","parse.go:parseNumber","parse.go:parseStringFast"])
p("C02","Parsing splits the input exactly",
 "When the parser accepts a value it has consumed exactly the bytes of one JSON value: the consumed bytes followed by the returned remainder are the original input, and parsing the consumed bytes followed by any other admissible continuation consumes the same bytes.",
 "every byte string and every continuation","quantifies over all inputs and all continuations",
 ["json.go:Parse","parse.go:parseValue"])
p("C03","Parsing always terminates and never indexes out of range",
 "Valid, Unquote of a parsed string and Unmarshal into interface{} return for every input: no input makes the scanner loop forever or index outside a slice.",
 "every byte string","termination and absence of panics are claims about all inputs",
 ["parse.go:parseValue","parse.go:parseStringUnquote","json.go:Valid","decode.go:decodeInterface"])
p("C04","String literals decode to their meaning",
 "Decoding a JSON string literal yields the UTF-8 of its characters: simple escapes, \\uXXXX in either case, surrogate pairs combined, lone surrogates and malformed UTF-8 replaced by U+FFFD; whether the fast or the slow scanner ran is not observable.",
 "every string literal","infinitely many mixes of escapes, surrogates and raw bytes",
 ["parse.go:parseStringFast","parse.go:parseStringUnquote","parse.go:parseUnicode","token.go:RawValue.Unquote"])
p("C05","String encode/decode round trip",
 "Encoding any Go string and decoding the result gives back the string with malformed UTF-8 replaced by U+FFFD, hence the same string when it is valid UTF-8, with EscapeHTML on or off.",
 "every byte string, both flag settings","a round trip over all strings cannot be enumerated",
 ["encode.go:doEncodeString","parse.go:parseStringUnquote","decode.go:decodeString"])
p("C06","Encoded strings are safe to embed",
 "The encoding of any string is a JSON string literal with no control byte, no raw ESC, no U+2028/U+2029, and, under EscapeHTML, no '<', '>' or '&'.",
 "every byte string","one unescaped byte in one context is an injection hole",
 ["encode.go:doEncodeString","codec.go:encodeString"])
p("C07","Word-at-a-time ASCII scanning equals byte-at-a-time",
 "The 8/4/3/2/1-byte-block ASCII checks accept a slice exactly when every byte is ASCII (printable ASCII), whatever its length and wherever the offending byte is.",
 "every byte slice of every length","bit tricks with carries and borrows must be right for all 2^64 words and every tail length",
 ["ascii.go:asciiValid","ascii.go:asciiValidPrint","ascii.go:hasLess64","ascii.go:hasMore64"])
p("C08","Integer literals decode exactly or fail",
 "Decoding an integer literal into int64/uint64 stores exactly its mathematical value when it fits and returns an error when it does not; it never wraps, and fractions or exponents are errors.",
 "every byte string","boundaries around MinInt64, MaxInt64, MaxUint64 and every digit count",
 ["parse.go:parseInt","parse.go:parseUint","decode.go:decodeInt64","decode.go:decodeUint64"])
p("C09","Integer round trip",
 "Encoding any int64 or uint64 and decoding the text gives back the same number.",
 "every 64-bit integer","2^64 values",
 ["jsoncolor.go:appendInt64","jsoncolor.go:appendUint64","parse.go:parseInt","parse.go:parseUint"])
p("C10","Narrow integers never truncate",
 "Decoding into int8/16/32 or uint8/16/32 stores the literal's value if it is in the type's range and otherwise returns an error and leaves the destination unchanged.",
 "every width, every input, every prior destination value","range checks at every width for all literals",
 ["decode.go:decodeInt8","decode.go:decodeInt16","decode.go:decodeInt32","decode.go:decodeUint8","decode.go:decodeUint16","decode.go:decodeUint32"])
p("C11","Tokenizer yields the document's tokens",
 "On a valid JSON document the Tokenizer yields exactly its tokens in order, their concatenation is the document without insignificant whitespace, and it ends with Err nil.",
 "every valid JSON document","all documents, all whitespace layouts",
 ["token.go:Tokenizer.Next","token.go:NewTokenizer"])
p("C12","Tokenizer position fields",
 "For each token of a valid document Depth is the number of enclosing containers, Index the element position within the innermost one, IsKey is true exactly for object keys, and Delim is non-zero exactly for delimiters.",
 "every token of every valid document","unbounded nesting and widths",
 ["token.go:Tokenizer.Next","token.go:Tokenizer.push","token.go:Tokenizer.pop","token.go:Tokenizer.index"])
p("C13","Tokenizer reports malformed input",
 "On malformed input the Tokenizer sets Err and returns false; it never panics and never stops silently before the end of the input.",
 "every byte string","needs every malformed input, not a sample",
 ["token.go:Tokenizer.Next","token.go:Tokenizer.pop"])
p("C14","Tokenizer errors are sticky and Reset clears everything",
 "Once Err is set every further Next returns false and changes nothing; after Reset(b) the Tokenizer behaves exactly like NewTokenizer(b).",
 "every reachable tokenizer state and every later call sequence","history quantifier",
 ["token.go:Tokenizer.Next","token.go:Tokenizer.Reset"])
p("C15","RawValue classification",
 "For each scalar token exactly one of String, Null, True, False, Number is true and it is the right one.",
 "every scalar token","all tokens",
 ["token.go:RawValue"])
p("C16","RawMessage keeps key order and tokens",
 "Encoding a RawMessage emits the same tokens in the same order as the source (keys never reordered, duplicates kept), changing only insignificant whitespace and, under EscapeHTML, the spelling of HTML-significant characters in strings.",
 "every valid RawMessage, every color and indent configuration","order over unbounded objects; previous versions were nondeterministic",
 ["encode.go:encodeRawMessage","encode.go:appendRawMessageTokens"])
p("C17","RawMessage renders like the equivalent native value",
 "The layout (newlines, indentation, commas, colon spacing, colors by token kind) of a RawMessage is that produced for the equivalent natively-encoded maps and slices, at any nesting level of the surrounding document.",
 "every valid RawMessage, every configuration, every starting depth","two separate code paths must agree on all trees",
 ["encode.go:appendRawMessageTokens","encode.go:appendRawMessageItemPrefix","encode.go:encodeMap","encode.go:encodeArray"])
p("C18","Bad RawMessages are rejected without output",
 "Without TrustRawMessage, encoding a RawMessage that is not one JSON value returns an error and appends nothing; what is accepted is emitted completely.",
 "every byte string as RawMessage","all malformed messages",
 ["encode.go:encodeRawMessage"])
p("C19","Color transparency",
 "Removing the ANSI color sequences from colorized output gives exactly the output produced without colors, for the same value, flags and indentation.",
 "every value, every Colors whose fields are ANSI SGR sequences or empty, every flag and indent setting","all values times all palettes",
 ["jsoncolor.go:Colors","encode.go","codec.go:constructStringEncodeFunc"])
p("C20","Colors are always reset",
 "Colorized output is a sequence of color-token-reset segments: no color is left active after any token, at line ends, or at the end of the output.",
 "every value and every Colors","one missing reset corrupts the terminal",
 ["jsoncolor.go:appendNull","jsoncolor.go:appendPunc","encode.go:encodeString","encode.go:encodeKey"])
p("C21","Each token gets its configured color",
 "Keys get Key, strings String, numbers Number, booleans Bool, null Null, byte slices Bytes, times Time, TextMarshalers TextMarshaler; brackets/braces/comma/colon get their own field or Punc when that is empty.",
 "every value and every Colors","token roles in unbounded trees",
 ["jsoncolor.go:puncColor","jsoncolor.go:appendPunc","encode.go:appendRawMessageScalar"])
p("C22","nil and zero Colors mean no colorization",
 "Encoding with nil Colors or with the zero value Colors{} produces output without any escape sequence.",
 "every value","README promise over all values",
 ["jsoncolor.go:Colors","README.md"])
p("C23","Indentation transparency",
 "Removing insignificant whitespace from indented output gives the compact output for the same value.",
 "every value, every whitespace prefix/indent","all trees and all indents",
 ["encode.go:Indenter","encode.go:encodeArray","encode.go:encodeMap","encode.go:encodeStruct"])
p("C24","Indented layout",
 "With a prefix and indent set, every array element and object member starts on its own line with the prefix and one indent per nesting level, closers of non-empty containers are on their own line at the parent's level, empty slices and maps stay on one line, and a colon is followed by one space.",
 "every value and every prefix/indent","unbounded depth",
 ["encode.go:Indenter.appendIndent","encode.go:encodeArray","encode.go:encodeMap"])
p("C25","Encoder output is valid JSON",
 "Whenever encoding without colors succeeds the output is a valid JSON text.",
 "every Go value and every flag/indent setting","all values",
 ["json.go:Append","json.go:Marshal","encode.go","encode.go:encodeNumber","encode.go:encodeStruct"])
p("C26","Append only appends",
 "Append(b, x, ...) returns b followed by bytes that do not depend on b; on error the bytes of b are still intact.",
 "every prefix b, every value, every configuration","all prefixes and values",
 ["json.go:Append","encode.go"])
p("C27","Sorted maps are deterministic",
 "With SortMapKeys the output does not depend on Go's map iteration order and keys appear in increasing byte order of their key text (the string, the decimal text of an integer, or the marshalled text).",
 "every map and every iteration order","iteration order is random at run time",
 ["encode.go:encodeMapStringInterface","encode.go:encodeMapStringRawMessage","encode.go:encodeMap","codec.go:intStringsAreSorted"])
p("C28","Encode writes all or nothing, once",
 "A successful Encode performs exactly one Write consisting of the encoding followed by a newline; a failing encoding performs no Write and returns the error.",
 "every value and every encoder state","all values, all histories",
 ["json.go:Encoder.Encode"])
p("C29","Encode does not depend on history",
 "What Encode writes for a value depends only on the value and the encoder's settings, not on what was encoded before, whether it succeeded or failed.",
 "every sequence of Encode calls","unbounded histories",
 ["json.go:Encoder.Encode","encode.go:Indenter"])
p("C30","Write errors are reported and sticky",
 "When the writer fails, that Encode call returns the error, and every later Encode returns it without writing.",
 "every history of values and writer outcomes","fault schedules",
 ["json.go:Encoder.Encode"])
p("C31","Streaming decode equals splitting the stream",
 "Decoding a stream that is a whitespace-separated sequence of JSON values yields exactly those values in order, wherever the internal buffer boundaries fall.",
 "every sequence of values, every stream length","buffer boundaries at 32768 bytes and later fall anywhere in a value",
 ["json.go:Decoder.readValue","json.go:Decoder.Decode"])
p("C32","InputOffset is the stream position",
 "After each Decode, InputOffset is the number of stream bytes up to the end of the value just returned or the start of the next token.",
 "every stream and every point in it","positions over unbounded streams",
 ["json.go:Decoder.InputOffset","json.go:Decoder.readValue","parse.go:skipSpacesN"])
p("C33","End of stream is reported precisely",
 "At a clean end Decode returns io.EOF, in the middle of a value io.ErrUnexpectedEOF, and a reader error is returned as is and is sticky.",
 "every stream truncation point and reader error","every crash point of the reader",
 ["json.go:Decoder.readValue"])
p("C34","No byte is lost or duplicated by buffering",
 "At any time the bytes returned or skipped so far, followed by Buffered(), followed by what the reader has not yet delivered, are the original stream.",
 "every stream and every history of Decode calls","buffer moves and growth over all histories",
 ["json.go:Decoder.readValue","json.go:Decoder.Buffered"])
p("C35","Unmarshal into interface{} means the document",
 "Unmarshal into an empty interface succeeds exactly when the input is valid JSON whose numbers are representable, and stores the document's tree: maps with the last of duplicate keys, slices in order, decoded strings, booleans, nil, numbers.",
 "every byte string","all documents",
 ["json.go:Unmarshal","decode.go:decodeInterface","decode.go:decodeMapStringInterface","decode.go:decodeSlice"])
p("C36","Unmarshal accepts only valid JSON",
 "If Unmarshal returns nil for any destination type then the input is valid JSON.",
 "every byte string and every destination type","all inputs times all types",
 ["json.go:Unmarshal","decode.go"])
p("C37","Generic round trip",
 "Marshalling a tree of interface{} values and unmarshalling it gives an equal tree (strings coerced to valid UTF-8), with or without indentation and HTML escaping.",
 "every finite tree","all trees",
 ["json.go:Marshal","json.go:Unmarshal"])
p("C38","Typed round trip",
 "Marshalling a value of a supported composite type (booleans, integers, strings, byte slices, slices, arrays, string maps, pointers, structs) and unmarshalling into a zero value of the same type gives the value back.",
 "every type built from those and every value of it","all types and values",
 ["encode.go","decode.go","codec.go"])
p("C39","Byte slices survive base64",
 "Encoding any []byte gives a base64 JSON string that decodes to the same bytes; nil becomes null.",
 "every byte slice","all lengths mod 3",
 ["encode.go:doEncodeBytes","decode.go:decodeBytes"])
p("C40","Struct field selection",
 "A struct's members are its non-ignored exported fields in declaration order with promoted fields of embedded structs in place; a direct field hides promoted fields of the same name; two promoted fields of the same name at the same depth annihilate unless exactly one is tagged.",
 "every struct type","all struct shapes",
 ["codec.go:appendStructFields","codec.go:ambiguousNameTagCount"])
p("C41","omitempty omits exactly empty fields",
 "A field with omitempty is left out exactly when its value is false, 0, a nil pointer or interface, or an empty array, slice, map or string; all other fields are present.",
 "every struct value","all values",
 ["encode.go:encodeStruct","codec.go:emptyFuncOf"])
p("C42","Field matching when decoding",
 "When decoding an object into a struct, a key that equals a field name selects that field; otherwise an ASCII case-insensitive match selects the first such field unless disabled; other keys are skipped, or rejected under DisallowUnknownFields.",
 "every key and every struct","all keys and field sets",
 ["decode.go:decodeStruct","codec.go:constructStructType","parse.go:appendToLower"])
p("C43","The codec cache is transparent under concurrency",
 "However concurrent first uses of types interleave, every Encode/Decode uses the codec that a fresh construction for its type would give.",
 "every interleaving of cache loads, constructions and stores by any number of goroutines","schedules",
 ["codec.go:cacheLoad","codec.go:cacheStore","codec.go:constructCachedCodec"])
p("C44","Pooled buffers do not leak between calls",
 "The slice returned by Marshal never changes afterwards and no call's output contains bytes of another call, whatever the interleaving of pool operations.",
 "every history of Marshal/Encode calls","aliasing over all histories",
 ["json.go:Marshal","json.go:encoderBufferPool"])
p("C45","IsColorTerminal precedence",
 "NO_COLOR wins over FORCE_COLOR, which wins over TERM=dumb, which wins over terminal detection; non-file writers are not color terminals unless forced.",
 "every environment and writer","all environments",
 ["terminal.go:IsColorTerminal"])
p("C46","jc does not colorize files",
 "The jc command never writes color sequences to an output file, and writes plain output to stdout when -c=false or stdout is not a color terminal.",
 "every flag combination and environment","documented 'never'",
 ["cmd/jc/main.go:doMain"])
p("C47","fatihcolor conversion",
 "ToCoreColors maps each fatih color to the escape prefix it would print and nil to no color; nil Colors to nil.",
 "every fatih Colors value","all colors",
 ["helper/fatihcolor/fatihcolor.go:ToCoreColors","helper/fatihcolor/fatihcolor.go:ToCoreColor"])
p("C48","Unmarshal rejects trailing data",
 "Unmarshal returns a syntax error whenever anything but whitespace follows the first value.",
 "every byte string","all inputs",
 ["json.go:Unmarshal"])
p("C49","Number is emitted only if it is a JSON number",
 "Encoding a json.Number succeeds only when its text is a JSON number (or empty, giving 0), and emits that text.",
 "every string","all strings",
 ["encode.go:encodeNumber","parse.go:parseNumber"])
p("C50","Float exponent clean-up keeps the number",
 "The e-09 to e-9 rewrite yields a valid JSON number denoting the same value, and NaN and infinities are errors.",
 "every float rendering","all renderings",
 ["encode.go:encodeFloat"])
p("C51","Whitespace does not matter when decoding",
 "Two documents that differ only in insignificant whitespace unmarshal to equal results.",
 "every pair of such documents","all layouts",
 ["json.go:Unmarshal","parse.go:skipSpaces"])
p("C52","HTML escaping of raw strings keeps their meaning",
 "Under EscapeHTML a string token copied from a RawMessage still decodes to the same string and contains no '<', '>', '&' or U+2028/2029.",
 "every string token","all tokens",
 ["encode.go:appendCompactEscapeHTML"])
p("C53","UseNumber keeps number text",
 "With UseNumber every number of the document is stored with exactly its source spelling, so decoding then encoding reproduces it.",
 "every document","all numbers",
 ["decode.go:decodeInterface","decode.go:decodeNumber"])
p("C54","null handling when decoding",
 "Decoding null sets pointers, maps, slices and interfaces to nil and leaves every other destination unchanged without error.",
 "every destination type and prior value","all types",
 ["decode.go"])
p("C55","Unquote agrees with Unmarshal",
 "For a string token of the Tokenizer, Unquote returns what Unmarshal would store for it, AppendUnquote(b) appends exactly those bytes to b, and neither panics.",
 "every string token and prefix","all tokens",
 ["token.go:RawValue.Unquote","token.go:RawValue.AppendUnquote"])
p("C56","Nesting level bookkeeping is balanced",
 "Every encoding call leaves the Indenter at the nesting level it found it at.",
 "every value, every outcome including errors","all error points inside nested values",
 ["encode.go:Indenter.push","encode.go:Indenter.pop"])
p("C57","Valid JSON is never a syntax error",
 "Unmarshal of a valid JSON text returns a syntax error only if a user-defined type reports one; values that do not fit the destination get another error.",
 "every JSON text and destination","all types, all prior values",
 ["json.go:Unmarshal","decode.go","codec.go:inputError"])
p("C58","The encoder reads the value that an interface holds",
 "Append, and the encoding of map entries, pass to the codec of a type the address of exactly the value that the interface or map entry holds, whether Go stores that value in the data word of the interface or behind it.",
 "every type and value, every memory","pointer-shaped types, structs and arrays of one such field, map keys",
 ["json.go:Append","codec.go:inlined","codec.go:constructInlineValueEncodeFunc","encode.go:encodeMap"])
p("C59","Methods are chosen as encoding/json chooses them",
 "For every type, and every struct type its values can contain, the encoding and decoding functions (by kind, Marshaler, TextMarshaler, Unmarshaler or TextUnmarshaler of the value or of its address) are those that encoding/json uses for it at that place.",
 "every set of mutually recursive type declarations","method sets with value and pointer receivers, addressable and other values, map keys, the string option",
 ["codec.go:constructCodec","codec.go:constructSliceCodec","codec.go:constructMapCodec","codec.go:constructStructType","codec.go:stringify","codec.go:constructPointerCodec"])
p("C60","Text that is not JSON leaves the destination alone",
 "Unmarshal of a text that is not valid JSON returns an error and the destination is as it was before, as encoding/json guarantees by checking the whole text first.",
 "every invalid text, destination and prior contents","truncated documents, trailing data, nil pointers, interfaces that hold a value",
 ["json.go:Unmarshal","decode.go","codec.go:inputError"])
p("C61","Unmarshal changes only what the text names",
 "Whether Unmarshal succeeds or fails, struct fields whose names do not occur in the text (up to case) and map entries whose keys do not occur keep their contents, at any depth reached through fields, pointers and array elements; pointers and maps become nil only through a null.",
 "every text, valid or not, every destination and prior contents","repeated members, null followed by an object, errors in the middle",
 ["json.go:Unmarshal","decode.go:decodeStruct","decode.go:decodeMap","decode.go:decodeMapStringInterface","decode.go:decodeMapStringRawMessage","decode.go:decodeArray","decode.go:decodePointer"])
p("C62","Values that do not fit are skipped",
 "When a value in a valid document does not fit its destination, Unmarshal skips it and stores the others as best it can (documentation of encoding/json), and reports the first such error.",
 "every valid document, struct or slice type","a mismatch before, between and behind members that fit",
 ["decode.go:decodeStruct","decode.go:decodeSlice","json.go:Unmarshal"])
p("C63","MarshalIndent and Encoder agree",
 "MarshalIndent(x, prefix, indent) returns exactly what an Encoder after SetIndent(prefix, indent) writes for x, without the final line feed, and returns an error exactly when the Encoder does, the same one.",
 "every value, prefix and indent","two independent implementations of the layout: the Indenter, and encoding/json.Indent over the output of Marshal",
 ["json.go:MarshalIndent","json.go:Marshal","json.go:Encode","json.go:SetIndent","encode.go:appendIndent"])
p("C64","Trusted messages that are not JSON are written verbatim",
 "With TrustRawMessage, a RawMessage (or the output of MarshalJSON) that is not JSON is written byte for byte, uncolored, or with HTML characters escaped if EscapeHTML is set, and nothing else changes.",
 "every byte string, colors and layout","malformed messages that the Tokenizer reads without an error",
 ["encode.go:encodeRawMessage","encode.go:appendRawMessageVerbatim","encode.go:appendRawMessageTokens"])
p("C65","The Field of a type error leads to the value that does not fit",
 "When Unmarshal of a JSON text fails with an *UnmarshalTypeError, its Field is the dotted path (indices of elements, keys of members) from the destination to a value of the text that does not fit the type it should go to.",
 "every type, text and destination","trailing dots, keys in other case, integer keys, interfaces that hold pointers, errors that lose their path",
 ["decode.go:decodeArray","decode.go:decodeSlice","decode.go:decodeMap","decode.go:decodeMapStringInterface","decode.go:decodeMapStringRawMessage","decode.go:decodeStruct","decode.go:decodeInterface"])
p("C66","Embedded structs decode like a flat struct",
 "Unmarshal into a struct with embedded structs and embedded pointers to structs does to the promoted fields what it would do to the fields of a flat struct, with the same error; a field behind a nil pointer counts as zero; a nil embedded pointer is set, to a zero value, exactly when a member goes to a field behind it, and never if its type is unexported (then there is an error); nothing else in memory changes.",
 "every struct type without recursive embedding, every text, every prior contents","offsets in nested embedded structs, several pointers on the way, null members, hidden and ambiguous fields, fields that are left out",
 ["codec.go:appendStructFields","codec.go:constructEmbeddedStructPointerCodec","decode.go:decodeEmbeddedStructPointer","decode.go:decodeStruct"])
p("C67","What has been decoded stays as it is",
"Without DontCopyString, DontCopyNumber and DontCopyRawMessage, values share no memory with the input or the buffer of the Decoder: overwriting the input of Unmarshal, later calls of Decode, and writing or appending to a decoded RawMessage change neither earlier values nor what comes next. Kinds of texts whose flag is not set keep this with the other flags set. With any flags, Decode stores the right value, and it reads the same until a call turns to the reader.",
"all types without pointers found in interfaces, all readers, all histories of Decode into fresh or reused variables, all flags",
"Decode hands out slices of a buffer that the next call overwrites; one missing copy makes results change behind the back of the program.",
["decode.go","json.go"])
p("C68","Marshal returns for every value",
"Encoding a value returns, with a result or with an error, also when the value refers to itself through pointers, slices, maps or interfaces; what is shared inside a value is written at each place, as if it were not shared.",
"every value and every memory its references point to, all settings","cycles through structs, slices and maps, fields that are left out, errors inside a cycle",
["encode.go:encodePointer","encode.go:encodeSlice","encode.go:encodeArray","encode.go:encodeMap","encode.go:encodeMapStringInterface","encode.go:encodeStruct","encode.go:encodeInterface"])
p("C69","Every type can be encoded and decoded, also one that refers to itself",
"Marshal and Unmarshal find the encoding and decoding functions of every Go type, including types whose declaration refers to itself through structs, pointers, slices, maps or arrays; the functions do not depend on how deep the stack is.",
"every set of type declarations","types that contain themselves through slices, maps or pointers only, such as type S []S; methods on such types",
["codec.go:constructCodec","codec.go:constructSliceCodec","codec.go:constructMapCodec","codec.go:constructPointerCodec","codec.go:constructArrayCodec","codec.go:constructStructType"])
p("C70",
"Decoding, encoding and decoding again is decoding",
"What Unmarshal stores in a fresh variable of a type is written by Marshal without an error, and comes back unchanged (up to the memory beyond the length of slices) when that text is unmarshalled into another fresh variable; encoding that variable gives the same text again.",
"every type made of scalars, byte slices, times, durations, interfaces, slices, arrays, maps, pointers and structs, with or without the string option; every text",
"repeated members and keys, reused memory of slices, missing members, strings that are not UTF-8, integer keys, quoted numbers with leading zeroes",
["decode.go", "encode.go", "codec.go:constructCodec"])
p("C71",
"A text cannot end the program that parses it",
"Valid returns for every text: however deeply a text nests, the parser either reports a result or an error, and does not run out of stack.",
"every text and every size of the stack",
"recursion on untrusted input, texts of opening brackets only, documents with more levels than the stack has room",
["parse.go:parseValue", "parse.go:parseObject", "parse.go:parseArray", "json.go:Valid"])
p("C72",
"Decoding a slice stays within its memory",
"decodeSlice reads and writes no memory outside of the array of its slice or of arrays it made itself, leaves the rest of that array and all other arrays alone, stores the elements that decoding into a list would give, and allocates memory in proportion to the text and only when the slice has no room; elements are aligned and do not overlap.",
"every heap of arrays, every slice header that lies within its array, every text, every decoder of elements, every size and alignment",
"unsafe address arithmetic, slices that share an array or begin in the middle of it, nil and empty slices, growth, failed decoding",
["decode.go:decodeSlice", "reflect.go:extendSlice", "reflect_optimize.go:extendSlice", "codec.go:alignedSize", "codec.go:align"])
p("C73",
"Fields are found where they lie",
"Whatever memory is used for a field of a struct, direct or promoted through embedded structs and pointers, in encoding, decoding or testing for omitempty, is used as the type that is there and lies within the struct; different fields share no memory.",
"every struct type, given by the kinds, sizes and alignments of its fields and by the structs it embeds to any depth",
"unsafe offset arithmetic, offsets added through embedded structs, embedded pointers, alignment, omitempty behind pointers",
["codec.go:appendStructFields", "codec.go:emptyFuncOf", "encode.go:encodeStruct", "encode.go:encodeEmbeddedStructPointer", "decode.go:decodeStruct", "decode.go:decodeEmbeddedStructPointer"])
p("C74",
"Encoding structs with embedded structs and pointers",
"For a struct with embedded structs and embedded pointers, at any depth, the encoder writes the promoted fields with the values that are found by following their paths, as a flat struct would be written; fields behind nil pointers are left out; what was written comes back when it is decoded into a fresh struct.",
"every struct type made of fields, embedded structs and embedded pointers, every value of it, every configuration of the encoder",
"offsets added or kept in codecs, rollback of a key that was already written, commas written before it is known whether there is a member",
["encode.go:encodeStruct", "encode.go:encodeEmbeddedStructPointer", "codec.go:constructEmbeddedStructPointerCodec", "codec.go:appendStructFields"])
p("C75",
"The parser takes linear time",
"Parsing a JSON value takes a number of steps proportional to the length of the value, whatever follows it; testing any bytes with Valid takes a number of steps proportional to their number, whether they are JSON or not.",
"every sequence of bytes; steps are bytes looked at plus calls and loop rounds",
"a string is scanned up to three times, and quadratic scanning shows only on inputs of a shape nobody benchmarks",
["parse.go:parseValue", "parse.go:parseString", "parse.go:parseStringFast", "parse.go:parseNumber", "json.go:Valid"])
p("C76",
"The work of decoding into interface{}",
"Unmarshal into an empty interface takes a number of steps proportional to the length of the text.",
"every sequence of bytes, every configuration of the decoder; steps are bytes looked at plus calls and loop rounds",
"the work grows with the nesting, which only adversarial inputs make large",
["decode.go:decodeInterface", "decode.go:decodeMapStringInterface", "decode.go:decodeSlice", "json.go:Unmarshal"])
p("C77",
"The work of reading a stream",
"A call of Decoder.Decode finds its value in a number of steps proportional to the bytes it passes over, and reading a whole stream takes a number of steps proportional to its length plus the number of values, no matter how the data is divided.",
"every reader, every stream, every number of calls; steps are bytes looked at or moved plus calls and loop rounds",
"a value that spans buffers is parsed again after each read, the buffer is moved and doubled; only large values show how often",
["json.go:readValue", "json.go:Decode", "parse.go:parseValue"])
p("C78",
"The text written says what the value holds",
"Without colors, encoding succeeds exactly for values that some JSON document represents, and the text written is such a document: strings and keys mean the Go strings, numbers have their value, maps have exactly their entries in the required order, structs their fields except empty omitempty ones.",
"every value, configuration without colors, indentation of white space, buffer and nesting depth",
"validity of the output says nothing about its content; each encoder function could write valid JSON for another value",
["encode.go", "json.go:Marshal"])
p("C79",
"Promoted fields are encoded and decoded by the functions of their types",
"Every member of every struct that values of a type can contain, promoted or not, stands for the field at the end of its path through embedded structs, goes through the embedded pointers on that path, and has the encoding and decoding function that encoding/json gives to this field: a promoted field is addressable if the struct is, or by a pointer on the way.",
"all types, structs (recursive ones included), embeddings, tags, method sets",
"methods with pointer receivers are called only for addressable values; a wrong codec for a promoted field changes the output silently",
["codec.go:constructStructType", "codec.go:appendStructFields", "codec.go:constructEmbeddedStructPointerCodec"])
p("C80",
"Decoding into recursive types",
"A struct type that occurs in itself, behind pointers, slices or maps, has one decoding function that refers to itself; it returns for every text, behaves as for the finite type written out as deep as the text is nested, and variables of recursive types survive marshalling and unmarshalling.",
"all families of mutually recursive struct types that Go allows, texts, destinations",
"the codec of a recursive type is a cyclic graph of closures: a wrong reference or an unbounded recursion would hang or corrupt lists and trees",
["codec.go:constructStructType", "codec.go:constructStructDecodeFunc", "decode.go:decodeStruct"])
p("C81",
"Decoding objects into maps",
"Unmarshal of an object into a map succeeds exactly if every member has a key of the key type (a string, an integer of the type's range, a text that UnmarshalText takes) and a value of the element type; then each such key has the value of its last member, decoded afresh, and all other keys are as before; a key that UnmarshalText rejects is reported with its error.",
"all key types, element types, objects, texts, maps",
"maps with typed keys are the one place where the text of a key is interpreted; a stale key or element variable, a lost entry or a wrong error is silent data corruption",
["decode.go:decodeMap", "decode.go:decodeTextUnmarshaler", "decode.go:objectKeyError", "codec.go:constructMapCodec"])
p("C82",
"Unmarshal into a variable of a declared type",
"For every declared type (methods, kinds, string options, recursive structs), Unmarshal reads a document into a variable of the type as the type's methods, kind and field options say: the function that constructCodec builds, when run, equals decoding into that reading of the type; it returns for every document, and what Marshal writes comes back.",
"all type environments, types, method answers, documents, destinations",
"the choice of function and the behaviour of functions are proved separately elsewhere; a closure that is run with the wrong type, element function, zero value or pointer flag would be seen by neither",
["codec.go:constructCodec", "codec.go:constructArrayDecodeFunc", "codec.go:constructSliceDecodeFunc", "codec.go:constructMapDecodeFunc", "codec.go:constructStructDecodeFunc", "codec.go:constructPointerDecodeFunc", "json.go:Unmarshal"])
p("C83",
"Marshal of a variable of a declared type",
"For every declared type (methods, kinds, omitempty and string options, recursive structs), Append writes a variable of the type as the type's methods, kind, field options and addressability say; for types without methods Unmarshal of what was written gives the variable back, so different variables are written differently.",
"all type environments, types, method answers, contents of variables, configurations",
"the choice of the encoding function is proved separately from what encoding functions do; a closure run with the wrong element type, key function, receiver or field function would be seen by neither",
["codec.go:constructCodec", "codec.go:constructArrayEncodeFunc", "codec.go:constructSliceEncodeFunc", "codec.go:constructMapEncodeFunc", "codec.go:constructStructEncodeFunc", "codec.go:constructPointerEncodeFunc", "codec.go:emptyFuncOf", "json.go:Append"])
p("C84",
"Work of decoding into variables of any type",
"Decoding a text into a variable takes a number of steps that is at most linear in the length of the text: for texts that can be decoded with a factor that only depends on the pointers in a row and the nested string options of the type, for all other texts with a factor that depends on the depth of the type.",
"all types without interfaces, all texts, all destinations, all configurations",
"decoders that look again at text they have seen (elements of the wrong type, strings that hold numbers, keys) may turn a small text into a lot of work; C76 only covered interface{}",
["decode.go", "parse.go:parseValue", "parse.go:parseStringUnquote", "json.go:Unmarshal", "json.go:Parse"])
p("C85",
"Unmarshal into declared types with embedded structs",
"Unmarshal into a variable of a declared type stores every member in the field that Go's rule for embedded structs names, decoded as the type of that field is to be read; nil embedded pointers on the way are set unless their type is unexported, and nothing else changes. So a variable takes from any text what a flat struct with the promoted fields would take.",
"all declared types that refer to each other in any way, all tags, all inputs, all variables, all configurations",
"joins the choice of fields (C40), of codecs (C79), the running of codecs (C82) and the way through embedded pointers (C66), which were separate, for types that refer to each other in any way",
["codec.go:constructStructType", "codec.go:appendStructFields", "codec.go:constructEmbeddedStructPointerCodec", "decode.go:decodeStruct", "decode.go:decodeEmbeddedStructPointer", "json.go:Unmarshal"])
p("C86",
"Marshal of declared types with embedded structs",
"Marshal of a variable of a declared type writes for every struct within it the members that Go's rule for embedded structs gives, in order of declaration, each as the type, the options, the methods and the addressability of its field say; fields behind nil embedded pointers are left out without a trace, and omitempty looks at the field itself.",
"all declared types that refer to each other in any way, all tags, all variables, all configurations, all buffers",
"joins the choice of fields (C40), of codecs (C79), the running of codecs (C83) and nil embedded pointers (C73, C74), which were separate, for types that refer to each other in any way",
["codec.go:constructStructType", "codec.go:appendStructFields", "codec.go:constructEmbeddedStructPointerCodec", "encode.go:encodeStruct", "encode.go:encodeEmbeddedStructPointer", "json.go:Append"])
p("C87",
"Embedding is transparent; declared types with embedded structs come back",
"Unmarshal into and Marshal of a variable of a declared type with embedded structs do what they do with a variable of the type that has the promoted fields as its own: the same errors, the same text, and the same contents of the fields. What Marshal writes, Unmarshal reads into a zero variable so that all members hold what they held.",
"all declared types that refer to each other in any way, all variables, all texts, all layouts",
"embedding is a way of writing a struct, and a round trip is what users of Marshal and Unmarshal expect; C82 and C83 have it for types without embedding",
["codec.go:constructStructType", "codec.go:appendStructFields", "decode.go:decodeStruct", "decode.go:decodeEmbeddedStructPointer", "encode.go:encodeStruct", "encode.go:encodeEmbeddedStructPointer", "json.go:Append", "json.go:Unmarshal"])
p("C88",
"Work of decoding any text is at most quadratic",
"Decoding any text, with or without errors, into a variable of any type of a program, recursive or with interfaces or both, takes a number of steps that is at most a constant times the square of the length of the text. The constant depends on the pointers in a row, the nested string options and how deep pointers in interfaces go, but not on how deep the types are, the text or the destination. For recursive types the square is met.",
"all types that refer to each other in any way, all texts, all destinations whose interfaces hold pointers to types within the bound, all configurations",
"C84 showed that a number of steps for each byte is not enough for recursive types and interfaces; this shows how bad it gets, so that nesting types and text cannot make it cubic or exponential",
["decode.go", "parse.go:parseValue", "json.go:Unmarshal", "json.go:Parse"])
p("C89",
"Encoder to Decoder",
"What an Encoder without colors writes, call after call, is a stream of JSON values each followed by a newline, whatever calls fail in between and whatever is set in between (as long as prefix and indent are whitespace). A Decoder that reads it returns the texts of the successful calls one by one, without their newlines, and then io.EOF. Values of supported types sent in this way come back equal, one by one, in zero variables of their types.",
"all sequences of Encode calls and settings, all clean values, all supported types, any number of further calls at the end",
"Encoder and Decoder are the streaming interface; programs connect one to the other through pipes, files and sockets and rely on the boundaries between values being kept",
["json.go:Encoder", "json.go:Encode", "json.go:Decoder", "json.go:readValue", "json.go:Decode", "encode.go"])
p("C90",
"Decoder: data in pieces, and when a call returns",
"However the data of a reader is cut into pieces, and whether its error comes with the last piece or on its own, a Decoder returns the same values. A value that has been received completely is returned, also if the connection stays open; a value in the buffer is returned without a call of Read. On a reader that ends every call returns.",
"all readers: any data in any pieces (also empty ones) with any error behind them, and connections on which nothing more comes; any number of calls",
"sockets and pipes deliver data in arbitrary pieces and stay open; a Decoder that waits for more than it needs stops a dialogue between two programs",
["json.go:readValue", "json.go:NewDecoder", "json.go:Decode"])
p("C91",
"Work of the Tokenizer",
"The work of the Tokenizer is linear in the length of the text, whether or not it is JSON. A token costs a number of steps proportional to its own length and that of the spaces before it, not to what follows. Further calls of Next, behind the end or behind an error, cost a constant each.",
"all byte strings, all states of the Tokenizer, any number of calls",
"the Tokenizer is offered for highly efficient parsing on the fly, of input that may come from an adversary",
["token.go:Next", "token.go:Tokenizer", "parse.go:parseString", "parse.go:parseNumber"])
p("C92",
"Tokenizers in memory and their copies",
"A Tokenizer works alike whether its stack is in its own buffer or on the heap. Tokenizers do not disturb each other, in whatever order they are called. A Tokenizer copied by assignment can be used beside the original, and one that is saved by assignment, called and assigned again is where it was.",
"all texts, any number of Tokenizers, any order of calls, any growth of slices, copies after any number of calls",
"Tokenizer is a struct with exported fields, which Go programs copy to look ahead; its stack is a slice into a buffer inside the struct itself",
["token.go:Tokenizer", "token.go:push", "token.go:pop", "token.go:Next", "token.go:Reset"])
p("C93",
"Size of the text that is written",
"What is written for a value takes at most a fixed number of bytes for each unit of the size of the value (a value, element, member, or byte of a string, name, number or time): six without colors and indentation, and more for each by the longest color and by the length of a line. This holds also when a call fails or when a RawMessage is not JSON.",
"all values, all options, palettes, prefixes and indents, any buffer and nesting level before, with or without an error",
"the buffers of Marshal and Encode are as large as the text; a value from outside must not blow them up",
["encode.go:doEncodeString", "encode.go:encodeArray", "encode.go:encodeMap", "encode.go:encodeStruct", "encode.go:encodeRawMessage", "encode.go:appendCompactEscapeHTML", "json.go:Marshal", "json.go:Encode"])
p("C94",
"Floats are written as ECMAScript writes them",
"A finite float is written as Number::toString of ECMAScript asks for, with the sign of a negative zero kept: the digits of its shortest decimal, with an exponent exactly if it is not zero and below 1e-6 or not below 1e21, and the exponent without leading zeros. The text is worth the float, different floats have different texts, a float64 takes at most 25 bytes, and omitempty leaves out exactly the zeros.",
"all finite floats (sign, digits and position of the point of the shortest decimal), all options and palettes",
"the comment at encode.go:104 promises it; a wrong cutoff or cleanup of the exponent yields a different number",
["encode.go:encodeFloat", "encode.go:encodeFloat32", "encode.go:encodeFloat64"])
p("C95",
"The work of encoding",
"Encoding a value takes at most a fixed number of steps for each byte that the bound on the size of the text (C93) allows: it is linear in the size of the value without indentation, sixty steps a unit for Marshal. Apart from that each pointer or interface that is followed takes a step, and maps take what the sort library takes for their keys. What the buffer holds before does not count.",
"all values, all options, palettes, prefixes and indents, any buffer and nesting level before, any cost of the sort library, with or without an error or a panic",
"encoding must not become slow on large values, deep values, long strings or raw messages, nor by appending to a long buffer",
["encode.go:doEncodeString", "encode.go:encodeToString", "encode.go:encodeArray", "encode.go:encodeMap", "encode.go:encodeMapStringInterface", "encode.go:encodeMapStringRawMessage", "encode.go:encodeStruct", "encode.go:encodeRawMessage", "encode.go:appendRawMessageTokens", "encode.go:appendCompactEscapeHTML", "json.go:Append", "json.go:Marshal"])
p("C96",
"Size of what is decoded",
"What a text makes a destination take, with or without an error, is at most a fixed number for each byte of the text: none for numbers and times, three for an interface{} or a string, and for a slice, array, map or pointer what its elements take and the size of a new element more. What was in the destination before counts once.",
"all destination types and contents, all texts, all options, pointers in interfaces nested to any depth, with or without an error",
"a short text from outside must not make the decoder fill memory without bound",
["decode.go:decodeInterface", "decode.go:decodeSlice", "decode.go:decodeArray", "decode.go:decodeMap", "decode.go:decodeStruct", "decode.go:decodePointer", "decode.go:decodeFromString", "decode.go:decodeFromStringToInt", "decode.go:decodeBytes", "parse.go:parseStringUnquote", "json.go:Unmarshal"])
p("C97",
"What a syntax error says and where it points",
"The error of a text that is not JSON quotes the text from the place where it goes wrong: what stands before can be continued to a JSON text, and either the whole text only ends too early, or the first byte quoted may not stand there, or a wrong token begins there. At most 32 bytes are quoted and the message has at most 124 bytes. The Offset of the error is the number of bytes before that place.",
"all texts, arrays and objects nested to any depth",
"whoever reads the message looks for the fault where it points, and a log must not fill with the text that is wrong",
["codec.go:syntaxError", "codec.go:unexpectedEOF", "codec.go:prefix", "codec.go:inputError", "parse.go:parseValue", "parse.go:parseObject", "parse.go:parseArray", "parse.go:parseStringFast", "parse.go:parseUnicode", "parse.go:parseNumber", "parse.go:parseNull", "json.go:Unmarshal"])
p("C98",
"What a type error says about a plain value",
"If a value does not fit a destination of a plain type (booleans, integers, floats, numbers, strings, durations, times), the Value of the *UnmarshalTypeError shows that value and nothing else, cut after 32 bytes; it speaks of an overflow exactly if the value is an integer out of range; and Type is the type of the destination.",
"all plain types, all values of JSON, anything behind the value",
"the text behind the value shows up in the message only if there is any, and the words depend on digits, sign, fraction and the width of the type",
["codec.go:unmarshalTypeError", "codec.go:unmarshalOverflow", "codec.go:inputError", "codec.go:prefix", "parse.go:parseInt", "parse.go:parseUint", "decode.go:decodeInt8", "decode.go:decodeUint8", "decode.go:decodeBool", "decode.go:decodeFloat64", "decode.go:decodeNumber", "decode.go:decodeString", "decode.go:decodeDuration", "decode.go:decodeTime"])
p("C99",
"Maps with time.Duration keys",
"A map with keys of type time.Duration is read exactly like a map with keys of type int64, as the type's kind says and encoding/json does it, and what is written for it comes back.",
"all texts, element types and destinations",
"the keys are handled by the codec of durations, which takes more than integers, wrapped into the reading of a string",
["codec.go:constructMapCodec", "codec.go:constructStringCodec", "decode.go:decodeFromString", "decode.go:decodeDuration", "decode.go:decodeMap", "encode.go:encodeDuration"])
open('/verif/properties.jsonl','w').write("\n".join(json.dumps(x) for x in P)+"\n")
print(len(P))

{
 "claims": [
  {
   "property": "C01",
   "status": "proved",
   "theorems": [
    "JC.Props.C01_valid_iff"
   ],
   "note": "Valid is sound and complete for the RFC 8259 grammar."
  },
  {
   "property": "C02",
   "status": "proved",
   "theorems": [
    "JC.Props.C02_parse_splits",
    "JC.Props.C02_parse_local",
    "JC.Props.C02_parse_complete"
   ],
   "note": "Scanner consumption and locality."
  },
  {
   "property": "C03",
   "status": "proved",
   "theorems": [
    "JC.Props.C03_unmarshal",
    "JC.Props.C03_scan_terminates",
    "JC.Props.C03_unquote_no_panic"
   ],
   "note": "Scanner, string unquoting and Unmarshal into every destination."
  },
  {
   "property": "C04",
   "status": "proved",
   "theorems": [
    "JC.Props.C04_meaning_unique",
    "JC.Props.C04_unquote",
    "JC.Props.C04_unquote_only"
   ],
   "note": "parseStringUnquote is related to a separate inductive meaning of JSON string bodies."
  },
  {
   "property": "C05",
   "status": "proved",
   "theorems": [
    "JC.Props.C05_roundtrip",
    "JC.Props.C05_decodes_total",
    "JC.Props.C05_roundtrip_valid"
   ],
   "note": ""
  },
  {
   "property": "C06",
   "status": "proved",
   "theorems": [
    "JC.Props.C06_is_string",
    "JC.Props.C06_safe"
   ],
   "note": ""
  },
  {
   "property": "C07",
   "status": "proved",
   "theorems": [
    "JC.Props.C07_print",
    "JC.Props.C07_ascii"
   ],
   "note": "SWAR checks equal per-byte checks."
  },
  {
   "property": "C08",
   "status": "proved",
   "theorems": [
    "JC.Props.C08_int64",
    "JC.Props.C08_uint64",
    "JC.Props.C08_int64_only",
    "JC.Props.C08_uint64_only",
    "JC.Props.C08_fraction"
   ],
   "note": "uint64 takes unsigned literals only; -0 is an error as in encoding/json."
  },
  {
   "property": "C09",
   "status": "proved",
   "theorems": [
    "JC.Props.C09_int64",
    "JC.Props.C09_uint64"
   ],
   "note": ""
  },
  {
   "property": "C10",
   "status": "proved",
   "theorems": [
    "JC.Props.C10_sized",
    "JC.Props.C10_only"
   ],
   "note": "All eleven integer kinds; int and uint taken as 64 bits."
  },
  {
   "property": "C11",
   "status": "proved",
   "theorems": [
    "JC.Props.C11_tokens",
    "JC.Props.C11_concat"
   ],
   "note": "Tokens, their texts and their concatenation for every JSON text."
  },
  {
   "property": "C12",
   "status": "partial",
   "theorems": [
    "JC.Props.C12_positions",
    "JC.Props.C12_positions_partial",
    "JC.Props.C12_isKey_fails"
   ],
   "note": "IsKey is wrong after an empty object (C12_isKey_fails); all other fields proved for all documents, all fields for documents without an empty object."
  },
  {
   "property": "C13",
   "status": "partial",
   "theorems": [
    "JC.Props.C13_reports_partial",
    "JC.Props.C13_fails_panic",
    "JC.Props.C13_fails_silent",
    "JC.Props.C13_fails_accepts"
   ],
   "note": "The claim is false as stated (three counterexample theorems); the exact behaviour on every input is proved."
  },
  {
   "property": "C14",
   "status": "proved",
   "theorems": [
    "JC.Props.C14_sticky",
    "JC.Props.C14_reset"
   ],
   "note": ""
  },
  {
   "property": "C15",
   "status": "proved",
   "theorems": [
    "JC.Props.C15_classes",
    "JC.Props.C15_exactly_one"
   ],
   "note": ""
  },
  {
   "property": "C16",
   "status": "proved",
   "theorems": [
    "JC.Props.C16_same_tokens",
    "JC.Props.C16_colored",
    "JC.Props.C16_no_html"
   ],
   "note": "For messages accepted as JSON; leading whitespace is an error without TrustRawMessage, see C18."
  },
  {
   "property": "C17",
   "status": "partial",
   "theorems": [
    "JC.Props.C17_same_layout_partial",
    "JC.Props.C17_equal_partial",
    "JC.Props.C17_plain",
    "JC.Props.C17_fails_color"
   ],
   "note": "Proved without colors for all messages, with colors for those without empty objects (C17_fails_color)."
  },
  {
   "property": "C18",
   "status": "partial",
   "theorems": [
    "JC.Props.C18_fails_trailing",
    "JC.Props.C18_fails_leading",
    "JC.Props.C18_rejected_partial"
   ],
   "note": "False: trailing data is dropped and leading whitespace rejected; proved relative to the first value."
  },
  {
   "property": "C19",
   "status": "partial",
   "theorems": [
    "JC.Props.C19_transparent_partial",
    "JC.Props.C19_transparent_clean_partial",
    "JC.Props.C19_fails_string_option",
    "JC.Props.C19_fails_int_key"
   ],
   "note": "False for `,string` fields and integer map keys (C19_fails_*); proved for all other values, all palettes of SGR sequences, flags and indents."
  },
  {
   "property": "C20",
   "status": "partial",
   "theorems": [
    "JC.Props.C20_segments_partial",
    "JC.Props.C20_reset_partial",
    "JC.Props.C20_fails_number",
    "JC.Props.C20_fails_trusted"
   ],
   "note": "False for Numbers with garbage and for trusted messages that are not JSON (C20_fails_*); proved for clean values (Spec/Clean.lean)."
  },
  {
   "property": "C21",
   "status": "partial",
   "theorems": [
    "JC.Props.C21_rendering_partial",
    "JC.Props.C21_roles",
    "JC.Props.C21_fails_raw",
    "JC.Props.C21_fails_text_key"
   ],
   "note": "Exact rendering by role proved; false after an empty object in a RawMessage and for TextMarshaler keys (C21_fails_*)."
  },
  {
   "property": "C22",
   "status": "partial",
   "theorems": [
    "JC.Props.C22_nil_colors_partial",
    "JC.Props.C22_fails_zero_colors",
    "JC.Props.C22_fails_number"
   ],
   "note": "False for the zero Colors{}; nil Colors proved for clean values."
  },
  {
   "property": "C23",
   "status": "partial",
   "theorems": [
    "JC.Props.C23_indent_transparent_partial",
    "JC.Props.C23_errors_partial",
    "JC.Props.C23_fails_number"
   ],
   "note": "False for Numbers with garbage (C23_fails_number); proved for clean values."
  },
  {
   "property": "C24",
   "status": "partial",
   "theorems": [
    "JC.Props.C24_layout_partial",
    "JC.Props.C24_render",
    "JC.Props.C24_fails_empty_struct",
    "JC.Props.C24_fails_omitted",
    "JC.Props.C24_setIndent_partial"
   ],
   "note": "Layout proved for clean values; structs without members differ (C24_fails_*)."
  },
  {
   "property": "C25",
   "status": "partial",
   "theorems": [
    "JC.Props.C25_valid_json_partial",
    "JC.Props.C25_no_panic_partial",
    "JC.Props.C25_fails_number",
    "JC.Props.C25_fails_embedded",
    "JC.Props.C25_fails_rawmap",
    "JC.Props.C25_fails_nilkey"
   ],
   "note": "False for bad Numbers, nil embedded pointers, unsorted maps of bad RawMessages and nil text keys (C25_fails_*); proved for the rest (clean values)."
  },
  {
   "property": "C26",
   "status": "proved",
   "theorems": [
    "JC.Props.C26_append_only"
   ],
   "note": ""
  },
  {
   "property": "C27",
   "status": "partial",
   "theorems": [
    "JC.Props.C27_deterministic",
    "JC.Props.C27_int_texts",
    "JC.Props.C27_fails_nil_key",
    "JC.Props.C27_fails_text_keys",
    "JC.Props.C27_sorted"
   ],
   "note": "Independent of iteration order when key texts are distinct; false for TextMarshaler keys with equal texts. Nil keys cannot be compared (C27_fails_nil_key)."
  },
  {
   "property": "C28",
   "status": "proved",
   "theorems": [
    "JC.Props.C28_all_or_nothing",
    "JC.Props.C28_line_partial"
   ],
   "note": ""
  },
  {
   "property": "C29",
   "status": "partial",
   "theorems": [
    "JC.Props.C29_level_partial",
    "JC.Props.C29_history_partial",
    "JC.Props.C29_compact_partial",
    "JC.Props.C29_fails"
   ],
   "note": "False with an Indenter after a failed call; proved without Indenter for all histories, with one for successful calls, and in general up to the level of the Indenter (C29_level_partial)."
  },
  {
   "property": "C30",
   "status": "partial",
   "theorems": [
    "JC.Props.C30_fails",
    "JC.Props.C30_sticky_partial"
   ],
   "note": "False for the failing call itself, which returns nil; stickiness proved for all histories."
  },
  {
   "property": "C31",
   "status": "partial",
   "theorems": [
    "JC.Props.C31_stream_partial",
    "JC.Props.C31_fails_number",
    "JC.Props.C31_fails_escape",
    "JC.Props.C31_decode_partial"
   ],
   "note": "False for streams over 32768 bytes when a top-level number or a \\u escape behind a \\\" falls on a buffer end (C31_fails_*); proved for all other streams, values and Decode results."
  },
  {
   "property": "C32",
   "status": "partial",
   "theorems": [
    "JC.Props.C32_position_partial",
    "JC.Props.C32_bounds",
    "JC.Props.C32_fails"
   ],
   "note": "False for longer streams (C32_fails); exact for every stream of at most 32768 bytes, bounds for every reader and history."
  },
  {
   "property": "C33",
   "status": "partial",
   "theorems": [
    "JC.Props.C33_sticky",
    "JC.Props.C33_clean_partial",
    "JC.Props.C33_truncated_partial",
    "JC.Props.C33_fails_unexpected",
    "JC.Props.C33_fails_dropped",
    "JC.Props.C33_fails_syntax",
    "JC.Props.C33_fails_escape",
    "JC.Props.C33_source"
   ],
   "note": "Stickiness and the origin of errors proved for every reader and history; ends of streams proved with the conditions of C31; four negations."
  },
  {
   "property": "C34",
   "status": "proved",
   "theorems": [
    "JC.Props.C34_bytes"
   ],
   "note": ""
  },
  {
   "property": "C35",
   "status": "proved",
   "theorems": [
    "JC.Props.C35_generic",
    "JC.Props.C35_denotes",
    "JC.Props.C35_unique"
   ],
   "note": "For interfaces not holding a pointer (a held pointer is decoded through); ParseFloat is a parameter."
  },
  {
   "property": "C36",
   "status": "partial",
   "theorems": [
    "JC.Props.C36_valid_partial",
    "JC.Props.C36_fails_array"
   ],
   "note": "False for Go arrays (C36_fails_array); proved for every destination type without them."
  },
  {
   "property": "C37",
   "status": "partial",
   "theorems": [
    "JC.Props.C37_roundtrip_partial",
    "JC.Props.C37_marshal_partial",
    "JC.Props.C37_unique",
    "JC.Props.C37_stable",
    "JC.Props.C37_fails_nil_slice",
    "JC.Props.C37_fails_collision"
   ],
   "note": "False for nil slices and maps held in interfaces and for keys that collide after coercion (C37_fails_*); proved for all other trees, and without exception for every tree that Unmarshal produces. That ParseFloat inverts AppendFloat is a hypothesis."
  },
  {
   "property": "C38",
   "status": "partial",
   "theorems": [
    "JC.Props.C38_roundtrip_partial",
    "JC.Props.C38_marshal_partial",
    "JC.Props.C38_injective_partial",
    "JC.Props.C38_fails_nil_pointee",
    "JC.Props.C38_fails_utf8"
   ],
   "note": "Proved for all types of the statement (and floats, numbers, times, durations, interfaces, integer keys and the string option) when strings and keys are valid UTF-8 and no pointer points to a nil pointer, slice, map or interface; false otherwise (C38_fails_*). Strings that are not UTF-8 are coerced as the format demands. Empty values under omitempty come back as zero values. That ParseFloat and time.Parse invert their formatters is a hypothesis."
  },
  {
   "property": "C39",
   "status": "proved",
   "theorems": [
    "JC.Props.C39_encode",
    "JC.Props.C39_roundtrip"
   ],
   "note": ""
  },
  {
   "property": "C40",
   "status": "partial",
   "theorems": [
    "JC.Props.C40_order",
    "JC.Props.C40_before_irrefl",
    "JC.Props.C40_before_trans",
    "JC.Props.C40_direct",
    "JC.Props.C40_unique",
    "JC.Props.C40_choice_partial",
    "JC.Props.C40_unfolds",
    "JC.Props.C40_fails_depth",
    "JC.Props.C40_fails_annihilated",
    "JC.Props.C40_fails_deep_tag",
    "JC.Props.C40_fails_direct_twice",
    "JC.Props.C40_fails_unexported",
    "JC.Props.C40_fails_invalid_name",
    "JC.Props.C40_fails_semicolon",
    "JC.Props.C40_fails_recursive"
   ],
   "note": "Order of members, direct fields and uniqueness of promoted ones are proved for all types. The choice among promoted fields is proved for types that do not embed themselves and whose equal names are nested or one level deep; it fails for other collisions."
  },
  {
   "property": "C41",
   "status": "partial",
   "theorems": [
    "JC.Props.C41_empty_partial",
    "JC.Props.C41_fails_embedded",
    "JC.Props.C41_fails_interface",
    "JC.Props.C41_members_partial",
    "JC.Props.C41_iface_exact"
   ],
   "note": "False for fields behind embedded pointers and interfaces holding nil; proved otherwise. C41_iface_exact: which interfaces are left out."
  },
  {
   "property": "C42",
   "status": "partial",
   "theorems": [
    "JC.Props.C42_selects_partial",
    "JC.Props.C42_exact_partial",
    "JC.Props.C42_struct_partial",
    "JC.Props.C42_fails_unicode"
   ],
   "note": "False for non-ASCII names and keys when case is ignored (C42_fails_unicode); proved otherwise, with the effect of decoding an object into a struct."
  },
  {
   "property": "C43",
   "status": "proved",
   "theorems": [
    "JC.Props.C43_transparent",
    "JC.Props.C43_entries",
    "JC.Props.C43_own_type",
    "JC.Props.C43_progress",
    "JC.Props.C43_sequential",
    "JC.Props.C43_lossy"
   ],
   "note": "Every schedule of loads, constructions and stores; construction is a function of the type. Entries can be lost (C43_lossy), which only costs time."
  },
  {
   "property": "C44",
   "status": "proved",
   "theorems": [
    "JC.Props.C44_refines",
    "JC.Props.C44_content",
    "JC.Props.C44_unchanged",
    "JC.Props.C44_policy_needed"
   ],
   "note": "Refinement of a shared heap to private lists, for the encoder buffers and the mapslices."
  },
  {
   "property": "C45",
   "status": "proved",
   "theorems": [
    "JC.Props.C45_precedence",
    "JC.Props.C45_other",
    "JC.Props.C45_windows",
    "JC.Props.C45_windows_mode"
   ],
   "note": "Unix and Windows versions."
  },
  {
   "property": "C46",
   "status": "partial",
   "theorems": [
    "JC.Props.C46_plain",
    "JC.Props.C46_stdout",
    "JC.Props.C46_sink",
    "JC.Props.C46_file_partial",
    "JC.Props.C46_fails_force",
    "JC.Props.C46_data",
    "JC.Props.C46_invalid",
    "JC.Props.C46_no_input",
    "JC.Props.C46_source",
    "JC.Props.C46_write_error_lost"
   ],
   "note": "False with FORCE_COLOR (C46_fails_force); proved otherwise, with the data written being the data read for every flag and environment. C46_no_input, C46_source: where the data is read."
  },
  {
   "property": "C47",
   "status": "proved",
   "theorems": [
    "JC.Props.C47_color",
    "JC.Props.C47_colors",
    "JC.Props.C47_sgr",
    "JC.Props.C47_strip_partial",
    "JC.Props.C47_defaults"
   ],
   "note": "The color library is a parameter."
  },
  {
   "property": "C48",
   "status": "partial",
   "theorems": [
    "JC.Props.C48_fails_number",
    "JC.Props.C48_trailing_partial"
   ],
   "note": "Proved when the value is delimited from what follows, for every destination; `1.` and `1e` into an integer report a type error."
  },
  {
   "property": "C49",
   "status": "partial",
   "theorems": [
    "JC.Props.C49_fails",
    "JC.Props.C49_number_partial",
    "JC.Props.C49_starts"
   ],
   "note": "False for a number followed by other text; proved otherwise."
  },
  {
   "property": "C50",
   "status": "proved",
   "theorems": [
    "JC.Props.C50_float",
    "JC.Props.C50_nonfinite",
    "JC.Props.C50_nonfinite_colored"
   ],
   "note": "strconv's text is a parameter of a stated form."
  },
  {
   "property": "C51",
   "status": "partial",
   "theorems": [
    "JC.Props.C51_whitespace_partial",
    "JC.Props.C51_fails_raw"
   ],
   "note": "False for types that see the text, such as RawMessage (C51_fails_raw); proved for all others."
  },
  {
   "property": "C52",
   "status": "proved",
   "theorems": [
    "JC.Props.C52_meaning",
    "JC.Props.C52_safe"
   ],
   "note": ""
  },
  {
   "property": "C53",
   "status": "proved",
   "theorems": [
    "JC.Props.C53_use_number",
    "JC.Props.C53_encode"
   ],
   "note": ""
  },
  {
   "property": "C54",
   "status": "partial",
   "theorems": [
    "JC.Props.C54_null_partial",
    "JC.Props.C54_inside_partial",
    "JC.Props.C54_fails_raw",
    "JC.Props.C54_fails_pointer"
   ],
   "note": "False for RawMessage and pointers to pointers (C54_fails_*); proved for all other destinations."
  },
  {
   "property": "C55",
   "status": "proved",
   "theorems": [
    "JC.Props.C55_appendUnquote",
    "JC.Props.C55_unquote"
   ],
   "note": ""
  },
  {
   "property": "C56",
   "status": "partial",
   "theorems": [
    "JC.Props.C56_balanced_partial",
    "JC.Props.C56_fails_error",
    "JC.Props.C56_fails_trusted"
   ],
   "note": "False on error paths and for trusted non-JSON messages; proved for clean values."
  },
  {
   "property": "C57",
   "status": "partial",
   "theorems": [
    "JC.Props.C57_fails_overflow",
    "JC.Props.C57_fails_array",
    "JC.Props.C57_fails_key",
    "JC.Props.C57_fails_quoted",
    "JC.Props.C57_syntax_partial",
    "JC.Props.C57_unquoted"
   ],
   "note": "Proved for every destination without fixed-size arrays, integer map keys, the `string` option of non-integers, and integers at the top; a concrete valid text for each of these is reported as a syntax error. C57_unquoted: numbers in place of strings."
  },
  {
   "property": "C58",
   "status": "partial",
   "theorems": [
    "JC.Props.C58_value_partial",
    "JC.Props.C58_exact",
    "JC.Props.C58_keys_exact",
    "JC.Props.C58_fails_array",
    "JC.Props.C58_fails_func",
    "JC.Props.C58_fails_key"
   ],
   "note": "False for channels, functions and arrays of one pointer or map (also as the only field of structs), and for pointer keys of maps; C58_exact and C58_keys_exact show that these are the only types."
  },
  {
   "property": "C59",
   "status": "partial",
   "theorems": [
    "JC.Props.C59_choice_exact",
    "JC.Props.C59_key_enc_exact",
    "JC.Props.C59_key_dec_exact",
    "JC.Props.C59_enc_partial",
    "JC.Props.C59_enc_exact",
    "JC.Props.C59_dec_partial",
    "JC.Props.C59_values_partial",
    "JC.Props.C59_pointers_partial",
    "JC.Props.C59_fails_mixed",
    "JC.Props.C59_fails_stringkey",
    "JC.Props.C59_fails_intkey",
    "JC.Props.C59_fails_unmarshalkey",
    "JC.Props.C59_fails_marshalkey",
    "JC.Props.C59_fails_bytes",
    "JC.Props.C59_fails_seen",
    "JC.Props.C59_fails_quoted",
    "JC.Props.C59_fails"
   ],
   "note": "False for value MarshalText with pointer MarshalJSON, for some key types, for the string option with methods or pointers, and for structs met both addressable and not; apart from the first kinds C59_enc_exact shows the last to be the only obstacle, and C59_dec_partial covers decoding. Embedded fields are treated in C79."
  },
  {
   "property": "C60",
   "status": "partial",
   "theorems": [
    "JC.Props.C60_fails_trailing",
    "JC.Props.C60_fails_prefix",
    "JC.Props.C60_fails_pointer",
    "JC.Props.C60_fails_interface",
    "JC.Props.C60_atomic_partial",
    "JC.Props.C60_mismatch_partial",
    "JC.Props.C60_interface_partial"
   ],
   "note": "False for trailing data, slices, structs, pointers, interfaces that hold a value; scalars, nil maps and nil interfaces are left alone by texts that do not begin with a value."
  },
  {
   "property": "C61",
   "status": "proved",
   "theorems": [
    "JC.Props.C61_kept",
    "JC.Props.C61_field",
    "JC.Props.C61_entry"
   ],
   "note": ""
  },
  {
   "property": "C62",
   "status": "partial",
   "theorems": [
    "JC.Props.C62_fails_struct",
    "JC.Props.C62_struct_partial",
    "JC.Props.C62_slice_partial"
   ],
   "note": "False: decoding stops at the first value that does not fit; what comes before it is stored (structs, nil slices)."
  },
  {
   "property": "C63",
   "status": "partial",
   "theorems": [
    "JC.Props.C63_layout_partial",
    "JC.Props.C63_encoder_partial",
    "JC.Props.C63_fails_empty",
    "JC.Props.C63_fails_struct",
    "JC.Props.C63_fails_number",
    "JC.Props.C63_fails_deep"
   ],
   "note": "False for empty prefix and indent, structs without members, numbers that are none, and values nested more than 10000 levels deep; proved for the others. What MarshalIndent returns is proved for all clean values."
  },
  {
   "property": "C64",
   "status": "partial",
   "theorems": [
    "JC.Props.C64_verbatim_partial",
    "JC.Props.C64_fails_join",
    "JC.Props.C64_fails_drop",
    "JC.Props.C64_fails_panic",
    "JC.Props.C64_fails_escape",
    "JC.Props.C64_fails_level"
   ],
   "note": "False for messages made of tokens only (numbers joined, text dropped, panic), and the nesting level is not restored; proved for messages in which something is no token."
  },
  {
   "property": "C65",
   "status": "partial",
   "theorems": [
    "JC.Props.C65_erases",
    "JC.Props.C65_path_partial",
    "JC.Props.C65_dots",
    "JC.Props.C65_fails_dot"
   ],
   "note": "False for the text of Field: every part has a dot behind it, the last one too; proved for the list of its parts."
  },
  {
   "property": "C66",
   "status": "partial",
   "theorems": [
    "JC.Props.C66_fields",
    "JC.Props.C66_flat",
    "JC.Props.C66_grows",
    "JC.Props.C66_members_partial",
    "JC.Props.C66_fails_unicode"
   ],
   "note": "Proved for all inputs that the promoted fields and the error are those of a flat struct (C66_flat), that memory keeps its shape and only named fields and nil pointers of exported type change (C66_grows), and that the promoted fields are those of C40 (C66_fields). That a pointer is set exactly when a member goes behind it, and that members for fields behind nil pointers of unexported type are errors, is C66_members_partial, without non-ASCII names and keys when case is ignored (C66_fails_unicode, from C42) and without raw messages and Unmarshalers as fields."
  },
  {
   "property": "C67",
   "status": "proved",
   "theorems": [
    "JC.Props.C67_kept",
    "JC.Props.C67_kinds",
    "JC.Props.C67_same",
    "JC.Props.C67_until_read",
    "JC.Props.C67_parse",
    "JC.Props.C67_unmarshal",
    "JC.Props.C67_write",
    "JC.Props.C67_sharp_string",
    "JC.Props.C67_sharp_append"
   ],
   "note": "Pointers found in interfaces are not in the memory model; Unmarshalers are taken to copy what they keep."
  },
  {
   "property": "C68",
   "status": "partial",
   "theorems": [
    "JC.Props.C68_fails_cycle",
    "JC.Props.C68_tree_partial",
    "JC.Props.C68_either",
    "JC.Props.C68_fails_endless",
    "JC.Props.C68_exact",
    "JC.Props.C68_stack",
    "JC.Props.C68_sharp_sound"
   ],
   "note": "Values that contain themselves use up the stack; for values without errors inside, returning is equivalent to being a tree. Nil embedded pointers are not in the equivalence."
  },
  {
   "property": "C69",
   "status": "partial",
   "theorems": [
    "JC.Props.C69_fails_self",
    "JC.Props.C69_fails_endless",
    "JC.Props.C69_codec_partial",
    "JC.Props.C69_exact",
    "JC.Props.C69_stack"
   ],
   "note": "False for types that come back to themselves without a struct in between (type S []S): the stack is used up. C69_exact shows that these, and the types that lead to them, are the only ones; the others get the codec of C59. Embedded fields are left out here; C79 has them."
  },
  {
   "property": "C70",
   "status": "partial",
   "theorems": [
    "JC.Props.C70_stable_partial",
    "JC.Props.C70_marshal_partial",
    "JC.Props.C70_normal_partial",
    "JC.Props.C70_fails_number",
    "JC.Props.C70_fails_pointer"
   ],
   "note": "False for an empty json.Number (written as 0) and for pointers to nil, which repeated members can leave behind (C70_fails_*); proved for all other results, with the behaviour of ParseFloat, ParseDuration and time.Parse on their own output as hypotheses (LibReturns)."
  },
  {
   "property": "C71",
   "status": "partial",
   "theorems": [
    "JC.Props.C71_agree",
    "JC.Props.C71_enough_partial",
    "JC.Props.C71_levels_partial",
    "JC.Props.C71_fails_deep"
   ],
   "note": "False: there is no limit to nesting, so for every stack there is a short valid text that ends the program (C71_fails_deep). Proved: room for one call more than the text has opening brackets is enough, and a valid document needs exactly as many calls as it has levels."
  },
  {
   "property": "C72",
   "status": "proved",
   "theorems": [
    "JC.Props.C72_same",
    "JC.Props.C72_kept",
    "JC.Props.C72_memory",
    "JC.Props.C72_align",
    "JC.Props.C72_stride"
   ],
   "note": ""
  },
  {
   "property": "C73",
   "status": "partial",
   "theorems": [
    "JC.Props.C73_right",
    "JC.Props.C73_within",
    "JC.Props.C73_apart",
    "JC.Props.C73_empty_partial",
    "JC.Props.C73_word_partial",
    "JC.Props.C73_header_size",
    "JC.Props.C73_fails_iface",
    "JC.Props.C73_fails_kind",
    "JC.Props.C73_fails_bounds"
   ],
   "note": "Proved for encoding and decoding of all fields. False for omitempty behind an embedded pointer: the pointer is read as if it were the field, and a string or slice field is read past the end of the struct (C73_fails_*)."
  },
  {
   "property": "C74",
   "status": "partial",
   "theorems": [
    "JC.Props.C74_seen",
    "JC.Props.C74_flat",
    "JC.Props.C74_left_out_partial",
    "JC.Props.C74_fails_comma",
    "JC.Props.C74_stray_iff",
    "JC.Props.C74_json_iff",
    "JC.Props.C74_roundtrip_partial",
    "JC.Props.C74_roundtrip_nil_partial"
   ],
   "note": "Proved for all values: what the encoder sees is what the paths read. Fields behind nil pointers are left out exactly when they come before all members; otherwise a comma is left over and the text is not JSON (C74_fails_comma, C74_stray_iff, C74_json_iff say exactly when). The round trip is proved when no embedded pointer is nil (C74_roundtrip_partial) and when the fields behind nil pointers come first, in which case exactly the nil pointers are nil again (C74_roundtrip_nil_partial), both with the exclusions of C38."
  },
  {
   "property": "C75",
   "status": "proved",
   "theorems": [
    "JC.Props.C75_same",
    "JC.Props.C75_value",
    "JC.Props.C75_linear"
   ],
   "note": "At most ten steps for each byte of a value (C75_value), at most ten for each byte of any input plus fourteen (C75_linear). The counting functions return what the model of the parser returns (C75_same)."
  },
  {
   "property": "C76",
   "status": "partial",
   "theorems": [
    "JC.Props.C76_same",
    "JC.Props.C76_levels_partial",
    "JC.Props.C76_bad",
    "JC.Props.C76_quadratic",
    "JC.Props.C76_tower",
    "JC.Props.C76_fails_deep"
   ],
   "note": "False: every nested value is parsed once for each value around it, so that [[[...]]] takes at least a quarter of the square of its length (C76_tower, C76_fails_deep). Proved: at most sixty-one steps for each byte on each level (C76_levels_partial), linear when the text does not start with a value (C76_bad), and never more than the square for any bytes (C76_quadratic)."
  },
  {
   "property": "C77",
   "status": "partial",
   "theorems": [
    "JC.Props.C77_same",
    "JC.Props.C77_value_partial",
    "JC.Props.C77_total_partial",
    "JC.Props.C77_errors_partial",
    "JC.Props.C77_total_errors_partial",
    "JC.Props.C77_pieces",
    "JC.Props.C77_fails_pieces"
   ],
   "note": "Proved for readers that fail in the end only: 139 steps for each byte passed over and forty for each call (C77_value_partial, C77_total_partial). False for readers that have more data after an error, as a file that is being written: the error is dropped and everything is parsed and moved again, so that n single bytes take at least n(n-1)/2 steps (C77_pieces, C77_fails_pieces). For every reader: each dropped error costs at most 160 steps for each byte of the value and forty more, on top of the 139 and forty (C77_errors_partial, C77_total_errors_partial)."
  },
  {
   "property": "C78",
   "status": "partial",
   "theorems": [
    "JC.Props.C78_says_partial",
    "JC.Props.C78_succeeds_partial",
    "JC.Props.C78_error_partial",
    "JC.Props.C78_generic_partial",
    "JC.Props.C78_fails_raw",
    "JC.Props.C78_fails_omitempty",
    "JC.Props.C78_fails_embedded"
   ],
   "note": "Proved, with the converse and the generic reading of the text, for Clean and Tidy values, without the raw messages of C18, the omitempty fields of C41 and nil embedded pointers after a member (C78_says_partial, C78_succeeds_partial, C78_error_partial, C78_generic_partial). False for these (C78_fails_raw, C78_fails_omitempty, C78_fails_embedded)."
  },
  {
   "property": "C79",
   "status": "partial",
   "theorems": [
    "JC.Props.C79_enc_partial",
    "JC.Props.C79_dec_partial",
    "JC.Props.C79_values_partial",
    "JC.Props.C79_pointers_partial",
    "JC.Props.C79_members",
    "JC.Props.C79_fails_embedded",
    "JC.Props.C79_fails"
   ],
   "note": "Decoding is proved for fair types (C79_dec_partial), encoding for fair types with fields that are encoded alike wherever their struct is (C79_enc_partial), in particular for types without pointer-only methods (C79_values_partial) and for pointers to types without maps (C79_pointers_partial). The members are those of C40 (C79_members). False for fields behind an embedded pointer in a struct that is not addressable (C79_fails_embedded)."
  },
  {
   "property": "C80",
   "status": "partial",
   "theorems": [
    "JC.Props.C80_unmarshal",
    "JC.Props.C80_returns",
    "JC.Props.C80_solves",
    "JC.Props.C80_unique",
    "JC.Props.C80_roundtrip_partial",
    "JC.Props.C80_list",
    "JC.Props.C80_fails_deep",
    "JC.Props.C80_fails"
   ],
   "note": "With room for one call of decodeStruct more than the text has opening braces, Unmarshal does what it does into the written-out type (C80_unmarshal) and returns (C80_returns); the decoding functions are the only ones that satisfy their equations (C80_solves, C80_unique); round trip as in C38 (C80_roundtrip_partial, C80_list). That one stack suffices for every text is false, since the nesting is not bounded (C80_fails_deep, C80_fails)."
  },
  {
   "property": "C81",
   "status": "partial",
   "theorems": [
    "JC.Props.C81_accepts",
    "JC.Props.C81_kept",
    "JC.Props.C81_last",
    "JC.Props.C81_rejected",
    "JC.Props.C81_fails_error",
    "JC.Props.C81_fails_nomethod",
    "JC.Props.C81_fails_noText"
   ],
   "note": "C81_accepts, C81_kept and C81_last determine the outcome for every key type, C81_rejected the error for a key. The error of UnmarshalText is replaced by a syntax error at the top level (C81_fails_error), and key types with MarshalText only panic (C81_fails_nomethod)."
  },
  {
   "property": "C82",
   "status": "partial",
   "theorems": [
    "JC.Props.C82_reading_partial",
    "JC.Props.C82_unmarshal_partial",
    "JC.Props.C82_returns_partial",
    "JC.Props.C82_roundtrip_partial",
    "JC.Props.C82_fails_nomethod",
    "JC.Props.C82_fails"
   ],
   "note": "C82_reading_partial is the equality, C82_unmarshal_partial reduces it to a finite type, C82_returns_partial and C82_roundtrip_partial follow. Map keys where the package chooses other functions panic (C82_fails_nomethod); time.Duration keys and embedded structs are not represented."
  },
  {
   "property": "C83",
   "status": "partial",
   "theorems": [
    "JC.Props.C83_view_partial",
    "JC.Props.C83_roundtrip_partial",
    "JC.Props.C83_injective_partial",
    "JC.Props.C83_fails_quoted",
    "JC.Props.C83_fails"
   ],
   "note": "C83_view_partial is the equality with the rules of encoding/json; C83_roundtrip_partial adds C82 for types without methods (but those of keys), for variables with UTF-8 strings and no pointers to nil; C83_injective_partial follows. Fails for types where the package chooses other functions: C83_fails_quoted. time.Duration keys and embedded structs are not represented."
  },
  {
   "property": "C84",
   "status": "partial",
   "theorems": [
    "JC.Props.C84_same",
    "JC.Props.C84_decoded",
    "JC.Props.C84_any_partial",
    "JC.Props.C84_finite_partial",
    "JC.Props.C84_recursive_partial",
    "JC.Props.C84_list",
    "JC.Props.C84_fails_list",
    "JC.Props.C84_fails_iface",
    "JC.Props.C84_fails",
    "JC.Props.C84_list_decoded"
   ],
   "note": "C84_same erases the counts to C57/C66's decoders; C84_decoded is the bound for texts that are decoded, C84_any_partial and C84_finite_partial for all texts, C84_recursive_partial for recursive types. Fails for recursive types with texts that have errors (C84_list, C84_fails_list: every level is parsed again) and for interfaces (C84_fails_iface). Not counted: memory moved by append and the cost of map stores."
  },
  {
   "property": "C85",
   "status": "partial",
   "theorems": [
    "JC.Props.C85_unmarshal_partial",
    "JC.Props.C85_flat_partial",
    "JC.Props.C85_enough_partial",
    "JC.Props.C85_returns_partial",
    "JC.Props.C85_plain",
    "JC.Props.C85_fails_depth",
    "JC.Props.C85_fails"
   ],
   "note": "C85_unmarshal_partial for ordinary types (conditions of C40, C79, C82), C85_flat_partial against flat structs, C85_plain against C82, C85_enough_partial (stack: one call per opening brace) and C85_returns_partial. Fails where C40 fails (C85_fails_depth: a member for which a deeper field has the same name in another branch is dropped)."
  },
  {
   "property": "C86",
   "status": "partial",
   "theorems": [
    "JC.Props.C86_seen_partial",
    "JC.Props.C86_view_partial",
    "JC.Props.C86_settled_partial",
    "JC.Props.C86_fails_comma",
    "JC.Props.C86_fails_omitempty",
    "JC.Props.C86_fails_depth",
    "JC.Props.C86_fails"
   ],
   "note": "C86_seen_partial: exactly what is written for ordinary types, with roll-backs and the test for omitempty at the pointer; C86_view_partial and C86_settled_partial: it is Go's rule if nil embedded pointers come first (or are set) and the test answers as for the field. Fails for a nil pointer that comes later (C86_fails_comma), omitempty behind a pointer (C86_fails_omitempty) and where C40 fails (C86_fails_depth)."
  },
  {
   "property": "C87",
   "status": "partial",
   "theorems": [
    "JC.Props.C87_decode_partial",
    "JC.Props.C87_zero",
    "JC.Props.C87_encode_partial",
    "JC.Props.C87_roundtrip_partial",
    "JC.Props.C87_flat_unique",
    "JC.Props.C87_fails_nil",
    "JC.Props.C87_fails",
    "JC.Props.C87_fails_unexported"
   ],
   "note": "C87_decode_partial, C87_encode_partial: the same as for the flat type, for ordinary types; C87_roundtrip_partial: what is written comes back. Missing: embedded pointers to unexported types (C87_fails_unexported) and variables with nil embedded pointers when written (C87_fails_nil), where the statement is false."
  },
  {
   "property": "C88",
   "status": "proved",
   "theorems": [
    "JC.Props.C88_square",
    "JC.Props.C88_concrete",
    "JC.Props.C88_program",
    "JC.Props.C88_new",
    "JC.Props.C88_list"
   ],
   "note": "C88_square for types within bounds, C88_concrete without interfaces for every destination, C88_program for all types of a program however often written out, C88_new for new variables; C88_list shows that the square is met. Not counted: memory moved by append and the cost of map stores."
  },
  {
   "property": "C89",
   "status": "partial",
   "theorems": [
    "JC.Props.C89_texts_partial",
    "JC.Props.C89_stream",
    "JC.Props.C89_roundtrip_partial",
    "JC.Props.C89_fails_number",
    "JC.Props.C89_fails",
    "JC.Props.C89_fails_escape"
   ],
   "note": "C89_stream: the output is a stream, for all sequences of calls. C89_texts_partial, C89_roundtrip_partial: it is read back if it fits the first buffer of 32768 bytes, or holds no number at the top level and no \\u escape behind an escaped quote. False for longer output: C89_fails_number (12 comes back as 1 without an error), C89_fails_escape."
  },
  {
   "property": "C90",
   "status": "partial",
   "theorems": [
    "JC.Props.C90_pieces",
    "JC.Props.C90_stream_partial",
    "JC.Props.C90_decode",
    "JC.Props.C90_buffered",
    "JC.Props.C90_ends",
    "JC.Props.C90_waits",
    "JC.Props.C90_waits_first",
    "JC.Props.C90_waits_again",
    "JC.Props.C90_fails",
    "JC.Props.C90_full_partial",
    "JC.Props.C90_dialogue_partial"
   ],
   "note": "C90_pieces, C90_stream_partial: pieces do not matter. C90_buffered, C90_ends. C90_full_partial: a value is returned once 32768 bytes have been received. False before that: C90_waits_first, C90_waits_again, C90_fails: readValue calls io.ReadFull with the whole buffer, so a value shorter than 32768 bytes is returned only when the other side closes the connection; C90_dialogue_partial: a dialogue through Encoder and Decoder halts."
  },
  {
   "property": "C91",
   "status": "proved",
   "theorems": [
    "JC.Props.C91_next",
    "JC.Props.C91_token",
    "JC.Props.C91_calls",
    "JC.Props.C91_linear"
   ],
   "note": "C91_next: the counting twin returns what the Tokenizer returns. C91_token, C91_calls, C91_linear (13 steps a byte and 17 more). Growing the stack is not counted."
  },
  {
   "property": "C92",
   "status": "partial",
   "theorems": [
    "JC.Props.C92_refines",
    "JC.Props.C92_separate",
    "JC.Props.C92_fresh",
    "JC.Props.C92_copy_partial",
    "JC.Props.C92_new",
    "JC.Props.C92_reset",
    "JC.Props.C92_fails_copy",
    "JC.Props.C92_fails",
    "JC.Props.C92_restore_partial",
    "JC.Props.C92_home",
    "JC.Props.C92_fails_restore",
    "JC.Props.C92_fails_lookahead"
   ],
   "note": "C92_refines: the stack in memory refines the list of Model/Token.lean. C92_separate, C92_fresh: Tokenizers that share no memory, in any order. C92_new, C92_reset: a new or reset Tokenizer shares with none. C92_copy_partial: copies made before the first bracket. C92_restore_partial, C92_home: saving and going back, with at most eight open brackets. False otherwise: C92_fails_copy (a lookahead by a copy ends the original in the middle of a valid text with a nil Err), C92_fails_restore (wrong Index inside nine arrays)."
  },
  {
   "property": "C93",
   "status": "proved",
   "theorems": [
    "JC.Props.C93_size",
    "JC.Props.C93_marshal",
    "JC.Props.C93_encode",
    "JC.Props.C93_tight",
    "JC.Props.C93_square",
    "JC.Props.C93_not_linear"
   ],
   "note": "C93_size: enc with any options; C93_marshal: six bytes a unit; C93_encode: what a call of Encode writes. C93_tight: six is needed. C93_square, C93_not_linear: with indentation the length of a line counts, so that no fixed number is enough. Of encoding/json.Indent, used with TrustRawMessage only, it is assumed that it writes at most one line for each byte (IndentLib)."
  },
  {
   "property": "C94",
   "status": "proved",
   "theorems": [
    "JC.Props.C94_es6",
    "JC.Props.C94_value",
    "JC.Props.C94_injective",
    "JC.Props.C94_cutoff",
    "JC.Props.C94_length",
    "JC.Props.C94_empty"
   ],
   "note": "C94_es6, C94_value, C94_injective, C94_cutoff, C94_length, C94_empty. The shortest decimal that strconv computes is given (Dec10); the choice of the format, the layout of AppendFloat in both formats and the cleanup of the exponent are modelled. ECMAScript writes 0 for the negative zero, the library -0 (as encoding/json does); Es6 keeps the sign."
  },
  {
   "property": "C95",
   "status": "proved",
   "theorems": [
    "JC.Props.C95_work",
    "JC.Props.C95_unsorted",
    "JC.Props.C95_marshal",
    "JC.Props.C95_counted",
    "JC.Props.C95_square"
   ],
   "note": "C95_work: any options; C95_unsorted: without SortMapKeys the sort library is not called; C95_marshal: sixty steps a unit. C95_counted: every byte appended is a step, so that the count does not leave out what is written. C95_square: with indentation the work of slices in slices is at least the square of their number, as C93_square. Steps are counted by a function beside each encoding function (Model/EncodeWork.lean); append is taken at its amortised cost, what the sort library takes is given, the methods of values are not counted, and strconv, base64 and encoding/json.Indent take a step a byte."
  },
  {
   "property": "C96",
   "status": "proved",
   "theorems": [
    "JC.Props.C96_typed",
    "JC.Props.C96_new",
    "JC.Props.C96_any",
    "JC.Props.C96_type_matters",
    "JC.Props.C96_three"
   ],
   "note": "C96_typed: any type and contents, with the types that pointers in interfaces lead to; C96_new: a new variable; C96_any: three for each byte into interface{}. C96_three: two are not enough. C96_type_matters: no number is enough for all types, since one null makes an element of any size. Counted are values, elements, entries, pointers, interfaces and bytes; spare memory of slices that holds nothing and what the methods of destinations make is not."
  },
  {
   "property": "C97",
   "status": "partial",
   "theorems": [
    "JC.Props.C97_where_partial",
    "JC.Props.C97_json",
    "JC.Props.C97_length",
    "JC.Props.C97_first",
    "JC.Props.C97_unmarshal",
    "JC.Props.C97_offset",
    "JC.Props.C97_fails_offset",
    "JC.Props.C97_fails_end",
    "JC.Props.C97_fails_utf8",
    "JC.Props.C97_fails_words"
   ],
   "note": "C97_where_partial: the place; C97_first: the first byte that cannot stand where it does is not before it; C97_json: there is an error exactly when the text is not JSON; C97_length: length and what is quoted; C97_unmarshal: the model agrees with Unmarshal into a RawMessage. Missing: Offset is never set (C97_offset, C97_fails_offset). Also C97_fails_end: an early end is reported for texts that cannot be continued; C97_fails_utf8: a character may be cut; C97_fails_words: the message for arrays speaks of objects. Errors of destinations that do not take every value are not in the model."
  },
  {
   "property": "C98",
   "status": "partial",
   "theorems": [
    "JC.Props.C98_erases",
    "JC.Props.C98_about_partial",
    "JC.Props.C98_alone",
    "JC.Props.C98_long",
    "JC.Props.C98_short",
    "JC.Props.C98_integer",
    "JC.Props.C98_no_integer",
    "JC.Props.C98_over_partial",
    "JC.Props.C98_fails_value",
    "JC.Props.C98_fails_over",
    "JC.Props.C98_fails_type",
    "JC.Props.C98_list_erases",
    "JC.Props.C98_list_partial",
    "JC.Props.C98_list_long",
    "JC.Props.C98_fails_list"
   ],
   "note": "C98_erases: the model is that of C10 and the decoders with the error added; C98_about_partial: what the error is about and which type it names; C98_alone, C98_long: exactly the value if nothing follows or if it is long; C98_short: length; C98_integer, C98_no_integer: every case for integers; C98_over_partial: overflows. Missing: a short value is shown with what follows it (C98_fails_value), numbers with a fraction are called overflows (C98_fails_over), the error of a duration names int32 (C98_fails_type). strconv.Quote is a parameter; errors of structs are not in the model. Lists, maps with string keys and pointers, to any depth: C98_list_erases, C98_list_partial: the error is about a value at its place in the document; C98_list_long; C98_fails_list."
  },
  {
   "property": "C99",
   "status": "partial",
   "theorems": [
    "JC.Props.C99_key",
    "JC.Props.C99_int64",
    "JC.Props.C99_plain_partial",
    "JC.Props.C99_roundtrip_partial",
    "JC.Props.C99_accepts",
    "JC.Props.C99_kept",
    "JC.Props.C99_last",
    "JC.Props.C99_rejected",
    "JC.Props.C99_fails_text",
    "JC.Props.C99_fails"
   ],
   "note": "C99_key: which strings are keys; C99_int64: what a map with int64 keys takes, with the same entries; C99_plain_partial: the equivalence for texts without a backslash; C99_roundtrip_partial: with the restrictions of C38; C99_accepts, C99_kept, C99_last, C99_rejected: which objects are taken, the entries afterwards, and the error for a key that is no duration, as for C81. False in general: a duration as text, in quotation marks inside the string, is a key as well (C99_fails_text, C99_fails). Nested types with such maps (C82, C83) are not represented."
  }
 ]
}
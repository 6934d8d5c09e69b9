{
 "claims": [
  {
   "property": "C01",
   "status": "proved",
   "theorems": [
    "Amino.C01_uvarint_roundtrip",
    "Amino.C01_uvarint_wire",
    "Amino.C01_uvarint_decode_iff"
   ],
   "note": "bit-level model of encoding/binary against base-128 digits"
  },
  {
   "property": "C02",
   "status": "proved",
   "theorems": [
    "Amino.C02_varint_roundtrip",
    "Amino.C02_int8_roundtrip",
    "Amino.C02_int16_roundtrip"
   ],
   "note": ""
  },
  {
   "property": "C03",
   "status": "proved",
   "theorems": [
    "Amino.C03_uvarintSize",
    "Amino.C03_varintSize",
    "Amino.C03_byteSliceSize"
   ],
   "note": ""
  },
  {
   "property": "C04",
   "status": "proved",
   "theorems": [
    "Amino.C04_uvarint_minimal"
   ],
   "note": ""
  },
  {
   "property": "C05",
   "status": "proved",
   "theorems": [
    "Amino.C05_fixed64_roundtrip",
    "Amino.C05_fixed32_roundtrip",
    "Amino.C05_int64_roundtrip",
    "Amino.C05_int32_roundtrip",
    "Amino.C05_fixed_short"
   ],
   "note": "floats are their bit patterns, coded by the same functions"
  },
  {
   "property": "C06",
   "status": "proved",
   "theorems": [
    "Amino.C06_decoders_safe"
   ],
   "note": ""
  },
  {
   "property": "C07",
   "status": "proved",
   "theorems": [
    "Amino.C07_int8_range",
    "Amino.C07_int16_range",
    "Amino.C07_uint8_range",
    "Amino.C07_uint16_range"
   ],
   "note": ""
  },
  {
   "property": "C08",
   "status": "proved",
   "theorems": [
    "Amino.C08_bytes_roundtrip",
    "Amino.C08_bytes_truncated"
   ],
   "note": ""
  },
  {
   "property": "C09",
   "status": "proved",
   "theorems": [
    "Amino.C09_time_encode_range",
    "Amino.C09_time_roundtrip",
    "Amino.C09_time_decode_range"
   ],
   "note": "time.Time is its (Unix, Nanosecond) pair"
  },
  {
   "property": "C10",
   "status": "proved",
   "theorems": [
    "Amino.C10_key_roundtrip",
    "Amino.C10_key_range",
    "Amino.C10_key_encode_panics"
   ],
   "note": ""
  },
  {
   "property": "C11",
   "status": "proved",
   "theorems": [
    "Amino.C11_roundTrip",
    "Amino.C11_lengthPrefixed"
   ],
   "note": "for every universe of types closed under components (SpecUniv: no maps, no pointers to interfaces, no lists of lists except as [][]byte fields); interface implementations in field 1 or in lists must be structs"
  },
  {
   "property": "C12",
   "status": "proved",
   "theorems": [
    "Amino.C12_lengthPrefixed"
   ],
   "note": ""
  },
  {
   "property": "C13",
   "status": "proved",
   "theorems": [
    "Amino.C13_reencode",
    "Amino.C13_nestedTime_differs",
    "Amino.C13_idempotent"
   ],
   "note": "types without *time.Time fields and without by-value structs containing a time (C13_nestedTime_differs shows the exclusion is needed)"
  },
  {
   "property": "C14",
   "status": "proved",
   "theorems": [
    "Amino.C14_injective"
   ],
   "note": ""
  },
  {
   "property": "C15",
   "status": "proved",
   "theorems": [
    "Amino.C15_step_fits",
    "Amino.C15_step_progress",
    "Amino.C15_unmarshal_no_slide",
    "Amino.C15_unmarshalLP_no_slide"
   ],
   "note": "user methods may panic or fail, but are assumed not to raise the slide panic themselves"
  },
  {
   "property": "C16",
   "status": "partial",
   "theorems": [
    "Amino.C16_panics_partial",
    "Amino.C16_noPanic_partial",
    "Amino.C16_refuted",
    "Amino.C16_refuted_list"
   ],
   "note": "false of the code: a registered concrete type that does not implement the target interface, named by disambiguation bytes, makes reflect.Set panic (C16_refuted); also a non-nil pointer to a list as target (C16_refuted_list). Proved: these are the only panics, apart from panics of user methods."
  },
  {
   "property": "C17",
   "status": "proved",
   "theorems": [
    "Amino.C17_terminates"
   ],
   "note": "for programs with a rank (finite representation chains, no list type whose representation contains itself keyless)"
  },
  {
   "property": "C18",
   "status": "proved",
   "theorems": [
    "Amino.C18_accept",
    "Amino.C18_truncated",
    "Amino.C18_extended"
   ],
   "note": ""
  },
  {
   "property": "C19",
   "status": "proved",
   "theorems": [
    "Amino.C19_chunking",
    "Amino.C19_exact",
    "Amino.C19_sequence"
   ],
   "note": "Same result, n and rest for all readers delivering the same bytes in non-empty pieces; exact reading of messages and of sequences of messages. Behaviours beyond non-empty pieces are C56."
  },
  {
   "property": "C20",
   "status": "proved",
   "theorems": [
    "Amino.C20_consumed",
    "Amino.C20_allocated",
    "Amino.C20_accepted"
   ],
   "note": "For arbitrary readers (only the io.Reader length bound assumed): bytes consumed, buffer allocated, size of accepted messages."
  },
  {
   "property": "C21",
   "status": "partial",
   "theorems": [
    "Amino.C21_malformedIsEmpty",
    "Amino.C21_rejected_partial",
    "Amino.C21_refuted"
   ],
   "note": "Refuted: a malformed prefix is taken for length 0 (C21_malformedIsEmpty gives the exact behaviour); it is never accepted for registered types or maxSize below 10."
  },
  {
   "property": "C22",
   "status": "partial",
   "theorems": [
    "Amino.C22_extraFields_partial",
    "Amino.C22_appendedFields",
    "Amino.C22_repeatedExtra_rejected",
    "Amino.C22_acceptedBytes_refuted"
   ],
   "note": "Proved for messages written by the encoder: unknown well-formed fields with strictly increasing higher numbers are skipped, and a message of a newer struct with appended non-repeated fields reads as the older struct. Refuted with witnesses for repeated appended fields and for arbitrary accepted (not encoder-written) bytes."
  },
  {
   "property": "C23",
   "status": "partial",
   "theorems": [
    "Amino.C23_order_partial",
    "Amino.C23_time_refuted"
   ],
   "note": "Field order proved for structs whose fields are of exact types and messages with minimal varints; refuted with witnesses for time.Time fields (unread bytes of a time are re-read as outer fields)."
  },
  {
   "property": "C24",
   "status": "proved",
   "theorems": [
    "Amino.C24_chunks",
    "Amino.C24_empty"
   ],
   "note": "Each encoded field contributes a chunk that is empty exactly if the omission rule of the spec applies; the whole struct is empty exactly if all fields are omitted."
  },
  {
   "property": "C25",
   "status": "partial",
   "theorems": [
    "Amino.C25_stale_partial",
    "Amino.C25_staleLengthPrefixed_partial",
    "Amino.C25_nonNilInterface",
    "Amino.C25_skippedKept",
    "Amino.C25_fresh_partial",
    "Amino.C25_listPointer_panics"
   ],
   "note": "Independence of the target's old contents proved for all supported types; a non-nil interface target is an error and a non-nil pointer to a list panics (both proved), so the full statement is false."
  },
  {
   "property": "C26",
   "status": "proved",
   "theorems": [
    "Amino.C26_dynamicType",
    "Amino.C26_readIntoInterface",
    "Amino.C26_ambiguousPrefix"
   ],
   "note": "the registry conditions (disfix table, prefix shapes) are hypotheses of ImplOk"
  },
  {
   "property": "C27",
   "status": "partial",
   "theorems": [
    "Amino.C27_exact_partial",
    "Amino.C27_panics",
    "Amino.C27_unambiguous",
    "Amino.C27_total_partial",
    "Amino.C27_total_refuted"
   ],
   "note": "Unambiguous for every hash function for which nameToDisfix returns; exactly which bytes of the digest are returned and when there is a panic (C27_exact_partial, C27_panics). That it returns is proved when the digest has enough non-zero bytes (C27_total_partial) and refuted otherwise (C27_total_refuted)."
  },
  {
   "property": "C28",
   "status": "proved",
   "theorems": [
    "Amino.C28_prefixed",
    "Amino.C28_verified",
    "Amino.C28_stripped"
   ],
   "note": ""
  },
  {
   "property": "C29",
   "status": "proved",
   "theorems": [
    "Amino.C29_unique",
    "Amino.C29_found",
    "Amino.C29_only"
   ],
   "note": "For every sequence of registrations that succeeds."
  },
  {
   "property": "C30",
   "status": "proved",
   "theorems": [
    "Amino.C30_implementers",
    "Amino.C30_order",
    "Amino.C30_anyOrder"
   ],
   "note": "Any permutation of a successful sequence in which concrete types and interfaces are registered in any order yields the same observable registry."
  },
  {
   "property": "C31",
   "status": "proved",
   "theorems": [
    "Amino.C31_prioritised",
    "Amino.C31_encoded",
    "Amino.C31_resolved",
    "Amino.C31_decoded",
    "Amino.C31_registry"
   ],
   "note": "Conflicting implementers are written with disambiguation bytes, or only a prioritised one without; decoding resolves each header to the type it was written for."
  },
  {
   "property": "C32",
   "status": "partial",
   "theorems": [
    "Amino.C32_frozen_partial",
    "Amino.C32_goroutine_partial",
    "Amino.C32_sequential_partial",
    "Amino.C32_refuted"
   ],
   "note": "Proved for calls one after the other, and for all schedules in which no registration is past its check when Seal is called; refuted for a registration under way (C32_refuted)."
  },
  {
   "property": "C33",
   "status": "partial",
   "theorems": [
    "Amino.C33_interface_partial",
    "Amino.C33_concrete_partial",
    "Amino.C33_kept_partial",
    "Amino.C33_dupName_refuted",
    "Amino.C33_dupType_refuted",
    "Amino.C33_used_refuted",
    "Amino.C33_conflict_refuted"
   ],
   "note": "Registrations that panic before any write leave the codec unchanged; refuted for duplicate names, duplicate types, used types and conflicting prefixes."
  },
  {
   "property": "C34",
   "status": "partial",
   "theorems": [
    "Amino.C34_released_partial",
    "Amino.C34_refuted"
   ],
   "note": "Proved for programs without untagged float fields in every schedule; refuted otherwise (C34_refuted): the lock is never released."
  },
  {
   "property": "C35",
   "status": "partial",
   "theorems": [
    "Amino.C35_int_exact_partial",
    "Amino.C35_result_in_range",
    "Amino.C35_refuted"
   ],
   "note": "false for varint uint32 fields, which are truncated (C35_refuted); exact for the other nine kinds and fixed uint32"
  },
  {
   "property": "C36",
   "status": "partial",
   "theorems": [
    "Amino.C36_isolated_partial",
    "Amino.C36_resumes_partial",
    "Amino.C36_nonMinimal_refuted",
    "Amino.C36_pointerToList_refuted"
   ],
   "note": "Isolation proved for exact types with minimal lengths; refuted with witnesses for non-minimal length varints, time.Time and pointers to lists."
  },
  {
   "property": "C37",
   "status": "partial",
   "theorems": [
    "Amino.C37_roundTrip_partial",
    "Amino.C37_scalar_partial",
    "Amino.C37_zero_refuted",
    "Amino.C37_strings_refuted"
   ],
   "note": "False in general: zero scalars marshal to nothing and cannot be read back, lists of strings/bytes/interfaces are written with inner field number 0. Proved for all non-blank values of integers, bools, strings, byte strings and packed lists."
  },
  {
   "property": "C38",
   "status": "partial",
   "theorems": [
    "Amino.C38_field_partial",
    "Amino.C38_element_refuted",
    "Amino.C38_firstField_refuted",
    "Amino.C38_topLevel_refuted"
   ],
   "note": "False in field number 1, in lists of interfaces and for the top-level encoding read into an interface (witnesses, two of them silent corruption). Proved for fields with any other number."
  },
  {
   "property": "C39",
   "status": "proved",
   "theorems": [
    "Amino.C39_preserved",
    "Amino.C39_collision"
   ],
   "note": "Registering further types preserves bytes and successful decodes; C39_collision shows the hypothesis on prefixes is needed."
  },
  {
   "property": "C40",
   "status": "proved",
   "theorems": [
    "Amino.C40_writer"
   ],
   "note": "the writer is a function from the bytes of one Write call to its result"
  },
  {
   "property": "C41",
   "status": "proved",
   "theorems": [
    "Amino.C41_wire",
    "Amino.C41_split_unique"
   ],
   "note": "Encodings are sequences of well-formed protobuf fields with non-decreasing numbers, split in one way only; for supported universes whose overrides keep the wire type."
  },
  {
   "property": "C42",
   "status": "partial",
   "theorems": [
    "Amino.C42_rejected_partial",
    "Amino.C42_bytes_refuted",
    "Amino.C42_pointer_refuted"
   ],
   "note": "False for [][]byte as a value of its own, behind a pointer, or one level deeper (witnesses). Proved: every other list of lists is rejected; direct struct fields are covered by C14."
  },
  {
   "property": "C43",
   "status": "partial",
   "theorems": [
    "Amino.C43_time_partial",
    "Amino.C43_refuted"
   ],
   "note": "False for the 1970 epoch in an otherwise blank nested struct (witness). Proved for every other instant at any depth of structs nested by value in fields and lists, and for every instant in a field of the message itself."
  },
  {
   "property": "C44",
   "status": "partial",
   "theorems": [
    "Amino.C44_fields_partial",
    "Amino.C44_marshal_partial",
    "Amino.C44_unmarshal_partial",
    "Amino.C44_default_refuted",
    "Amino.C44_list_refuted",
    "Amino.C44_wireType_refuted"
   ],
   "note": "Top level and struct fields (by value, behind pointers, as list elements) proved for all values, under conditions (same wire type, same defaultness, no list type with MarshalAmino); without each of the conditions false (witnesses). The round trip through MarshalAmino and UnmarshalAmino in all positions is part of C11."
  },
  {
   "property": "C45",
   "status": "proved",
   "theorems": [
    "Amino.C45_options",
    "Amino.C45_numbers",
    "Amino.C45_stable",
    "Amino.C45_float",
    "Amino.C45_encode",
    "Amino.C45_decode",
    "Amino.C45_json_encode",
    "Amino.C45_json_decode"
   ],
   "note": "For all declaration lists and tag functions; C45_encode, C45_decode, C45_json_encode and C45_json_decode connect the parsed metadata with the models of all four struct coders."
  },
  {
   "property": "C46",
   "status": "partial",
   "theorems": [
    "Amino.C46_json_roundtrip_partial",
    "Amino.C46_json_exact_partial",
    "Amino.C46_refuted"
   ],
   "note": "Round trip proved up to the normalisation jnorm (C46_json_roundtrip_partial), identity for values JSON has an exact notation for (C46_json_exact_partial). Refuted as stated: invalid UTF-8 and nil maps change (C46_refuted). Formatting of floats is assumed (LibOk); that of times too, but this assumption is discharged in C72_json_roundtrip; types with their own MarshalJSON/UnmarshalJSON are excluded."
  },
  {
   "property": "C47",
   "status": "proved",
   "theorems": [
    "Amino.C47_json_int_written",
    "Amino.C47_json_int_read",
    "Amino.C47_json_unquoted_rejected",
    "Amino.C47_json_int_in_range"
   ],
   "note": "Written in decimal, quoted for 64 bits; every decimal read back exactly or rejected when out of range; unquoted text rejected for 64 bits; whatever is read is in range."
  },
  {
   "property": "C48",
   "status": "partial",
   "theorems": [
    "Amino.C48_refuted",
    "Amino.C48_json_float_rejected",
    "Amino.C48_json_float_partial"
   ],
   "note": "Refuted: C48_refuted (a float tagged unsafe is written but rejected on reading), and C48_json_float_rejected for all floats. With the option passed down the round trip holds (C48_json_float_partial)."
  },
  {
   "property": "C49",
   "status": "partial",
   "theorems": [
    "Amino.C49_refuted",
    "Amino.C49_json_deterministic_partial"
   ],
   "note": "Refuted for maps with two entries (C49_refuted); deterministic when all maps have at most one entry."
  },
  {
   "property": "C50",
   "status": "partial",
   "theorems": [
    "Amino.C50_refuted",
    "Amino.C50_json_iface_partial",
    "Amino.C50_json_iface_value"
   ],
   "note": "Refuted when a registered type does not implement the interface (C50_refuted). Otherwise no panic and termination for every input except a lone quote into a 64-bit integer, which has its own property."
  },
  {
   "property": "C51",
   "status": "partial",
   "theorems": [
    "Amino.C51_equal_partial",
    "Amino.C51_map_refuted",
    "Amino.C51_pointer_refuted"
   ],
   "note": "Proved for all heaps and values in which no pointer points to a nil pointer, interface or map; refuted otherwise."
  },
  {
   "property": "C52",
   "status": "partial",
   "theorems": [
    "Amino.C52_disjoint_partial",
    "Amino.C52_independent_partial",
    "Amino.C52_slice_refuted",
    "Amino.C52_map_refuted"
   ],
   "note": "Proved for values without slices and without references in maps; refuted for slices (the copy is discarded) and map values (copied shallowly)."
  },
  {
   "property": "C53",
   "status": "partial",
   "theorems": [
    "Amino.C53_refuted",
    "Amino.C53_stops_partial",
    "Amino.C53_exact_partial"
   ],
   "note": "Refuted (input 80 loops forever); proved to stop on every input whose last byte has no continuation bit, and exactly characterised in C53_exact_partial."
  },
  {
   "property": "C54",
   "status": "partial",
   "theorems": [
    "Amino.C54_refuted",
    "Amino.C54_json_wrapper_partial"
   ],
   "note": "Refuted for names containing a quote (C54_refuted); holds for names without quotes, backslashes and control characters."
  },
  {
   "property": "C55",
   "status": "proved",
   "theorems": [
    "Amino.C55_must"
   ],
   "note": ""
  },
  {
   "property": "C56",
   "status": "partial",
   "theorems": [
    "Amino.C56_exact_partial",
    "Amino.C56_eofWithPrefix_refuted",
    "Amino.C56_emptyRead_refuted"
   ],
   "note": "Refuted for end-of-file reported with the length prefix and for reads of no bytes; proved for end-of-file reported with the last bytes of the body."
  },
  {
   "property": "C57",
   "status": "partial",
   "theorems": [
    "Amino.C57_race_partial",
    "Amino.C57_sealed_partial",
    "Amino.C57_refuted"
   ],
   "note": "Locked accesses never race in any schedule, and no race once sealed; refuted for the unlocked read in encodeReflectBinaryInterface (C57_refuted)."
  },
  {
   "property": "C58",
   "status": "partial",
   "theorems": [
    "Amino.C58_count_partial",
    "Amino.C58_refuted",
    "Amino.C58_wellformed_partial",
    "Amino.C58_exact_partial",
    "Amino.C58_end"
   ],
   "note": "Refuted by eight malformed inputs. C58_exact_partial describes, in terms of the bytes alone, exactly which inputs are scanned without error, with an error, with a panic, or forever."
  },
  {
   "property": "C59",
   "status": "proved",
   "theorems": [
    "Amino.C59_original"
   ],
   "note": "For all heaps and values; user methods assumed to only allocate."
  },
  {
   "property": "C60",
   "status": "partial",
   "theorems": [
    "Amino.C60_json_no_panic_partial",
    "Amino.C60_refuted"
   ],
   "note": "Proved for every byte string except the one-byte string '\"', for types without pointers to interfaces and lists of named byte types, given that registered types implement the interfaces they are decoded into. C60_refuted: the lone quote read into an int64 panics."
  },
  {
   "property": "C61",
   "status": "partial",
   "theorems": [
    "Amino.C61_json_int64_accepted_partial",
    "Amino.C61_json_int_accepted",
    "Amino.C61_refuted"
   ],
   "note": "Exact form of everything accepted; null gives 0. C61_refuted: inside the quotes 'null' and white space are accepted too. Excluded: types with their own methods."
  },
  {
   "property": "C62",
   "status": "partial",
   "theorems": [
    "Amino.C62_json_stale_partial",
    "Amino.C62_refuted",
    "Amino.C62_null_refuted"
   ],
   "note": "Proved for old contents that agree on fields tagged omitempty and on fields not encoded, byte slices for texts in which null stands only behind a colon or alone. C62_refuted: an absent omitempty field keeps its old content. C62_null_refuted: [null] leaves the old byte."
  },
  {
   "property": "C63",
   "status": "proved",
   "theorems": [
    "Amino.C63_json_members",
    "Amino.C63_json_member_order",
    "Amino.C63_json_unknown_member"
   ],
   "note": "For struct types without methods of their own; object texts are written without white space between tokens."
  },
  {
   "property": "C64",
   "status": "proved",
   "theorems": [
    "Amino.C64_complete"
   ],
   "note": "Success means that the input is a whole number of complete fields, all of it scanned."
  },
  {
   "property": "C65",
   "status": "proved",
   "theorems": [
    "Amino.C65_json_string",
    "Amino.C65_json_string_top",
    "Amino.C65_json_string_utf8"
   ],
   "note": "Spelling relation of RFC 8259 over Unicode scalar values (Lean's UTF-8), against the string scanner and unquoter. Whatever is accepted, the variable holds well formed UTF-8."
  },
  {
   "property": "C66",
   "status": "partial",
   "theorems": [
    "Amino.C66_struct_partial",
    "Amino.C66_topLevel",
    "Amino.C66_iface",
    "Amino.C66_time_refuted"
   ],
   "note": "Proved for structs of exact fields, for all wrapped top-level values and for wrapped implementations behind interfaces. False in general: bytes a time leaves unread are taken for fields (C66_time_refuted)."
  },
  {
   "property": "C67",
   "status": "proved",
   "theorems": [
    "Amino.C67_struct",
    "Amino.C67_wrapped",
    "Amino.C67_bare"
   ],
   "note": "Relation between Go values and schema-less protobuf values, functional (means_unique); bytes equal to an independent serializer; structs, bare lists and values wrapped in field 1. Supported universes whose overrides keep the wire type (otherwise false: C44_wireType_refuted)."
  },
  {
   "property": "C68",
   "status": "proved",
   "theorems": [
    "Amino.C68_binary",
    "Amino.C68_bytes",
    "Amino.C68_json"
   ],
   "note": "The state of the codecs is derived from the histories: hypotheses mention only types, method sets and registration calls (Program, JProgram in SpecEnd), with the type restrictions of C11, C46 and C67; the value is roundTrip for binary, jnorm for JSON (see C46)."
  },
  {
   "property": "C69",
   "status": "proved",
   "theorems": [
    "Amino.C69_bare",
    "Amino.C69_prefixed"
   ],
   "note": "Size counts components and bytes of strings and byte slices. Hypotheses: bounds on zero values, field counts and pointer depth, UnmarshalAmino results linear in the representation, no UnmarshalAmino on elements of packed arrays, ranks as in C17. The buffer that UnmarshalBinaryLengthPrefixedReader allocates before reading is not part of the stored value (it is bounded by maxSize only, see C20)."
  },
  {
   "property": "C70",
   "status": "partial",
   "theorems": [
    "Amino.C70_json_space_partial",
    "Amino.C70_json_around_partial",
    "Amino.C70_refuted"
   ],
   "note": "Refuted for white space around the whole text: amino compares the raw bytes with null and looks at the first and last byte itself, so \" \\\"5\\\"\" is rejected for an int64 (also times, floats, null, types with methods). Proved: white space between tokens inside the text never matters; around the text it does not matter for registered types, nor for kinds that json.Unmarshal reads. Assumes the same of the library float parser and user UnmarshalJSON methods (LibSpace)."
  },
  {
   "property": "C71",
   "status": "proved",
   "theorems": [
    "Amino.C71_json_indent",
    "Amino.C71_json_layout",
    "Amino.C71_json_indent_roundtrip"
   ],
   "note": "json.Indent (Go 1.12) is modelled; the exact layout is C71_json_layout. Texts are compact (no white space between tokens), as MarshalJSON writes them unless a user MarshalJSON method adds white space."
  },
  {
   "property": "C72",
   "status": "partial",
   "theorems": [
    "Amino.C72_json_time_written",
    "Amino.C72_json_time_read",
    "Amino.C72_json_time_accepted_partial",
    "Amino.C72_stamp_unique",
    "Amino.C72_refuted",
    "Amino.C72_json_roundtrip"
   ],
   "note": "Written form, reading of every RFC 3339 notation in UTC, uniqueness and the round trip proved for all instants, with package time modelled. Refuted for what is accepted: hours of one digit, and fractions of more than nine digits are misread (0.0000000004 s is read as 4 ns); C72_json_time_accepted_partial gives the exact form of everything accepted."
  },
  {
   "property": "C73",
   "status": "proved",
   "theorems": [
    "Amino.C73_json_injective",
    "Amino.C73_json_exact_injective",
    "Amino.C73_json_type"
   ],
   "note": "Up to the normalisation jnorm of C46 (C73_json_injective), exactly for values with an exact notation. Same universe and library assumptions as C46."
  },
  {
   "property": "C74",
   "status": "partial",
   "theorems": [
    "Amino.C74_json_settles_partial",
    "Amino.C74_refuted"
   ],
   "note": "False for pointers to slices (C74_refuted: &[]int64{} is written as [], then as null, then is a nil pointer). Proved for types without pointers to slices; MarshalAmino must recover what UnmarshalAmino was given, and not be represented by slices or interfaces."
  },
  {
   "property": "C75",
   "status": "proved",
   "theorems": [
    "Amino.C75_olderMessage",
    "Amino.C75_pointers"
   ],
   "note": "Any appended fields whose types the codec knows; both versions registered under the same name in their codecs or both unregistered (same prefix bytes)."
  },
  {
   "property": "C76",
   "status": "proved",
   "theorems": [
    "Amino.C76_json_byName"
   ],
   "note": "For types without methods of their own, not registered (for a registered type the text also carries its name)."
  },
  {
   "property": "C77",
   "status": "proved",
   "theorems": [
    "Amino.C77_sameBytes",
    "Amino.C77_read",
    "Amino.C77_widen_refuted"
   ],
   "note": "uint8 is left out of the widenings (it is special as an element of lists). The values of appended fields are any that are not written: nil, zero numbers, false, empty strings and lists, 1970, structs of such. C77_read needs the usual assumptions of the round trip (C11) for the new types."
  },
  {
   "property": "C78",
   "status": "proved",
   "theorems": [
    "Amino.C78_writes",
    "Amino.C78_fuel"
   ],
   "note": "Success is meant up to Go's stack and memory: the theorem gives a fuel for which the encoder succeeds, and C78_fuel says that more changes nothing. The bound of 2^29 fields per struct is that of the field numbers."
  },
  {
   "property": "C79",
   "status": "partial",
   "theorems": [
    "Amino.C79_rewrite_partial",
    "Amino.C79_reread_partial",
    "Amino.C79_rewrite_refuted"
   ],
   "note": "Refuted in general (C79_rewrite_refuted). C79_rewrite_partial excludes the two tags on pointers by hypotheses (Rewritable) and covers the types of the round trip (Universe); C79_reread_partial is for structs and lists of structs."
  },
  {
   "property": "C80",
   "status": "proved",
   "theorems": [
    "Amino.C80_document",
    "Amino.C80_nil",
    "Amino.C80_unique",
    "Amino.C80_program"
   ],
   "note": "Registered names are assumed to need no escapes (PlainNames; follows from the calls by C80_program): otherwise the output is not JSON at all, see C54. Floats, times and the results of MarshalJSON are texts that are not looked into (times are C72)."
  },
  {
   "property": "C81",
   "status": "proved",
   "theorems": [
    "Amino.C81_writes",
    "Amino.C81_depth"
   ],
   "note": "Texts of floats and times and the methods of user types are parameters (times are C72); success is meant for some depth of recursion, and C81_depth gives it for all greater ones."
  },
  {
   "property": "C82",
   "status": "partial",
   "theorems": [
    "Amino.C82_json_rewrite_partial",
    "Amino.C82_time",
    "Amino.C82_float_refuted",
    "Amino.C82_named_bytes_refuted"
   ],
   "note": "Refuted for lists of floats (null elements) and lists of named byte types given by value. Proved for programs meeting JRewritable: zero values can be written, byte lists are of byte itself, methods come in pairs and succeed on what was read, times ending in Z have a text (proved for the modelled library, C82_time)."
  },
  {
   "property": "C83",
   "status": "partial",
   "theorems": [
    "Amino.C83_refines",
    "Amino.C83_transfer",
    "Amino.C83_pointer",
    "Amino.C83_pointer_LP",
    "Amino.C83_alike_partial",
    "Amino.C83_writes_partial",
    "Amino.C83_json_partial",
    "Amino.C83_array_refuted",
    "Amino.C83_json_refuted",
    "Amino.C83_places_refuted"
   ],
   "note": "Refuted for arrays of named byte types (binary) and pointer methods (JSON). Proved: the encoder with addressability (encA) gives what enc gives or panics in reflect.Copy, so success by value implies the same bytes by pointer; equality in programs without such types; C83_places_refuted lists which places are addressable."
  },
  {
   "property": "C84",
   "status": "partial",
   "theorems": [
    "Amino.C84_refines",
    "Amino.C84_terminates",
    "Amino.C84_no_deadlock_partial",
    "Amino.C84_returns_partial",
    "Amino.C84_printTypes_refuted"
   ],
   "note": "Proved with the writer preference of sync.RWMutex when no type has an untagged float field (such a field leaves the lock locked, C34_refuted): no deadlock, and at most 7 steps per goroutine. Refuted for PrintTypes with a writer that uses the codec: it is called with the read lock held."
  },
  {
   "property": "C85",
   "status": "partial",
   "theorems": [
    "Amino.C85_safe_partial",
    "Amino.C85_lib",
    "Amino.C85_bytes",
    "Amino.C85_name_refuted",
    "Amino.C85_method_refuted"
   ],
   "note": "Proved if the names of registered types and what MarshalJSON methods return are safe; refuted otherwise: both are written as they are (encoding/json compacts and escapes what methods return). Times are modelled, floats are assumed to be JSON numbers."
  },
  {
   "property": "C86",
   "status": "partial",
   "theorems": [
    "Amino.C86_transcode_partial",
    "Amino.C86_same_text_partial",
    "Amino.C86_text_refuted",
    "Amino.C86_converse_refuted",
    "Amino.C86_pointer_refuted"
   ],
   "note": "Proved for values with valid UTF-8, without floats, of types whose MarshalAmino undoes UnmarshalAmino and maps zero values to zero values (pointers to such types are limited), and tags that do not combine write_empty with omitempty or pointers, nor omitempty with pointers to arrays. Refuted for invalid UTF-8 and for a pointer to an empty array tagged omitempty; the opposite direction is refuted."
  },
  {
   "property": "C87",
   "status": "partial",
   "theorems": [
    "Amino.C87_strict_partial",
    "Amino.C87_canonical_partial",
    "Amino.C87_malleable_refuted"
   ],
   "note": "The uniqueness is refuted (padded varints, explicit defaults, unknown fields). The comparison with the re-encoding and the canonical form are proved under the hypotheses of C13 and C79."
  },
  {
   "property": "C88",
   "status": "proved",
   "theorems": [
    "Amino.C88_json_preserved",
    "Amino.C88_own_registration"
   ],
   "note": "For all programs and histories. That the type itself must not be registered meanwhile is necessary (C88_own_registration)."
  },
  {
   "property": "C89",
   "status": "partial",
   "theorems": [
    "Amino.C89_cut_partial",
    "Amino.C89_eof_refuted"
   ],
   "note": "All but the last sentence is proved; io.EOF is also reported inside a message (refuted), but n is 0 exactly between messages."
  },
  {
   "property": "C90",
   "status": "partial",
   "theorems": [
    "Amino.C90_binary_partial",
    "Amino.C90_json",
    "Amino.C90_alone",
    "Amino.C90_mixed_refuted"
   ],
   "note": "Proved for JSON without restriction and for the binary calls while no two registered types share prefix bytes; with shared prefixes a message may mix both forms (refuted)."
  },
  {
   "property": "C91",
   "status": "partial",
   "theorems": [
    "Amino.C91_table_partial",
    "Amino.C91_length_refuted",
    "Amino.C91_names_refuted"
   ],
   "note": "Proved except for the Length column, which is refuted; names with | or a line feed are excluded by hypothesis (and shown to spoil the table)."
  },
  {
   "property": "C92",
   "status": "partial",
   "theorems": [
    "Amino.C92_typed",
    "Amino.C92_success",
    "Amino.C92_again_partial",
    "Amino.C92_kept_partial",
    "Amino.C92_hidden",
    "Amino.C92_half_refuted",
    "Amino.C92_trailing_refuted",
    "Amino.C92_interface_refuted",
    "Amino.C92_listPointer_refuted"
   ],
   "note": "Proved for types without interfaces outside slices, without fields that are not encoded, and other than pointers to lists; refuted for interfaces and pointers to lists. Kept contents proved for leaf types, refuted for arrays, structs and trailing bytes."
  },
  {
   "property": "C93",
   "status": "partial",
   "theorems": [
    "Amino.C93_success",
    "Amino.C93_again_partial",
    "Amino.C93_kept_partial",
    "Amino.C93_half_refuted",
    "Amino.C93_omitempty_refuted",
    "Amino.C93_interface_refuted"
   ],
   "note": "Proved: after success the variable holds the result; types without omitempty and hidden fields can be reused after any calls (with byte slices for texts with null only as a member); numbers, strings, maps, slices are kept by failing calls. The full property is refuted (C93_half_refuted, C93_omitempty_refuted, C93_interface_refuted)."
  },
  {
   "property": "C94",
   "status": "proved",
   "theorems": [
    "Amino.C94_get",
    "Amino.C94_options",
    "Amino.C94_order",
    "Amino.C94_others",
    "Amino.C94_skip",
    "Amino.C94_secret",
    "Amino.C94_comma",
    "Amino.C94_space"
   ],
   "note": "For conventional tag texts with plain values. strconv.Unquote on values with escapes is a parameter."
  },
  {
   "property": "C95",
   "status": "proved",
   "theorems": [
    "Amino.C95_json_tags",
    "Amino.C95_write_empty",
    "Amino.C95_cross",
    "Amino.C95_binary_tags",
    "Amino.C95_fixed_refuted",
    "Amino.C95_fixed_list_refuted",
    "Amino.C95_empty_elements_refuted",
    "Amino.C95_rename_refuted"
   ],
   "note": "Tags that matter are shown to matter by witnesses."
  },
  {
   "property": "C96",
   "status": "proved",
   "theorems": [
    "Amino.C96_bytes",
    "Amino.C96_listing",
    "Amino.C96_color",
    "Amino.C96_hex"
   ],
   "note": "For all inputs the last line is the input, the count and the error; for all well-formed messages the output is the listing of the fields."
  },
  {
   "property": "C97",
   "status": "proved",
   "theorems": [
    "Amino.C97_frame",
    "Amino.C97_references",
    "Amino.C97_input"
   ],
   "note": "For all memories, also with sharing and cycles, and all outcomes. User methods must keep to the region themselves (MethodsLocal)."
  },
  {
   "property": "C98",
   "status": "partial",
   "theorems": [
    "Amino.C98_unshared_partial",
    "Amino.C98_new_partial",
    "Amino.C98_shared_refuted",
    "Amino.C98_cyclic_refuted"
   ],
   "note": "For targets without shared pointers, and new variables: same outcome and contents as the decoder on values. For shared and cyclic targets the claim is false (C98_shared_refuted, C98_cyclic_refuted)."
  },
  {
   "property": "C99",
   "status": "partial",
   "theorems": [
    "Amino.C99_json_only_partial",
    "Amino.C99_methods_partial",
    "Amino.C99_refuted"
   ],
   "note": "Proved except for variables of unregistered 64-bit integer types (accepted texts) and texts that are not JSON given to unregistered types (methods), where it is false (C99_refuted)."
  },
  {
   "property": "C100",
   "status": "proved",
   "theorems": [
    "Amino.C100_bytes",
    "Amino.C100_bytes_top",
    "Amino.C100_array"
   ],
   "note": "Both directions for slices, arrays and the whole of UnmarshalJSON. The spare capacity of the slice decoded into is taken as zeros."
  },
  {
   "property": "C101",
   "status": "proved",
   "theorems": [
    "Amino.C101_accepts",
    "Amino.C101_exactly",
    "Amino.C101_unique",
    "Amino.C101_refuses"
   ],
   "note": "Both directions, with uniqueness, for variables of the right type. Floats are always refused at the top (no field option reaches them). Entries of maps are listed in the order of the text."
  },
  {
   "property": "C102",
   "status": "proved",
   "theorems": [
    "Amino.C102_exactly",
    "Amino.C102_accepts",
    "Amino.C102_unique",
    "Amino.C102_failure",
    "Amino.C102_refuses",
    "Amino.C102_prefixed"
   ],
   "note": "Soundness and completeness of the decoder for the grammar BRead, for every program and codec, every old contents; also uniqueness, refusal of everything else, and the length-prefixed form."
  },
  {
   "property": "C103",
   "status": "proved",
   "theorems": [
    "Amino.C103_binary",
    "Amino.C103_lengthPrefixed",
    "Amino.C103_json",
    "Amino.C103_sharing",
    "Amino.C103_endless",
    "Amino.C103_endless_json",
    "Amino.C103_cyclic",
    "Amino.C103_cyclic_json",
    "Amino.C103_roundTrip",
    "Amino.C103_never_returns",
    "Amino.C103_blowup"
   ],
   "note": "both encoders modelled on memory; equality with the tree encoders for all sharing; no bytes for endless values; round trip in memory; exponential size"
  },
  {
   "property": "C104",
   "status": "partial",
   "theorems": [
    "Amino.C104_frame_partial",
    "Amino.C104_references",
    "Amino.C104_input",
    "Amino.C104_bytes_refuted",
    "Amino.C104_beyond_refuted"
   ],
   "note": "Proved with the arrays behind byte slices counted as part of the target (C104_frame_partial); references and input in full (C104_references, C104_input). C104_bytes_refuted: reading a JSON array into a byte slice overwrites the array it shares with other slices, also behind its end and when the call fails. C104_beyond_refuted: null elements bring old bytes behind the end of the slice to light."
  },
  {
   "property": "C105",
   "status": "proved",
   "theorems": [
    "Amino.C105_outcome",
    "Amino.C105_separate",
    "Amino.C105_new",
    "Amino.C105_roundTrip",
    "Amino.C105_needs_noRefs"
   ],
   "note": "C105_outcome (same outcome and value as on trees), C105_separate (new memory, nothing else changed), C105_new (new variables), C105_roundTrip (with C46 and C103). C105_needs_noRefs shows that the condition on the target is needed. Sharing among the new variables is not excluded by the statement."
  },
  {
   "property": "C106",
   "status": "partial",
   "theorems": [
    "Amino.C106_cut_partial",
    "Amino.C106_plain_partial",
    "Amino.C106_between",
    "Amino.C106_cutRefused_refuted",
    "Amino.C106_json_partial",
    "Amino.C106_number_refuted"
   ],
   "note": "C106_cut_partial describes exactly what can be had from a cut message; C106_plain_partial is its reading for structs without repeated fields and byte slices; C106_between shows that cuts between fields are accepted; C106_json_partial for JSON. Refusal of all cuts is refuted (C106_cutRefused_refuted, C106_number_refuted)."
  },
  {
   "property": "C107",
   "status": "partial",
   "theorems": [
    "Amino.C107_size_partial",
    "Amino.C107_names_refuted"
   ],
   "note": "Proved for programs in which no struct has two encoded fields of the same JSON name (C107_size_partial); refuted otherwise (C107_names_refuted). Size counts components and bytes of strings and byte slices. Hypotheses: bounds on zero values, field counts and pointer depth; UnmarshalAmino adds at most a constant to the representation, UnmarshalJSON methods are linear in their text; chains of UnmarshalAmino are bounded. What json.Unmarshal allocates in between is not counted."
  },
  {
   "property": "C108",
   "status": "partial",
   "theorems": [
    "Amino.C108_order",
    "Amino.C108_reading_partial",
    "Amino.C108_keys_refuted"
   ],
   "note": "C108_order is proved for all programs whose methods do not look at map order. Reading (C108_reading_partial) for the universe of C46 and values whose map keys are valid UTF-8; refuted for other keys (C108_keys_refuted)."
  },
  {
   "property": "C109",
   "status": "proved",
   "theorems": [
    "Amino.C109_exact",
    "Amino.C109_panics",
    "Amino.C109_own",
    "Amino.C109_pointer",
    "Amino.C109_none",
    "Amino.C109_promoted",
    "Amino.C109_ambiguous",
    "Amino.C109_pointer_refuted",
    "Amino.C109_mixed_refuted",
    "Amino.C109_embedded_refuted"
   ],
   "note": "For all declarations, given that reflect follows the rules of the language for method sets. The C109_*_refuted theorems are the part of the statement that says what is not guaranteed."
  },
  {
   "property": "C110",
   "status": "partial",
   "theorems": [
    "Amino.C110_roundtrip_partial",
    "Amino.C110_none",
    "Amino.C110_pointer_refuted"
   ],
   "note": "For methods MarshalJSON that the value itself has and that obey the law JMethods. Refuted for pointer receivers (C110_pointer_refuted)."
  },
  {
   "property": "C111",
   "status": "partial",
   "theorems": [
    "Amino.C111_same_marshal",
    "Amino.C111_same_unmarshal",
    "Amino.C111_roundtrip_partial",
    "Amino.C111_int64_refuted",
    "Amino.C111_reads",
    "Amino.C111_float"
   ],
   "note": "Round trip for kinds other than 64-bit integers, for which it is refuted (C111_int64_refuted). What is read is exact for these kinds (C111_reads). Floats with text methods: refused without a tag (C111_float); with a tag they are left out."
  },
  {
   "property": "C112",
   "status": "proved",
   "theorems": [
    "Amino.C112_other",
    "Amino.C112_named_written",
    "Amino.C112_named_unread",
    "Amino.C112_named_refuted",
    "Amino.C112_method_refuted"
   ],
   "note": "All parts of the statement, for types without other methods at the top level; C112_named_refuted and C112_method_refuted are part of the statement."
  },
  {
   "property": "C113",
   "status": "partial",
   "theorems": [
    "Amino.C113_deepcopy",
    "Amino.C113_deepcopy_pointer",
    "Amino.C113_amino_partial",
    "Amino.C113_amino_error",
    "Amino.C113_slice_refuted",
    "Amino.C113_field_refuted",
    "Amino.C113_codec",
    "Amino.C113_none",
    "Amino.C113_value_refuted",
    "Amino.C113_pointer_refuted",
    "Amino.C113_embedded_refuted"
   ],
   "note": "For methods DeepCopy, and for pointers to types with MarshalAmino and UnmarshalAmino; the rest of the statement is refuted by the code (C113_slice_refuted and C113_field_refuted in general, C113_value_refuted, C113_pointer_refuted, C113_embedded_refuted by witnesses)."
  },
  {
   "property": "C114",
   "status": "partial",
   "theorems": [
    "Amino.C114_bare_partial",
    "Amino.C114_lengthPrefixed_partial",
    "Amino.C114_json_partial",
    "Amino.C114_codec",
    "Amino.C114_memory_partial",
    "Amino.C114_shared_refuted",
    "Amino.C114_methods_refuted"
   ],
   "note": "Linear bound proved for values written out as trees, with explicit constants, for methods that do not duplicate; the claim for the size in memory is false for shared variables, and for MarshalAmino methods that return their receiver twice (both refuted with witnesses of exponential size)."
  },
  {
   "property": "C115",
   "status": "partial",
   "theorems": [
    "Amino.C115_pointer",
    "Amino.C115_nonpointer",
    "Amino.C115_nil_bare",
    "Amino.C115_nil_partial",
    "Amino.C115_nil_json_partial",
    "Amino.C115_marshal",
    "Amino.C115_reader_reads",
    "Amino.C115_reader_pointer",
    "Amino.C115_reader_partial",
    "Amino.C115_nil_refuted",
    "Amino.C115_reader_refuted"
   ],
   "note": "Errors for targets that are not pointers proved for all inputs; for nil pointers the exact condition for the panic is proved. The claim as documented is refuted: a wrong length prefix gives an error and no panic for nil pointers, and the reader form takes the message out of the stream before it refuses the target."
  },
  {
   "property": "C116",
   "status": "partial",
   "theorems": [
    "Amino.C116_message_partial",
    "Amino.C116_registered_partial",
    "Amino.C116_delimited_partial",
    "Amino.C116_one",
    "Amino.C116_order_refuted",
    "Amino.C116_twice_refuted",
    "Amino.C116_unpacked_refuted",
    "Amino.C116_digits_refuted"
   ],
   "note": "Proved for serializations with the fields in order, each given once, numbers packed, and no superfluous digits in the counts of messages, timestamps and packed lists, nor in booleans. The full claim is refuted for each of these four liberties. Interfaces, maps, arrays and types with UnmarshalAmino are not among protobuf's types and left out; pointers are included."
  },
  {
   "property": "C117",
   "status": "proved",
   "theorems": [
    "Amino.C117_bare",
    "Amino.C117_prefixed",
    "Amino.C117_counted",
    "Amino.C117_square_reached"
   ],
   "note": "The counted steps are the calls, loop iterations and copied bytes of an instrumented copy of the decoder; making zero values, growing slices and methods of users are not counted. C117_counted shows that the count does not miss bytes."
  },
  {
   "property": "C118",
   "status": "proved",
   "theorems": [
    "Amino.C118_bare",
    "Amino.C118_lengthPrefixed",
    "Amino.C118_nesting",
    "Amino.C118_counted",
    "Amino.C118_square_reached"
   ],
   "note": "The counted steps are the calls, loop iterations and written bytes of an instrumented copy of the encoder; growing of buffers, the copy of byte arrays without address and methods of users are not counted. C118_counted shows that the count does not miss bytes of the result."
  },
  {
   "property": "C119",
   "status": "partial",
   "theorems": [
    "Amino.C119_flags",
    "Amino.C119_scan_partial",
    "Amino.C119_scan_ends",
    "Amino.C119_color",
    "Amino.C119_usage",
    "Amino.C119_name",
    "Amino.C119_digest",
    "Amino.C119_exit",
    "Amino.C119_behind_flags_refuted",
    "Amino.C119_help_refuted"
   ],
   "note": "Flag grammar, scanning of the first argument and for which bytes a result is printed, colored bytes, disfix bytes, usages and the exits proved. Refuted: bytes behind flags or -- are not scanned (panic), --help does not print the help."
  },
  {
   "property": "C120",
   "status": "partial",
   "theorems": [
    "Amino.C120_length",
    "Amino.C120_begins_partial",
    "Amino.C120_message",
    "Amino.C120_prefixed",
    "Amino.C120_tells",
    "Amino.C120_reads",
    "Amino.C120_disamb",
    "Amino.C120_short_refuted"
   ],
   "note": "Proved for messages of registered types, bare or length-prefixed, and byte strings of at least four bytes; refuted for shorter ones, which NewPrefixBytes fills up with zero bytes (C120_short_refuted)."
  },
  {
   "property": "C121",
   "status": "partial",
   "theorems": [
    "Amino.C121_struct_partial",
    "Amino.C121_registered_refuted"
   ],
   "note": "Proved for the bytes of struct messages behind the prefix, so for all messages of types that are not registered; refuted for registered types (C121_registered_refuted)."
  }
 ]
}
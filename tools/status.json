{
"C01": [
"proved",
"bit-level model of encoding/binary against base-128 digits"
],
"C02": [
"proved",
""
],
"C03": [
"proved",
""
],
"C04": [
"proved",
""
],
"C05": [
"proved",
"floats are their bit patterns, coded by the same functions"
],
"C06": [
"proved",
""
],
"C07": [
"proved",
""
],
"C08": [
"proved",
""
],
"C09": [
"proved",
"time.Time is its (Unix, Nanosecond) pair"
],
"C10": [
"proved",
""
],
"C100": [
"proved",
"Both directions for slices, arrays and the whole of UnmarshalJSON. The spare capacity of the slice decoded into is taken as zeros."
],
"C101": [
"proved",
"Both directions, with uniqueness, for variables of the right type. Floats are always refused at the top (no field option reaches them). Entries of maps are listed in the order of the text."
],
"C102": [
"proved",
"Soundness and completeness of the decoder for the grammar BRead, for every program and codec, every old contents; also uniqueness, refusal of everything else, and the length-prefixed form."
],
"C103": [
"proved",
"both encoders modelled on memory; equality with the tree encoders for all sharing; no bytes for endless values; round trip in memory; exponential size"
],
"C104": [
"partial",
"Proved with the arrays behind byte slices counted as part of the target (C104_frame_partial); references and input in full (C104_references, C104_input). C104_bytes_refuted: reading a JSON array into a byte slice overwrites the array it shares with other slices, also behind its end and when the call fails. C104_beyond_refuted: null elements bring old bytes behind the end of the slice to light."
],
"C105": [
"proved",
"C105_outcome (same outcome and value as on trees), C105_separate (new memory, nothing else changed), C105_new (new variables), C105_roundTrip (with C46 and C103). C105_needs_noRefs shows that the condition on the target is needed. Sharing among the new variables is not excluded by the statement."
],
"C106": [
"partial",
"C106_cut_partial describes exactly what can be had from a cut message; C106_plain_partial is its reading for structs without repeated fields and byte slices; C106_between shows that cuts between fields are accepted; C106_json_partial for JSON. Refusal of all cuts is refuted (C106_cutRefused_refuted, C106_number_refuted)."
],
"C107": [
"partial",
"Proved for programs in which no struct has two encoded fields of the same JSON name (C107_size_partial); refuted otherwise (C107_names_refuted). Size counts components and bytes of strings and byte slices. Hypotheses: bounds on zero values, field counts and pointer depth; UnmarshalAmino adds at most a constant to the representation, UnmarshalJSON methods are linear in their text; chains of UnmarshalAmino are bounded. What json.Unmarshal allocates in between is not counted."
],
"C108": [
"partial",
"C108_order is proved for all programs whose methods do not look at map order. Reading (C108_reading_partial) for the universe of C46 and values whose map keys are valid UTF-8; refuted for other keys (C108_keys_refuted)."
],
"C109": [
"proved",
"For all declarations, given that reflect follows the rules of the language for method sets. The C109_*_refuted theorems are the part of the statement that says what is not guaranteed."
],
"C11": [
"proved",
"for every universe of types closed under components (SpecUniv: no maps, no pointers to interfaces, no lists of lists except as [][]byte fields); interface implementations in field 1 or in lists must be structs"
],
"C110": [
"partial",
"For methods MarshalJSON that the value itself has and that obey the law JMethods. Refuted for pointer receivers (C110_pointer_refuted)."
],
"C111": [
"partial",
"Round trip for kinds other than 64-bit integers, for which it is refuted (C111_int64_refuted). What is read is exact for these kinds (C111_reads). Floats with text methods: refused without a tag (C111_float); with a tag they are left out."
],
"C112": [
"proved",
"All parts of the statement, for types without other methods at the top level; C112_named_refuted and C112_method_refuted are part of the statement."
],
"C113": [
"partial",
"For methods DeepCopy, and for pointers to types with MarshalAmino and UnmarshalAmino; the rest of the statement is refuted by the code (C113_slice_refuted and C113_field_refuted in general, C113_value_refuted, C113_pointer_refuted, C113_embedded_refuted by witnesses)."
],
"C114": [
"partial",
"Linear bound proved for values written out as trees, with explicit constants, for methods that do not duplicate; the claim for the size in memory is false for shared variables, and for MarshalAmino methods that return their receiver twice (both refuted with witnesses of exponential size)."
],
"C115": [
"partial",
"Errors for targets that are not pointers proved for all inputs; for nil pointers the exact condition for the panic is proved. The claim as documented is refuted: a wrong length prefix gives an error and no panic for nil pointers, and the reader form takes the message out of the stream before it refuses the target."
],
"C116": [
"partial",
"Proved for serializations with the fields in order, each given once, numbers packed, and no superfluous digits in the counts of messages, timestamps and packed lists, nor in booleans. The full claim is refuted for each of these four liberties. Interfaces, maps, arrays and types with UnmarshalAmino are not among protobuf's types and left out; pointers are included."
],
"C117": [
"proved",
"The counted steps are the calls, loop iterations and copied bytes of an instrumented copy of the decoder; making zero values, growing slices and methods of users are not counted. C117_counted shows that the count does not miss bytes."
],
"C118": [
"proved",
"The counted steps are the calls, loop iterations and written bytes of an instrumented copy of the encoder; growing of buffers, the copy of byte arrays without address and methods of users are not counted. C118_counted shows that the count does not miss bytes of the result."
],
"C119": [
"partial",
"Flag grammar, scanning of the first argument and for which bytes a result is printed, colored bytes, disfix bytes, usages and the exits proved. Refuted: bytes behind flags or -- are not scanned (panic), --help does not print the help."
],
"C12": [
"proved",
""
],
"C120": [
"partial",
"Proved for messages of registered types, bare or length-prefixed, and byte strings of at least four bytes; refuted for shorter ones, which NewPrefixBytes fills up with zero bytes (C120_short_refuted)."
],
"C121": [
"partial",
"Proved for the bytes of struct messages behind the prefix, so for all messages of types that are not registered; refuted for registered types (C121_registered_refuted)."
],
"C13": [
"proved",
"types without *time.Time fields and without by-value structs containing a time (C13_nestedTime_differs shows the exclusion is needed)"
],
"C14": [
"proved",
""
],
"C15": [
"proved",
"user methods may panic or fail, but are assumed not to raise the slide panic themselves"
],
"C16": [
"partial",
"false of the code: a registered concrete type that does not implement the target interface, named by disambiguation bytes, makes reflect.Set panic (C16_refuted); also a non-nil pointer to a list as target (C16_refuted_list). Proved: these are the only panics, apart from panics of user methods."
],
"C17": [
"proved",
"for programs with a rank (finite representation chains, no list type whose representation contains itself keyless)"
],
"C18": [
"proved",
""
],
"C19": [
"proved",
"Same result, n and rest for all readers delivering the same bytes in non-empty pieces; exact reading of messages and of sequences of messages. Behaviours beyond non-empty pieces are C56."
],
"C20": [
"proved",
"For arbitrary readers (only the io.Reader length bound assumed): bytes consumed, buffer allocated, size of accepted messages."
],
"C21": [
"partial",
"Refuted: a malformed prefix is taken for length 0 (C21_malformedIsEmpty gives the exact behaviour); it is never accepted for registered types or maxSize below 10."
],
"C22": [
"partial",
"Proved for messages written by the encoder: unknown well-formed fields with strictly increasing higher numbers are skipped, and a message of a newer struct with appended non-repeated fields reads as the older struct. Refuted with witnesses for repeated appended fields and for arbitrary accepted (not encoder-written) bytes."
],
"C23": [
"partial",
"Field order proved for structs whose fields are of exact types and messages with minimal varints; refuted with witnesses for time.Time fields (unread bytes of a time are re-read as outer fields)."
],
"C24": [
"proved",
"Each encoded field contributes a chunk that is empty exactly if the omission rule of the spec applies; the whole struct is empty exactly if all fields are omitted."
],
"C25": [
"partial",
"Independence of the target's old contents proved for all supported types; a non-nil interface target is an error and a non-nil pointer to a list panics (both proved), so the full statement is false."
],
"C26": [
"proved",
"the registry conditions (disfix table, prefix shapes) are hypotheses of ImplOk"
],
"C27": [
"partial",
"Unambiguous for every hash function for which nameToDisfix returns; exactly which bytes of the digest are returned and when there is a panic (C27_exact_partial, C27_panics). That it returns is proved when the digest has enough non-zero bytes (C27_total_partial) and refuted otherwise (C27_total_refuted)."
],
"C28": [
"proved",
""
],
"C29": [
"proved",
"For every sequence of registrations that succeeds."
],
"C30": [
"proved",
"Any permutation of a successful sequence in which concrete types and interfaces are registered in any order yields the same observable registry."
],
"C31": [
"proved",
"Conflicting implementers are written with disambiguation bytes, or only a prioritised one without; decoding resolves each header to the type it was written for."
],
"C32": [
"partial",
"Proved for calls one after the other, and for all schedules in which no registration is past its check when Seal is called; refuted for a registration under way (C32_refuted)."
],
"C33": [
"partial",
"Registrations that panic before any write leave the codec unchanged; refuted for duplicate names, duplicate types, used types and conflicting prefixes."
],
"C34": [
"partial",
"Proved for programs without untagged float fields in every schedule; refuted otherwise (C34_refuted): the lock is never released."
],
"C35": [
"partial",
"false for varint uint32 fields, which are truncated (C35_refuted); exact for the other nine kinds and fixed uint32"
],
"C36": [
"partial",
"Isolation proved for exact types with minimal lengths; refuted with witnesses for non-minimal length varints, time.Time and pointers to lists."
],
"C37": [
"partial",
"False in general: zero scalars marshal to nothing and cannot be read back, lists of strings/bytes/interfaces are written with inner field number 0. Proved for all non-blank values of integers, bools, strings, byte strings and packed lists."
],
"C38": [
"partial",
"False in field number 1, in lists of interfaces and for the top-level encoding read into an interface (witnesses, two of them silent corruption). Proved for fields with any other number."
],
"C39": [
"proved",
"Registering further types preserves bytes and successful decodes; C39_collision shows the hypothesis on prefixes is needed."
],
"C40": [
"proved",
"the writer is a function from the bytes of one Write call to its result"
],
"C41": [
"proved",
"Encodings are sequences of well-formed protobuf fields with non-decreasing numbers, split in one way only; for supported universes whose overrides keep the wire type."
],
"C42": [
"partial",
"False for [][]byte as a value of its own, behind a pointer, or one level deeper (witnesses). Proved: every other list of lists is rejected; direct struct fields are covered by C14."
],
"C43": [
"partial",
"False for the 1970 epoch in an otherwise blank nested struct (witness). Proved for every other instant at any depth of structs nested by value in fields and lists, and for every instant in a field of the message itself."
],
"C44": [
"partial",
"Top level and struct fields (by value, behind pointers, as list elements) proved for all values, under conditions (same wire type, same defaultness, no list type with MarshalAmino); without each of the conditions false (witnesses). The round trip through MarshalAmino and UnmarshalAmino in all positions is part of C11."
],
"C45": [
"proved",
"For all declaration lists and tag functions; C45_encode, C45_decode, C45_json_encode and C45_json_decode connect the parsed metadata with the models of all four struct coders."
],
"C46": [
"partial",
"Round trip proved up to the normalisation jnorm (C46_json_roundtrip_partial), identity for values JSON has an exact notation for (C46_json_exact_partial). Refuted as stated: invalid UTF-8 and nil maps change (C46_refuted). Formatting of floats is assumed (LibOk); that of times too, but this assumption is discharged in C72_json_roundtrip; types with their own MarshalJSON/UnmarshalJSON are excluded."
],
"C47": [
"proved",
"Written in decimal, quoted for 64 bits; every decimal read back exactly or rejected when out of range; unquoted text rejected for 64 bits; whatever is read is in range."
],
"C48": [
"partial",
"Refuted: C48_refuted (a float tagged unsafe is written but rejected on reading), and C48_json_float_rejected for all floats. With the option passed down the round trip holds (C48_json_float_partial)."
],
"C49": [
"partial",
"Refuted for maps with two entries (C49_refuted); deterministic when all maps have at most one entry."
],
"C50": [
"partial",
"Refuted when a registered type does not implement the interface (C50_refuted). Otherwise no panic and termination for every input except a lone quote into a 64-bit integer, which has its own property."
],
"C51": [
"partial",
"Proved for all heaps and values in which no pointer points to a nil pointer, interface or map; refuted otherwise."
],
"C52": [
"partial",
"Proved for values without slices and without references in maps; refuted for slices (the copy is discarded) and map values (copied shallowly)."
],
"C53": [
"partial",
"Refuted (input 80 loops forever); proved to stop on every input whose last byte has no continuation bit, and exactly characterised in C53_exact_partial."
],
"C54": [
"partial",
"Refuted for names containing a quote (C54_refuted); holds for names without quotes, backslashes and control characters."
],
"C55": [
"proved",
""
],
"C56": [
"partial",
"Refuted for end-of-file reported with the length prefix and for reads of no bytes; proved for end-of-file reported with the last bytes of the body."
],
"C57": [
"partial",
"Locked accesses never race in any schedule, and no race once sealed; refuted for the unlocked read in encodeReflectBinaryInterface (C57_refuted)."
],
"C58": [
"partial",
"Refuted by eight malformed inputs. C58_exact_partial describes, in terms of the bytes alone, exactly which inputs are scanned without error, with an error, with a panic, or forever."
],
"C59": [
"proved",
"For all heaps and values; user methods assumed to only allocate."
],
"C60": [
"partial",
"Proved for every byte string except the one-byte string '\"', for types without pointers to interfaces and lists of named byte types, given that registered types implement the interfaces they are decoded into. C60_refuted: the lone quote read into an int64 panics."
],
"C61": [
"partial",
"Exact form of everything accepted; null gives 0. C61_refuted: inside the quotes 'null' and white space are accepted too. Excluded: types with their own methods."
],
"C62": [
"partial",
"Proved for old contents that agree on fields tagged omitempty and on fields not encoded, byte slices for texts in which null stands only behind a colon or alone. C62_refuted: an absent omitempty field keeps its old content. C62_null_refuted: [null] leaves the old byte."
],
"C63": [
"proved",
"For struct types without methods of their own; object texts are written without white space between tokens."
],
"C64": [
"proved",
"Success means that the input is a whole number of complete fields, all of it scanned."
],
"C65": [
"proved",
"Spelling relation of RFC 8259 over Unicode scalar values (Lean's UTF-8), against the string scanner and unquoter. Whatever is accepted, the variable holds well formed UTF-8."
],
"C66": [
"partial",
"Proved for structs of exact fields, for all wrapped top-level values and for wrapped implementations behind interfaces. False in general: bytes a time leaves unread are taken for fields (C66_time_refuted)."
],
"C67": [
"proved",
"Relation between Go values and schema-less protobuf values, functional (means_unique); bytes equal to an independent serializer; structs, bare lists and values wrapped in field 1. Supported universes whose overrides keep the wire type (otherwise false: C44_wireType_refuted)."
],
"C68": [
"proved",
"The state of the codecs is derived from the histories: hypotheses mention only types, method sets and registration calls (Program, JProgram in SpecEnd), with the type restrictions of C11, C46 and C67; the value is roundTrip for binary, jnorm for JSON (see C46)."
],
"C69": [
"proved",
"Size counts components and bytes of strings and byte slices. Hypotheses: bounds on zero values, field counts and pointer depth, UnmarshalAmino results linear in the representation, no UnmarshalAmino on elements of packed arrays, ranks as in C17. The buffer that UnmarshalBinaryLengthPrefixedReader allocates before reading is not part of the stored value (it is bounded by maxSize only, see C20)."
],
"C70": [
"partial",
"Refuted for white space around the whole text: amino compares the raw bytes with null and looks at the first and last byte itself, so \" \\\"5\\\"\" is rejected for an int64 (also times, floats, null, types with methods). Proved: white space between tokens inside the text never matters; around the text it does not matter for registered types, nor for kinds that json.Unmarshal reads. Assumes the same of the library float parser and user UnmarshalJSON methods (LibSpace)."
],
"C71": [
"proved",
"json.Indent (Go 1.12) is modelled; the exact layout is C71_json_layout. Texts are compact (no white space between tokens), as MarshalJSON writes them unless a user MarshalJSON method adds white space."
],
"C72": [
"partial",
"Written form, reading of every RFC 3339 notation in UTC, uniqueness and the round trip proved for all instants, with package time modelled. Refuted for what is accepted: hours of one digit, and fractions of more than nine digits are misread (0.0000000004 s is read as 4 ns); C72_json_time_accepted_partial gives the exact form of everything accepted."
],
"C73": [
"proved",
"Up to the normalisation jnorm of C46 (C73_json_injective), exactly for values with an exact notation. Same universe and library assumptions as C46."
],
"C74": [
"partial",
"False for pointers to slices (C74_refuted: &[]int64{} is written as [], then as null, then is a nil pointer). Proved for types without pointers to slices; MarshalAmino must recover what UnmarshalAmino was given, and not be represented by slices or interfaces."
],
"C75": [
"proved",
"Any appended fields whose types the codec knows; both versions registered under the same name in their codecs or both unregistered (same prefix bytes)."
],
"C76": [
"proved",
"For types without methods of their own, not registered (for a registered type the text also carries its name)."
],
"C77": [
"proved",
"uint8 is left out of the widenings (it is special as an element of lists). The values of appended fields are any that are not written: nil, zero numbers, false, empty strings and lists, 1970, structs of such. C77_read needs the usual assumptions of the round trip (C11) for the new types."
],
"C78": [
"proved",
"Success is meant up to Go's stack and memory: the theorem gives a fuel for which the encoder succeeds, and C78_fuel says that more changes nothing. The bound of 2^29 fields per struct is that of the field numbers."
],
"C79": [
"partial",
"Refuted in general (C79_rewrite_refuted). C79_rewrite_partial excludes the two tags on pointers by hypotheses (Rewritable) and covers the types of the round trip (Universe); C79_reread_partial is for structs and lists of structs."
],
"C80": [
"proved",
"Registered names are assumed to need no escapes (PlainNames; follows from the calls by C80_program): otherwise the output is not JSON at all, see C54. Floats, times and the results of MarshalJSON are texts that are not looked into (times are C72)."
],
"C81": [
"proved",
"Texts of floats and times and the methods of user types are parameters (times are C72); success is meant for some depth of recursion, and C81_depth gives it for all greater ones."
],
"C82": [
"partial",
"Refuted for lists of floats (null elements) and lists of named byte types given by value. Proved for programs meeting JRewritable: zero values can be written, byte lists are of byte itself, methods come in pairs and succeed on what was read, times ending in Z have a text (proved for the modelled library, C82_time)."
],
"C83": [
"partial",
"Refuted for arrays of named byte types (binary) and pointer methods (JSON). Proved: the encoder with addressability (encA) gives what enc gives or panics in reflect.Copy, so success by value implies the same bytes by pointer; equality in programs without such types; C83_places_refuted lists which places are addressable."
],
"C84": [
"partial",
"Proved with the writer preference of sync.RWMutex when no type has an untagged float field (such a field leaves the lock locked, C34_refuted): no deadlock, and at most 7 steps per goroutine. Refuted for PrintTypes with a writer that uses the codec: it is called with the read lock held."
],
"C85": [
"partial",
"Proved if the names of registered types and what MarshalJSON methods return are safe; refuted otherwise: both are written as they are (encoding/json compacts and escapes what methods return). Times are modelled, floats are assumed to be JSON numbers."
],
"C86": [
"partial",
"Proved for values with valid UTF-8, without floats, of types whose MarshalAmino undoes UnmarshalAmino and maps zero values to zero values (pointers to such types are limited), and tags that do not combine write_empty with omitempty or pointers, nor omitempty with pointers to arrays. Refuted for invalid UTF-8 and for a pointer to an empty array tagged omitempty; the opposite direction is refuted."
],
"C87": [
"partial",
"The uniqueness is refuted (padded varints, explicit defaults, unknown fields). The comparison with the re-encoding and the canonical form are proved under the hypotheses of C13 and C79."
],
"C88": [
"proved",
"For all programs and histories. That the type itself must not be registered meanwhile is necessary (C88_own_registration)."
],
"C89": [
"partial",
"All but the last sentence is proved; io.EOF is also reported inside a message (refuted), but n is 0 exactly between messages."
],
"C90": [
"partial",
"Proved for JSON without restriction and for the binary calls while no two registered types share prefix bytes; with shared prefixes a message may mix both forms (refuted)."
],
"C91": [
"partial",
"Proved except for the Length column, which is refuted; names with | or a line feed are excluded by hypothesis (and shown to spoil the table)."
],
"C92": [
"partial",
"Proved for types without interfaces outside slices, without fields that are not encoded, and other than pointers to lists; refuted for interfaces and pointers to lists. Kept contents proved for leaf types, refuted for arrays, structs and trailing bytes."
],
"C93": [
"partial",
"Proved: after success the variable holds the result; types without omitempty and hidden fields can be reused after any calls (with byte slices for texts with null only as a member); numbers, strings, maps, slices are kept by failing calls. The full property is refuted (C93_half_refuted, C93_omitempty_refuted, C93_interface_refuted)."
],
"C94": [
"proved",
"For conventional tag texts with plain values. strconv.Unquote on values with escapes is a parameter."
],
"C95": [
"proved",
"Tags that matter are shown to matter by witnesses."
],
"C96": [
"proved",
"For all inputs the last line is the input, the count and the error; for all well-formed messages the output is the listing of the fields."
],
"C97": [
"proved",
"For all memories, also with sharing and cycles, and all outcomes. User methods must keep to the region themselves (MethodsLocal)."
],
"C98": [
"partial",
"For targets without shared pointers, and new variables: same outcome and contents as the decoder on values. For shared and cyclic targets the claim is false (C98_shared_refuted, C98_cyclic_refuted)."
],
"C99": [
"partial",
"Proved except for variables of unregistered 64-bit integer types (accepted texts) and texts that are not JSON given to unregistered types (methods), where it is false (C99_refuted)."
]
}
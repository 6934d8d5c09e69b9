{"id": "C01", "title": "Unsigned varint round trip, self-delimiting", "statement": "For every uint64 u and every byte string rest, DecodeUvarint on (the bytes EncodeUvarint(u) writes, followed by rest) returns u, no error, and n equal to exactly the number of bytes EncodeUvarint wrote.", "quantifier": "all 2^64 values and all byte strings that may follow", "why_tests_cant": "2^64 values times unboundedly many suffixes; tests sample a handful of boundary values", "anchors": ["encoder.go:EncodeUvarint", "decoder.go:DecodeUvarint"]}
{"id": "C02", "title": "Signed (zig-zag) varint round trip for int8, int16 and int64", "statement": "For every int64 i (resp. int8, int16) and every suffix, DecodeVarint (DecodeInt8, DecodeInt16) on the bytes EncodeVarint (EncodeInt8, EncodeInt16) writes returns i and the exact number of bytes written.", "quantifier": "all values of each signed type and all suffixes", "why_tests_cant": "full 64-bit domain plus arbitrary suffixes", "anchors": ["encoder.go:EncodeVarint", "encoder.go:EncodeInt8", "encoder.go:EncodeInt16", "decoder.go:DecodeVarint", "decoder.go:DecodeInt8", "decoder.go:DecodeInt16"]}
{"id": "C03", "title": "Size functions agree with the encoders", "statement": "UvarintSize(u), VarintSize(i) and ByteSliceSize(bz) equal the number of bytes EncodeUvarint(u), EncodeVarint(i), EncodeByteSlice(bz) write; the varint sizes are always between 1 and 10.", "quantifier": "all uint64 / int64 values and all byte slices", "why_tests_cant": "UvarintSize uses a bit-length formula, the encoder a loop; agreement on samples says nothing about other bit lengths", "anchors": ["encoder.go:UvarintSize", "encoder.go:VarintSize", "encoder.go:ByteSliceSize"]}
{"id": "C04", "title": "Varint encodings are minimal", "statement": "No byte string shorter than what EncodeUvarint(u) writes is decoded to u by DecodeUvarint, and the emitted string is the only string of its length that decodes to u.", "quantifier": "all uint64 values and all byte strings", "why_tests_cant": "quantifies over every competing byte string", "anchors": ["encoder.go:EncodeUvarint", "decoder.go:DecodeUvarint"]}
{"id": "C05", "title": "Fixed-width integers and float bit patterns round trip", "statement": "EncodeInt32/Uint32/Float32 write exactly 4 bytes, EncodeInt64/Uint64/Float64 exactly 8, little-endian, and the corresponding Decode returns the same value (same bits for floats) and n=4 or 8 for every suffix; fewer bytes than that are rejected.", "quantifier": "all 32/64-bit values, all suffixes, all short inputs", "why_tests_cant": "full domains", "anchors": ["encoder.go:EncodeInt32", "encoder.go:EncodeInt64", "encoder.go:EncodeUint32", "encoder.go:EncodeUint64", "decoder.go:DecodeInt32", "decoder.go:DecodeInt64", "decoder.go:DecodeUint32", "decoder.go:DecodeUint64", "decoder.go:DecodeFloat32", "decoder.go:DecodeFloat64"]}
{"id": "C06", "title": "Primitive decoders are safe on arbitrary bytes", "statement": "Every Decode{Int8,Int16,Int32,Int64,Varint,Byte,Uint8,Uint16,Uint32,Uint64,Uvarint,Bool,Float32,Float64,Time,ByteSlice,String} call on every byte slice returns (never panics) with 0 <= n <= len(bz), and n>0 whenever it succeeds on anything but an empty Time.", "quantifier": "all byte strings", "why_tests_cant": "fuzzing only samples; a single off-by-one would later become an 'impossible slide' panic in the struct decoder", "anchors": ["decoder.go", "reflect.go:slide"]}
{"id": "C07", "title": "Narrow integers are range checked on decode", "statement": "If DecodeInt8/Int16/Uint8/Uint16 succeeds, the varint on the wire denotes exactly the returned value; a varint whose value does not fit is rejected with an error.", "quantifier": "all byte strings", "why_tests_cant": "every out-of-range wire value must be rejected", "anchors": ["decoder.go:DecodeInt8", "decoder.go:DecodeInt16", "decoder.go:DecodeUint8", "decoder.go:DecodeUint16"]}
{"id": "C08", "title": "Byte slices and strings round trip and truncation is detected", "statement": "DecodeByteSlice/DecodeString on EncodeByteSlice/EncodeString output plus any suffix returns the same bytes and exact n; on every proper prefix of that output it returns an error.", "quantifier": "all byte strings shorter than 2^63, all suffixes, all truncation points", "why_tests_cant": "every truncation point of every length", "anchors": ["encoder.go:EncodeByteSlice", "encoder.go:EncodeString", "decoder.go:DecodeByteSlice", "decoder.go:DecodeString"]}
{"id": "C09", "title": "Time round trip and range enforcement", "statement": "EncodeTime succeeds exactly on times whose Unix seconds lie in [-62135596800, 253402300800); DecodeTime on its output returns the same instant and consumes all of it; DecodeTime never returns a time outside that range or with nanoseconds outside [0,999999999].", "quantifier": "all (seconds, nanoseconds) pairs; all byte strings for the decode direction", "why_tests_cant": "the time domain has about 3*10^20 points", "anchors": ["encoder.go:EncodeTime", "decoder.go:DecodeTime", "decoder.go:decodeSeconds", "decoder.go:decodeNanos"]}
{"id": "C10", "title": "Field keys round trip", "statement": "The key bytes written for a field number below 2^29 and a Typ3 decode to the same number and Typ3 with exact n for every suffix; a key whose number is 2^29 or more is rejected.", "quantifier": "all field numbers, typ3 values, suffixes", "why_tests_cant": "2^32 keys times suffixes", "anchors": ["binary-encode.go:encodeFieldNumberAndTyp3", "binary-decode.go:decodeFieldNumberAndTyp3"]}
{"id": "C11", "title": "MarshalBinaryBare / UnmarshalBinaryBare round trip for structs", "statement": "For every struct (or repeated-struct) type built from bools, ints of every kind, unsafe floats, strings, []byte, [n]byte, time.Time, pointers, slices, arrays, nested and recursive structs, and registered interfaces holding registered struct implementations, and every value of it: if MarshalBinaryBare returns bytes, UnmarshalBinaryBare of exactly those bytes into a fresh variable succeeds and yields the value up to an explicit normalisation (empty slice -> nil, pointer to default -> nil, pointer shape of an interface value -> as registered, omitted nested struct -> Go zero value).", "quantifier": "all types in the grammar, all codecs reachable by registration, all values, unbounded depth and size", "why_tests_cant": "infinitely many types and values; gofuzz samples a fixed handful of types", "anchors": ["amino.go:MarshalBinaryBare", "amino.go:UnmarshalBinaryBare", "binary-encode.go:encodeReflectBinary", "binary-decode.go:decodeReflectBinary"]}
{"id": "C12", "title": "Length-prefixed round trip", "statement": "If MarshalBinaryLengthPrefixed(v) returns bytes then they are uvarint(len(bare)) followed by MarshalBinaryBare(v), and UnmarshalBinaryLengthPrefixed of them into a fresh variable yields the same result as UnmarshalBinaryBare of the bare bytes.", "quantifier": "all values and types (same universe as C11)", "why_tests_cant": "all sizes, all types", "anchors": ["amino.go:MarshalBinaryLengthPrefixed", "amino.go:UnmarshalBinaryLengthPrefixed"]}
{"id": "C13", "title": "Re-encoding a decoded value reproduces the bytes", "statement": "For every value v of the C11 universe with no omitted nested struct containing a time: Marshal(Unmarshal(Marshal(v))) = Marshal(v); i.e. normalisation does not change the encoding, so hashes of encodings are stable across a store/load cycle.", "quantifier": "all values in the universe", "why_tests_cant": "signature/hash stability must hold for every message", "anchors": ["amino.go:MarshalBinaryBare", "amino.go:UnmarshalBinaryBare"]}
{"id": "C14", "title": "Encoding is injective up to normalisation", "statement": "Two values of one type in the C11 universe have equal MarshalBinaryBare bytes only if their normalised forms are equal: no two semantically different messages share bytes.", "quantifier": "all pairs of values", "why_tests_cant": "collision freedom quantifies over pairs", "anchors": ["amino.go:MarshalBinaryBare"]}
{"id": "C15", "title": "The binary decoder never over-reads: no 'impossible slide'", "statement": "For every byte string, every type and every target contents, UnmarshalBinaryBare never panics with 'impossible slide', and every internal decode step reports a consumed count n with n <= number of bytes it was given.", "quantifier": "all byte strings, all types, all codec states", "why_tests_cant": "adversarial input space is unbounded", "anchors": ["binary-decode.go", "reflect.go:slide"]}
{"id": "C16", "title": "The binary decoder never panics on adversarial bytes", "statement": "For every byte string, UnmarshalBinaryBare into a type without maps, interface pointers or untagged floats returns a value or an error, never panics.", "quantifier": "all byte strings, all such types, all registered codecs", "why_tests_cant": "one panicking input is a remote crash; the space of inputs is unbounded", "anchors": ["binary-decode.go:decodeReflectBinaryInterface", "codec.go:getTypeInfoFromDisfixRlock"]}
{"id": "C17", "title": "The binary decoder terminates with bounded recursion", "statement": "For every byte string of length L and every type whose MarshalAmino/UnmarshalAmino representation chain is finite, UnmarshalBinaryBare returns, with recursion depth at most linear in L.", "quantifier": "all byte strings and types, including recursive types", "why_tests_cant": "non-termination and unbounded recursion cannot be observed by finite tests", "anchors": ["binary-decode.go:decodeReflectBinary"]}
{"id": "C18", "title": "Length-prefixed framing is exact", "statement": "UnmarshalBinaryLengthPrefixed rejects every proper prefix and every proper extension of a MarshalBinaryLengthPrefixed output, and accepts an input only if its uvarint prefix equals the number of remaining bytes.", "quantifier": "all values, all truncation points, all extensions", "why_tests_cant": "every cut and every extension of every message", "anchors": ["amino.go:UnmarshalBinaryLengthPrefixed"]}
{"id": "C19", "title": "Reader decoding depends only on the byte stream, not its chunking", "statement": "For any io.Reader that delivers the same bytes split arbitrarily into non-empty reads, UnmarshalBinaryLengthPrefixedReader gives the same result and the same n, leaves exactly the bytes after the message unread, and a concatenation of k messages is read back as the k messages in order.", "quantifier": "all chunkings (schedules) of all streams, all message sequences", "why_tests_cant": "chunkings are schedules: exponentially many", "anchors": ["amino.go:UnmarshalBinaryLengthPrefixedReader"]}
{"id": "C20", "title": "Reader honours maxSize", "statement": "With maxSize > 0, UnmarshalBinaryLengthPrefixedReader consumes at most max(maxSize,10) bytes from the reader whatever the bytes are, allocates a body of at most maxSize bytes, and succeeds only if prefix+body fit in maxSize.", "quantifier": "all byte streams, all maxSize values", "why_tests_cant": "adversarial peers choose the stream", "anchors": ["amino.go:UnmarshalBinaryLengthPrefixedReader"]}
{"id": "C21", "title": "Reader rejects malformed length prefixes", "statement": "If the length prefix on the stream is not a valid uvarint (more than 10 bytes or overflowing 64 bits), UnmarshalBinaryLengthPrefixedReader reports an error.", "quantifier": "all byte streams", "why_tests_cant": "needs all overflow patterns; the sampled tests never send one", "anchors": ["amino.go:UnmarshalBinaryLengthPrefixedReader"]}
{"id": "C22", "title": "Forward compatibility: unknown trailing fields are ignored", "statement": "If bz decodes into a struct type and extra is any sequence of well-formed fields with strictly increasing numbers above the struct's highest field number, then bz followed by extra decodes to the same value; in particular old code reads messages written with appended fields.", "quantifier": "all messages, all well-formed sequences of extra fields", "why_tests_cant": "all possible future schemas", "anchors": ["binary-decode.go:decodeReflectBinaryStruct", "binary-decode.go:consumeAny"]}
{"id": "C23", "title": "Field order is enforced", "statement": "Whenever decoding a struct succeeds, the field numbers on the wire are non-decreasing, and a number repeats only as entries of one repeated (unpacked list) field.", "quantifier": "all accepted byte strings", "why_tests_cant": "quantifies over all accepted inputs", "anchors": ["binary-decode.go:decodeReflectBinaryStruct"]}
{"id": "C24", "title": "Default values take no space", "statement": "A struct whose fields are all default (nil, zero, false, empty, 1970 time, blank nested struct; no write_empty, no float, no non-empty array) encodes to zero bytes, and in general a field contributes bytes iff it is not omitted by the stated rule.", "quantifier": "all struct types and values", "why_tests_cant": "all types", "anchors": ["binary-encode.go:encodeReflectBinaryStruct", "binary-encode.go:writeFieldIfNotEmpty", "reflect.go:isDefaultValue"]}
{"id": "C25", "title": "Decoding result does not depend on stale target contents", "statement": "Unmarshalling bytes into a variable that already holds data gives the same value as into a fresh variable, if the old data holds no non-nil interface and the type has no unexported/skipped fields; otherwise the only differences are an error for non-nil interfaces and preserved skipped fields.", "quantifier": "all byte strings, all old contents", "why_tests_cant": "all combinations of stale data and input", "anchors": ["binary-decode.go:decodeReflectBinaryStruct", "binary-decode.go:decodeReflectBinaryArray"]}
{"id": "C26", "title": "Interface values keep their dynamic type", "statement": "Encoding a registered interface holding a registered struct implementation and decoding it gives the same registered concrete type, in pointer or value form exactly as it was registered, with or without disambiguation bytes.", "quantifier": "all registries without failed registrations, all values, all prefix collisions resolved by priority lists", "why_tests_cant": "prefix collisions cannot be provoked in tests without mining sha256", "anchors": ["binary-encode.go:encodeReflectBinaryInterface", "binary-decode.go:decodeReflectBinaryInterface", "reflect.go:constructConcreteType"]}
{"id": "C27", "title": "Prefix and disambiguation bytes are unambiguous", "statement": "For every name, NameToDisfix returns prefix bytes and disambiguation bytes that do not begin with 0x00, so DecodeDisambPrefixBytes applied to (prefix ++ rest) or (00 ++ disamb ++ prefix ++ rest) returns exactly those bytes and consumes exactly 4 or 8.", "quantifier": "all names and all sha256 outputs, all suffixes", "why_tests_cant": "names with leading zero hash bytes are rare", "anchors": ["codec.go:nameToDisfix", "binary-decode.go:DecodeDisambPrefixBytes"]}
{"id": "C28", "title": "Registered types are always prefixed and the prefix is verified", "statement": "MarshalBinaryBare of a registered type starts with its 4 prefix bytes; UnmarshalBinaryBare into a registered type returns an error on every input that does not start with them.", "quantifier": "all registered types, values, inputs", "why_tests_cant": "all inputs", "anchors": ["amino.go:MarshalBinaryBare", "amino.go:UnmarshalBinaryBare"]}
{"id": "C29", "title": "Registered names and disfixes stay unique", "statement": "After any sequence of successful RegisterInterface/RegisterConcrete/Marshal/Unmarshal calls, no two registered concrete types share a name, a disfix or a Go type, and lookups by name and by disfix return the type that was registered under it.", "quantifier": "all operation histories", "why_tests_cant": "histories are unbounded", "anchors": ["codec.go:setTypeInfoNolock", "codec.go:RegisterConcrete"]}
{"id": "C30", "title": "Registration order does not matter", "statement": "After any successful history the implementers an interface knows are exactly the registered concretes whose pointer type implements it, in whatever order interfaces and concretes were registered; two successful histories with the same registrations resolve every prefix and disfix identically.", "quantifier": "all histories and permutations of them", "why_tests_cant": "n! orders", "anchors": ["codec.go:collectImplementersNolock", "codec.go:addCheckConflictsWithConcreteNolock"]}
{"id": "C31", "title": "Prefix conflicts are caught or disambiguated", "statement": "After any successful history, if two implementers of an interface share prefix bytes then both are in its priority list, encoding either writes disambiguation bytes, and decoding those returns the right one.", "quantifier": "all histories, all hash collisions", "why_tests_cant": "collisions cannot be sampled", "anchors": ["codec.go:checkConflictsInPrioNolock", "binary-encode.go:encodeReflectBinaryInterface"]}
{"id": "C32", "title": "Seal stops registration", "statement": "Once Seal has returned, no later effect of RegisterInterface/RegisterConcrete is visible, in any interleaving of goroutines.", "quantifier": "all schedules of concurrent Register and Seal calls", "why_tests_cant": "a schedule property", "anchors": ["codec.go:Seal", "codec.go:assertNotSealed", "codec.go:RegisterConcrete"]}
{"id": "C33", "title": "A failed registration leaves the codec unchanged", "statement": "If RegisterInterface or RegisterConcrete panics (conflict, duplicate name, duplicate type) and the panic is recovered, the codec behaves as if the call had not happened.", "quantifier": "all histories including failing calls", "why_tests_cant": "needs every failure point of every history", "anchors": ["codec.go:addCheckConflictsWithConcreteNolock", "codec.go:setTypeInfoNolock"]}
{"id": "C34", "title": "A recovered panic does not wedge the codec", "statement": "If any codec call panics and the panic is recovered, later calls on the codec still return (the codec mutex is released).", "quantifier": "all histories with recovered panics", "why_tests_cant": "deadlock after a panic is not observable by unit tests that stop at the panic", "anchors": ["codec.go:getTypeInfoWlock", "codec.go:newTypeInfoUnregistered", "reflect.go:checkUnsafe"]}
{"id": "C35", "title": "Integers that do not fit the field are rejected", "statement": "Decoding a struct field of integer kind succeeds only if the wire value is in the range of the Go type, and then the field holds exactly that value.", "quantifier": "all byte strings, all ten integer kinds, fixed and varint", "why_tests_cant": "all wire values", "anchors": ["binary-decode.go:decodeReflectBinary"]}
{"id": "C36", "title": "Nested messages are isolated", "statement": "Bytes inside a length-delimited field are never interpreted as fields of the enclosing message: the enclosing decoder resumes exactly after the declared length.", "quantifier": "all byte strings and types", "why_tests_cant": "type confusion depends on adversarial lengths", "anchors": ["binary-decode.go:decodeReflectBinaryStruct", "binary-decode.go:decodeReflectBinarySlice", "decoder.go:DecodeTime"]}
{"id": "C37", "title": "Top-level non-struct values round trip", "statement": "For every value of a non-struct type (ints, strings, byte slices, arrays, lists), UnmarshalBinaryBare(MarshalBinaryBare(v)) yields v again.", "quantifier": "all values of all non-struct types", "why_tests_cant": "all types and values", "anchors": ["amino.go:MarshalBinaryBare", "amino.go:UnmarshalBinaryBare"]}
{"id": "C38", "title": "Non-struct implementations of interfaces round trip", "statement": "A registered non-struct concrete type (e.g. [4]byte, string, []int) stored in an interface field, interface list or decoded from its own top-level encoding into an interface comes back as the same value.", "quantifier": "all non-struct concretes, all positions", "why_tests_cant": "position- and type-dependent key handling", "anchors": ["binary-decode.go:decodeReflectBinaryInterface", "binary-encode.go:encodeReflectBinaryInterface"]}
{"id": "C39", "title": "Registering more types does not change existing encodings", "statement": "Registering a further concrete type whose prefix collides with no concrete type registered before, or a further interface, changes neither the bytes MarshalBinaryBare returns nor the result of any UnmarshalBinaryBare that succeeded before.", "quantifier": "all codecs, further registrations, values and byte strings", "why_tests_cant": "all extensions of all registries", "anchors": ["codec.go:RegisterConcrete", "codec.go:RegisterInterface"]}
{"id": "C40", "title": "The writer form writes exactly the length-prefixed bytes", "statement": "MarshalBinaryLengthPrefixedWriter hands the writer exactly MarshalBinaryLengthPrefixed(v) in one call and reports the writer's count; on a marshalling error nothing is written.", "quantifier": "all values and writers", "why_tests_cant": "all values", "anchors": ["amino.go:MarshalBinaryLengthPrefixedWriter"]}
{"id": "C41", "title": "Encodings are schema-less parseable protobuf wire format", "statement": "The bare encoding of every struct whose types have no MarshalAmino override is a sequence of well-formed protobuf fields with non-decreasing numbers between 1 and the number of fields, so it can be split without the schema.", "quantifier": "all struct types and values", "why_tests_cant": "all types", "anchors": ["binary-encode.go:encodeReflectBinaryStruct"]}
{"id": "C42", "title": "Multi-dimensional lists are rejected or preserved", "statement": "Encoding a list of lists either reports an error or the encoding determines the value.", "quantifier": "all list-of-list types and values", "why_tests_cant": "all nesting shapes", "anchors": ["binary-encode.go:encodeReflectBinary"]}
{"id": "C43", "title": "Nested struct with an epoch time survives a round trip", "statement": "A struct nested by value inside another struct (or in a slice) comes back from a binary round trip with its time.Time fields unchanged.", "quantifier": "all nested struct types with times", "why_tests_cant": "depends on one instant out of 10^20", "anchors": ["reflect.go:defaultValue", "binary-encode.go:writeFieldIfNotEmpty"]}
{"id": "C44", "title": "MarshalAmino/UnmarshalAmino overrides are transparent", "statement": "A type with MarshalAmino to R and UnmarshalAmino from R is encoded exactly as its representation and decoded by decoding the representation and applying UnmarshalAmino, in every position.", "quantifier": "all override pairs, positions and values", "why_tests_cant": "all types and positions", "anchors": ["binary-encode.go:encodeReflectBinary", "binary-decode.go:decodeReflectBinary", "reflect.go:toReprObject"]}
{"id": "C45", "title": "Struct metadata: field numbers and options", "statement": "Exported, non-skipped fields get field numbers 1,2,3,... in declaration order; adding, removing or retagging unexported or json:\"-\" fields changes no field number; an untagged float field makes the type unusable.", "quantifier": "all struct declarations and tags", "why_tests_cant": "all declarations", "anchors": ["codec.go:parseStructInfo", "codec.go:parseFieldOptions", "reflect.go:checkUnsafe"]}
{"id": "C46", "title": "JSON round trip", "statement": "For every value of the C11 universe (plus string-keyed maps, minus unsafe floats), UnmarshalJSON(MarshalJSON(v)) into a fresh variable yields v up to JSON normalisation (empty slice -> nil, interface pointer shape as registered).", "quantifier": "all types and values", "why_tests_cant": "all types and values", "anchors": ["json-encode.go", "json-decode.go", "amino.go:MarshalJSON", "amino.go:UnmarshalJSON"]}
{"id": "C47", "title": "JSON integers: 64-bit quoted, exact, range checked", "statement": "int64/int/uint64/uint are written as quoted decimals and read back exactly; unquoted numbers are rejected for them; no value outside the range is accepted for any integer kind.", "quantifier": "all integers, all JSON inputs", "why_tests_cant": "full domains", "anchors": ["json-encode.go:encodeReflectJSON", "json-decode.go:decodeReflectJSON"]}
{"id": "C48", "title": "JSON floats tagged unsafe round trip", "statement": "A float field tagged amino:\"unsafe\" that MarshalJSON accepts is accepted again by UnmarshalJSON.", "quantifier": "all struct types with unsafe floats", "why_tests_cant": "option plumbing depends on nesting position", "anchors": ["json-decode.go:decodeReflectJSONStruct"]}
{"id": "C49", "title": "MarshalJSON is deterministic", "statement": "MarshalJSON of the same value always gives the same bytes.", "quantifier": "all values, all map iteration orders", "why_tests_cant": "map iteration order is a schedule", "anchors": ["json-encode.go:encodeReflectJSONMap"]}
{"id": "C50", "title": "JSON interface decoding never panics", "statement": "UnmarshalJSON of arbitrary JSON into a registered interface returns a value of a registered implementation or an error.", "quantifier": "all JSON inputs", "why_tests_cant": "adversarial type names", "anchors": ["json-decode.go:decodeReflectJSONInterface", "codec.go:getTypeInfoFromNameRlock"]}
{"id": "C51", "title": "DeepCopy returns an equal value", "statement": "DeepCopy(o) is structurally equal to o for every object of exported-field types without DeepCopy/MarshalAmino methods.", "quantifier": "all object graphs", "why_tests_cant": "all shapes and depths", "anchors": ["deep_copy.go:DeepCopy", "deep_copy.go:_deepCopy"]}
{"id": "C52", "title": "DeepCopy shares no mutable memory with the original", "statement": "No location reachable from DeepCopy(o) that can be written is reachable from o.", "quantifier": "all object graphs", "why_tests_cant": "aliasing is a property of the heap for all shapes", "anchors": ["deep_copy.go:_deepCopy"]}
{"id": "C53", "title": "aminoscan terminates", "statement": "The aminoscan tool returns on every hex input.", "quantifier": "all byte strings", "why_tests_cant": "non-termination cannot be tested", "anchors": ["cmd/aminoscan/aminoscan.go:scanStruct"]}
{"id": "C54", "title": "MarshalJSON always emits valid JSON for registered types", "statement": "For every registered name the disfix wrapper MarshalJSON writes is valid JSON whose type member decodes to that name.", "quantifier": "all registered names", "why_tests_cant": "names are arbitrary strings", "anchors": ["amino.go:MarshalJSON", "json-encode.go:encodeReflectJSONInterface"]}
{"id": "C55", "title": "Must* variants agree with their plain variants", "statement": "Each Must function returns exactly what the plain function returns when it reports no error, and panics exactly when it reports one.", "quantifier": "all inputs", "why_tests_cant": "all inputs", "anchors": ["amino.go:MustMarshalBinaryBare", "amino.go:MustUnmarshalBinaryBare"]}
{"id": "C56", "title": "Reader accepts every behaviour the io.Reader contract allows", "statement": "UnmarshalBinaryLengthPrefixedReader gives the same result for every reader that conforms to the io.Reader contract and delivers the same bytes, including readers that report the end of file together with the last bytes and readers that occasionally return no bytes and no error.", "quantifier": "all conforming readers, all streams", "why_tests_cant": "the contract leaves the reader a choice at every call", "anchors": ["amino.go:UnmarshalBinaryLengthPrefixedReader"]}
{"id": "C57", "title": "Concurrent Marshal and Register are free of data races", "statement": "In no schedule of concurrent calls on one codec does a goroutine read or write the list of implementers of an interface while another goroutine writes it.", "quantifier": "all programs, all numbers of goroutines, all interleavings", "why_tests_cant": "the race detector only sees the schedules that happen", "anchors": ["codec.go:RegisterConcrete", "codec.go:getTypeInfoWlock", "binary-encode.go:encodeReflectBinaryInterface"]}
{"id": "C58", "title": "aminoscan never panics", "statement": "On every byte string the aminoscan tool returns a count within the input and possibly an error, but does not panic; a well-formed message is scanned to its end without error.", "quantifier": "all byte strings", "why_tests_cant": "adversarial bytes", "anchors": ["cmd/aminoscan/aminoscan.go:scanStruct", "cmd/aminoscan/aminoscan.go:scanByteLength", "cmd/aminoscan/aminoscan.go:scanAny"]}
{"id": "C59", "title": "DeepCopy leaves the original alone", "statement": "DeepCopy writes only to memory it allocates itself: every memory location that existed before holds the same content afterwards, unless a user method writes to it.", "quantifier": "all object graphs, all heaps", "why_tests_cant": "all shapes and aliasings", "anchors": ["deep_copy.go:DeepCopy", "deep_copy.go:_deepCopy"]}
{"id": "C60", "title": "UnmarshalJSON never panics", "statement": "On every byte string and every variable UnmarshalJSON terminates and returns either an error or a value of the variable's type; it does not panic.", "quantifier": "all byte strings, all types made of registered components, all old contents", "why_tests_cant": "adversarial bytes; a boundary case two levels below the API", "anchors": ["amino.go:UnmarshalJSON", "json-decode.go:decodeReflectJSON", "json-decode.go:decodeInterfaceJSON"]}
{"id": "C61", "title": "Which JSON texts are accepted as integers", "statement": "A 64-bit integer is accepted only from a quoted decimal number, a smaller one only from an unquoted decimal number, each within the range of its type (the bare text null gives zero).", "quantifier": "all byte strings, all integer types", "why_tests_cant": "infinitely many near misses: signs, leading zeros, exponents, white space", "anchors": ["json-decode.go:decodeReflectJSON"]}
{"id": "C62", "title": "UnmarshalJSON does not depend on old contents", "statement": "Unmarshalling the same JSON text into two variables of a type gives the same result, success or failure, whatever they held before.", "quantifier": "all types, all texts, all pairs of old contents", "why_tests_cant": "needs all pairs of old contents", "anchors": ["amino.go:UnmarshalJSON", "json-decode.go:decodeReflectJSONStruct", "json-decode.go:decodeReflectJSONInterface"]}
{"id": "C63", "title": "Order of members and unknown members do not matter", "statement": "Decoding a struct from a JSON object depends only on the value the object gives last to each field's name: permuting the members or adding members with other names does not change the result.", "quantifier": "all struct types, all member lists, all permutations", "why_tests_cant": "all permutations of all objects", "anchors": ["json-decode.go:decodeReflectJSONStruct"]}
{"id": "C64", "title": "aminoscan reports truncated input", "statement": "When the aminoscan tool finishes without an error, the input was a whole number of complete fields (key and value) and all of it was scanned.", "quantifier": "all byte strings", "why_tests_cant": "every way a message can be cut off", "anchors": ["cmd/aminoscan/aminoscan.go:scanStruct", "cmd/aminoscan/aminoscan.go:scanVarint", "cmd/aminoscan/aminoscan.go:scanByteLength"]}
{"id": "C65", "title": "Every spelling of a JSON string is understood", "statement": "UnmarshalJSON into a string stores exactly the text that the literal spells, whichever mixture of raw UTF-8, two-character escapes, \\uXXXX escapes in either case and UTF-16 surrogate pairs the sender uses, and whatever white space surrounds it; and whatever bytes are read, the string stored is well formed UTF-8 (null stores the empty string).", "quantifier": "all texts, all spellings of each, all white space; for the second part all byte strings", "why_tests_cant": "all mixtures of spellings of all texts", "anchors": ["json-decode.go:decodeReflectJSON"]}
{"id": "C66", "title": "Field numbers and wire types are checked", "statement": "If UnmarshalBinaryBare accepts an input, then every field whose number is that of a declared field carries the wire type of that field's type (length-delimited for repeated fields); a value that is not a struct starts with the key of field 1 and its wire type; and so does a non-struct implementation behind an interface, after the prefix bytes.", "quantifier": "all struct types, all other types, all interfaces and registered implementations, all inputs", "why_tests_cant": "all combinations of declared types and wire types in adversarial inputs", "anchors": ["binary-decode.go:decodeReflectBinaryStruct", "binary-decode.go:decodeReflectBinaryInterface", "amino.go:UnmarshalBinaryBare"]}
{"id": "C67", "title": "Encodings are proto3 serializations", "statement": "MarshalBinaryBare writes the prefix bytes of a registered type and then exactly the proto3 serialization of the message the Go value stands for: fields numbered in declaration order, integers as int32/int64/uint32/uint64 or fixed32/fixed64 (int8 and int16 as sint32), floats, strings and bytes as such, times as google.protobuf.Timestamp, structs as messages, lists of numbers packed, other lists repeated, empty values left out, interface values as amino's extension; and a value stands for one message only.", "quantifier": "all supported types (overrides that keep the wire type), all values, all codecs", "why_tests_cant": "all types and values at once, against an independent description of the format", "anchors": ["binary-encode.go:encodeReflectBinary", "binary-encode.go:encodeReflectBinaryStruct", "binary-encode.go:encodeReflectBinaryList", "binary-encode.go:encodeReflectBinaryInterface", "binary-encode.go:writeFieldIfNotEmpty", "encoder.go:EncodeTime", "README.md"]}
{"id": "C68", "title": "Programs with the same registrations understand each other", "statement": "If a writer and a reader have each, without a panic, made the same RegisterInterface and RegisterConcrete calls, in any order and mixed with uses of the codec and Seal, then MarshalBinaryBare and MarshalJSON give the same bytes on both sides, and whatever the writer marshals the reader unmarshals, without error, to the value the documented normalisation assigns to it. Nothing else about the state of the codecs matters.", "quantifier": "all programs (types, method sets, histories of codec calls on both sides), all values, binary and JSON", "why_tests_cant": "Tests use one codec on both sides and one order of registration; the conditions under which an encoded interface value is readable by another process are never exercised.", "anchors": ["codec.go:154-245", "amino.go:197-252", "amino.go:361-487", "amino.go:495-568"]}
{"id": "C69", "title": "Decoding does not amplify memory", "statement": "If UnmarshalBinaryBare or UnmarshalBinaryLengthPrefixed accepts an input, the value it stores is no larger than what was there before plus a constant times the length of the input, where the constant depends on the declared types alone: not on the input, the registered concretes, the nesting of the message or the number of elements.", "quantifier": "all inputs, all codecs, all types of a program whose zero values, field counts and UnmarshalAmino methods are bounded", "why_tests_cant": "A hostile message that unfolds into gigabytes is one among 2^(8n); tests try only the messages the encoder produces.", "anchors": ["binary-decode.go:640-770", "binary-decode.go:459-588", "binary-decode.go:772-897", "decoder.go:275-300", "amino.go:264-285", "amino.go:361-445"]}
{"id": "C70", "title": "White space between JSON tokens does not matter", "statement": "UnmarshalJSON gives the same result for a JSON text with white space (space, tab, newline, carriage return) before, after and between its tokens as for the compact text, for every target.", "quantifier": "all JSON texts, all ways to insert white space, all target types and prior contents, all codecs", "why_tests_cant": "Infinitely many layouts of infinitely many texts; amino looks at the first and last byte of raw texts itself, which only differs from encoding/json on rare layouts.", "anchors": ["json-decode.go:22-101", "json-decode.go:103-176", "json-decode.go:178-428", "json-decode.go:430-560", "amino.go:536-568"]}
{"id": "C71", "title": "MarshalJSONIndent's text means what MarshalJSON's means", "statement": "Whenever MarshalJSON succeeds with a JSON text, MarshalJSONIndent with a prefix and indentation of white space succeeds too; its text is that text with white space between tokens, UnmarshalJSON into any target gives the same result for both, and a value written with it is read back as C46 says. The layout is the documented one for every prefix and indentation: each element and each closing bracket on its own line, beginning with the prefix and one indentation per level.", "quantifier": "all values, types, codecs, prefixes and indentations of white space, all targets", "why_tests_cant": "Layouts and values are unbounded; the tests only compare one indented literal.", "anchors": ["amino.go:577-592", "amino.go:495-528", "amino.go:536-568"]}
{"id": "C72", "title": "JSON times are RFC 3339 instants in UTC", "statement": "A time.Time of the years 0 to 9999 is written as its Gregorian date and time of day in UTC in the notation of RFC 3339 ending in Z, in the shortest such notation; other instants are an error. Every RFC 3339 notation in UTC of an instant is read as exactly that instant, nothing else is read as a time, and what is written is read back exactly.", "quantifier": "all instants a time.Time can hold, all texts", "why_tests_cant": "There are 2^63 * 10^9 instants; leap years, centuries, month lengths and trailing zeros are exactly where sampled tests miss errors.", "anchors": ["json-encode.go:45-65", "json-decode.go:50-66"]}
{"id": "C73", "title": "A JSON text determines the value", "statement": "Values of one type that MarshalJSON writes as the same text come back from UnmarshalJSON as the same value; different values that JSON has an exact notation for have different texts; and two values of registered types with the same text have the same type. So a signature over the JSON text of a registered value is a signature over the value.", "quantifier": "all pairs of values, of supported types, of registered types with plain names", "why_tests_cant": "Injectivity relates all pairs of values; tests compare a few texts with their expected form.", "anchors": ["amino.go:495-528", "json-encode.go:23-132", "json-decode.go:23-150"]}
{"id": "C74", "title": "JSON round trips settle", "statement": "What a JSON round trip made of a value comes back unchanged from every further round trip, so its text no longer changes either.", "quantifier": "all values of supported types, any number of round trips", "why_tests_cant": "Nil, empty, omitted and hidden parts of a value combine without bound; the tests make one round trip.", "anchors": ["amino.go:495-568", "json-encode.go:195-341", "json-decode.go:195-460"]}
{"id": "C75", "title": "Old messages are read by newer types", "statement": "A message written by an older version of a struct type is read by a newer version, which has the same fields followed by any others, as the same fields with the same contents, and the appended ones unset: Go's zero value, nil for pointers, and 1970 for times (also behind pointers).", "quantifier": "all old values, all lists of appended fields, all codecs", "why_tests_cant": "Tests have one pair of type versions; the claim is for every struct type and every extension of it.", "anchors": ["binary-decode.go:772-897", "reflect.go:130-164", "codec.go:430-500"]}
{"id": "C76", "title": "JSON fields are matched by name", "statement": "The JSON text of a value of a struct type, read into a variable of any other struct type whose fields of the same JSON name have the same type, gives every field of a name written in the text its content, and leaves the others zero; members without a field are ignored. So fields may be added, removed and reordered.", "quantifier": "all pairs of struct types, all values", "why_tests_cant": "Tests have at most a few pairs of type versions; adding, removing, reordering and hiding fields combine freely.", "anchors": ["json-decode.go:361-428", "json-encode.go:260-341"]}
{"id": "C77", "title": "Types may be changed at any depth", "statement": "Suppose the types of a program change: fields are renamed, fields are appended to structs at any depth (also to elements of lists and to registered implementations of interfaces), and untagged integers are widened within the families int8→int16, int32→int64/int, int64↔int, uint16→uint32→uint64/uint, uint64↔uint; registered names stay, and new registrations do not make old implementations ambiguous. Then every message written by MarshalBinaryBare with the old types is, byte for byte, what the new types write for the corresponding value, and UnmarshalBinaryBare with the new types reads it as that value. Widening across the families (int16→int32) is not safe: struct{int16}{5} is read as struct{int32}{10} without an error.", "quantifier": "for all programs, all pairs of related types, all values, all codecs", "why_tests_cant": "Upgrades of a protocol combine changes at many places; tests cover a few pairs of types and values, while the claim is about every combination of allowed changes at every depth.", "anchors": ["binary-encode.go:24-520", "binary-decode.go:30-1000", "amino.go:178-330", "encoder.go:15-60"]}
{"id": "C78", "title": "What can be written", "statement": "MarshalBinaryBare succeeds exactly when the value is not a nil pointer, all types reached are known to the codec (interfaces registered, floats tagged unsafe), interfaces hold non-nil values of registered types, times are in years 1 to 9999, MarshalAmino succeeds, no nil pointer is tagged write_empty or is an element of a list tagged empty_elements, and there are no lists of lists (except of bytes). In every other case it fails; in no case does success depend on anything else, such as the size or depth of the value.", "quantifier": "all programs, codecs, types and values", "why_tests_cant": "that nothing else makes the encoder fail, however deep the value, is a statement about all values", "anchors": ["amino.go:MarshalBinaryBare", "binary-encode.go:encodeReflectBinary"]}
{"id": "C79", "title": "What was read can be written again", "statement": "If UnmarshalBinaryBare accepts a byte string, MarshalBinaryBare succeeds on the value read, so that every accepted message can be forwarded, and the new encoding is understood in turn. False in general: an absent pointer tagged write_empty is read as nil, on which the encoder panics; an absent array of pointers tagged empty_elements is read as nil pointers, on which it returns an error.", "quantifier": "all byte strings and all programs without those tags on pointers", "why_tests_cant": "accepted byte strings are more than the encodings: missing fields, non-minimal varints, explicit defaults", "anchors": ["amino.go:UnmarshalBinaryBare", "amino.go:MarshalBinaryBare", "binary-decode.go:decodeReflectBinary"]}
{"id": "C80", "title": "The JSON that is written", "statement": "MarshalJSON writes a JSON notation (RFC 8259) for one definite document determined by the value: null for nil pointers, slices and interfaces, an object with the visible fields that are not left out by omitempty, in the order of declaration, for structs, arrays for lists, base64 (RFC 4648) for bytes, strings of digits for 64-bit integers, numbers for smaller ones, {\"type\": name, \"value\": ...} around registered types in interfaces and at the top, MarshalJSON for types that have it (and, for addressable values, whose pointers have it), MarshalAmino's representation for types that have that, and U+FFFD for bytes that are not UTF-8.", "quantifier": "all programs, values and codecs whose registered names need no escapes", "why_tests_cant": "A reader and a writer that agree on a wrong format pass every round-trip test; the format is a claim about every value.", "anchors": ["amino.go:495-528", "json-encode.go:23-472"]}
{"id": "C81", "title": "What can be written as JSON", "statement": "MarshalJSON succeeds exactly when all types reached are known to the codec (interfaces registered, floats in structs tagged unsafe), interfaces hold registered types and no nil pointers, floats have a text (neither infinite nor NaN) and are in tagged fields, times are in years 0 to 9999, byte lists that are not addressable have elements of type byte itself, and the methods MarshalJSON and MarshalAmino succeed. In every other case it fails; in no case does success depend on anything else, such as the size or depth of the value.", "quantifier": "all programs, codecs, types and values", "why_tests_cant": "that nothing else makes the encoder fail, however deep the value, is a statement about all values", "anchors": ["amino.go:495-528", "json-encode.go:23-472"]}
{"id": "C82", "title": "What was read from JSON can be written again", "statement": "If UnmarshalJSON accepts a text, MarshalJSON succeeds on the value read. False in general: null elements of a list of floats are accepted and become zeros, for which MarshalJSON returns an error; a list of a named byte type is read, but MarshalJSON panics on it unless it is given a pointer.", "quantifier": "all texts and all programs without untagged floats and lists of named byte types, whose methods come in pairs", "why_tests_cant": "accepted texts are more than the texts written: missing and unknown members, white space, null, escapes", "anchors": ["amino.go:495-572", "json-encode.go:23-472", "json-decode.go:22-560"]}
{"id": "C83", "title": "A pointer or a value: the same encoding", "statement": "Marshalling a pointer to a value gives what marshalling the value gives, in binary and JSON; callers pass either. False in general: an array of a named byte type (type MyByte byte; [2]MyByte) reached from a value that is not addressable makes MarshalBinaryBare panic, while with a pointer it succeeds, and MarshalJSON declared for the pointer is used only with a pointer. But if marshalling the value to binary succeeds, marshalling the pointer gives the same bytes.", "quantifier": "all programs, codecs and values; equality for programs without arrays of named byte types, and for JSON also without methods declared for pointers only", "why_tests_cant": "addressability depends on the path by which a value is reached (slices, pointers, interfaces, representations); tests pass few combinations", "anchors": ["binary-encode.go:280-300", "json-encode.go:45-66", "json-encode.go:212-230", "reflect.go:225-242"]}
{"id": "C84", "title": "Every call returns", "statement": "However many goroutines use a codec at once, and in whatever order they are scheduled, no deadlock arises: as long as some goroutine is inside a call (registering, marshalling, sealing, PrintTypes), one of them can go on, and once no new calls are made all of them return after a bounded number of steps, although a waiting writer of sync.RWMutex holds up new readers.", "quantifier": "all programs, all numbers of goroutines, all schedules from the empty codec, all reachable states", "why_tests_cant": "A deadlock shows only under particular interleavings of lock acquisitions; the number of schedules is unbounded.", "anchors": ["codec.go:163-250 (RegisterInterface, RegisterConcrete, Seal)", "codec.go:253-309 (PrintTypes)", "codec.go:364-446 (getTypeInfo_wlock, the lookups under RLock)"]}
{"id": "C85", "title": "JSON output is safe in HTML and on one line", "statement": "Whatever strings, map keys and bytes a value contains, what MarshalJSON writes is valid UTF-8 without control characters (in particular without line breaks), without <, > and &, and without U+2028 and U+2029; so a message can be put on a line of its own, into an HTML page or a script.", "quantifier": "all programs, codecs, values and types", "why_tests_cant": "It is a claim about every string, including malformed UTF-8, at every place of every value; tests check a few strings.", "anchors": ["json-encode.go:23-132 (encodeReflectJSON)", "json-encode.go:134-193 (names in the disfix wrapper)", "json-encode.go:416-423 (invokeMarshalJSON)", "amino.go:495-528 (MarshalJSON)"]}
{"id": "C86", "title": "Through JSON to the same bytes", "statement": "Marshalling a value to JSON, unmarshalling the text and marshalling the result to binary gives the bytes that marshalling the value to binary gives; values with the same JSON text have the same binary encoding, so a hash or signature of the binary form survives a client that only speaks JSON. (Although the value itself need not survive: empty slices come back nil, nil maps empty.)", "quantifier": "all programs, codecs, values and types without floats", "why_tests_cant": "The two formats leave out and default different things (omitempty, write_empty, null, empty lists, pointers); tests compare the few combinations somebody thought of.", "anchors": ["json-encode.go:23-330", "json-decode.go:19-420", "binary-encode.go:25-530", "reflect.go:105-126", "json-encode.go:448-470"]}
{"id": "C87", "title": "One message, one byte string", "statement": "A value has one accepted encoding: if UnmarshalBinaryBare accepts two byte strings with the same result, they are equal. Where the decoder is more tolerant than that, encoding the result again and comparing it with the input tells exactly whether some value is encoded as the input, and encoding the result gives a canonical form that is accepted and is its own canonical form.", "quantifier": "all programs, codecs, byte strings and types", "why_tests_cant": "It speaks about every byte string the decoder accepts, including ones no encoder writes; tests feed the decoder with what the encoder wrote.", "anchors": ["amino.go:197-238 (MarshalBinaryBare)", "amino.go:361-436 (UnmarshalBinaryBare)", "binary-decode.go:25-978"]}
{"id": "C88", "title": "Later registrations keep the JSON", "statement": "Registering further types and interfaces on a codec changes no JSON text and no JSON decoding that worked before, for every type that is not itself registered meanwhile; even if the new types' prefix bytes collide with old ones (which can break the binary encoding).", "quantifier": "all programs, sequences of registrations, values, types and texts", "why_tests_cant": "It compares a codec with all its later states; tests use a codec in one state.", "anchors": ["codec.go:116-243 (registration)", "json-encode.go:134-193", "json-decode.go:173-234", "amino.go:495-568 (MarshalJSON, UnmarshalJSON)"]}
{"id": "C89", "title": "Streams that break off", "statement": "When a stream of length-prefixed messages breaks off at any byte, UnmarshalBinaryLengthPrefixedReader reads the messages that are complete as if nothing had happened, and then fails; it never makes a message out of an incomplete one. The error is io.EOF exactly if the stream broke off between two messages.", "quantifier": "all readers that deliver the stream (in any pieces), sequences of messages, places to break off, targets and sizes", "why_tests_cant": "There is one place to break off per byte and one way to deliver the rest per partition; tests cut a message or two at a few places.", "anchors": ["amino.go:287-350 (UnmarshalBinaryLengthPrefixedReader)"]}
{"id": "C90", "title": "Calls while others register", "statement": "Marshal and Unmarshal (binary, length-prefixed and JSON) look types up one at a time, and other goroutines may register or use types between two look-ups. The outcome of such a call — result, error or panic — is nevertheless that of the same call made alone at the moment it ends, as if all its look-ups had happened then; and a successful result is what the same call would give at any later time.", "quantifier": "for every reachable codec, every type, value, byte string and JSON text, every schedule of successful registrations, uses and seals by other goroutines between the look-ups, all hash functions", "why_tests_cant": "the schedules are infinitely many, and a test run meets only those the scheduler happens to produce; the race detector finds unsynchronised accesses but not mixed results", "anchors": ["codec.go:366-446", "binary-encode.go:205-280", "binary-decode.go:309-445", "json-encode.go:141-193", "json-decode.go:270-340", "amino.go:197-245", "amino.go:361-445"]}
{"id": "C91", "title": "The table of registered types", "statement": "PrintTypes writes a table with one row per registered concrete type, in the order of registration, from which the type, the registered name, the prefix bytes and the length of its encoding can be read back; nothing else is listed. If the writer reports an error, PrintTypes stops there and returns this error, and the writer has received a beginning of the table.", "quantifier": "for every history of successful registrations, all type names, all registered names without | and line feed, every writer (any state machine that may fail at any write)", "why_tests_cant": "tests print a few types into a buffer that never fails; they do not cover every registry, nor a failure at each of the writes", "anchors": ["codec.go:253-325"]}
{"id": "C92", "title": "The variable after a failed Unmarshal", "statement": "A failed UnmarshalBinaryBare does no lasting harm to the variable. It holds a value of its type. Decoding into it again, after any number of calls of which any may have failed, gives what decoding into a new variable gives. Numbers, strings, times, slices and byte arrays are not changed by a failed call. Fields that are not encoded are never changed.", "quantifier": "All programs, codecs, types, old contents, byte strings, sequences of calls, and anything that a failing UnmarshalAmino may leave behind.", "why_tests_cant": "What is left depends on where the bytes break off and on the old contents; tests throw the variable away after an error.", "anchors": ["binary-decode.go:52-58", "binary-decode.go:398-403", "binary-decode.go:499-526", "binary-decode.go:795-867", "amino.go:423-444"]}
{"id": "C93", "title": "The variable after a failed UnmarshalJSON", "statement": "When UnmarshalJSON returns an error, the target variable is as before the call; or at least a later successful UnmarshalJSON into it gives what it gives for a new variable, so that nothing of a rejected text ends up in an accepted value.", "quantifier": "all programs, codecs, types, prior contents, sequences of earlier calls of UnmarshalJSON (failed or not), texts, and behaviours of failing UnmarshalJSON and UnmarshalAmino methods", "why_tests_cant": "Tests check the error and drop the variable. What is left in it depends on how far decoding came, in every nesting of structs, arrays, pointers and interfaces, and whether it shows up later depends on the next text.", "anchors": ["amino.go:539-568", "json-decode.go:18-153", "json-decode.go:173-234", "json-decode.go:250-293", "json-decode.go:386-422"]}
{"id": "C94", "title": "The text of struct tags", "statement": "In struct tags of the conventional form (key:\"value\" pairs, plain values), the options of a field depend only on the first values given to binary, amino and json: neither the order of the pairs nor the spaces between them nor the tags of other packages matter, and a field tagged json:\"-\" is never encoded. Tags of another form are not reported: with a comma between the pairs, json:\"-\" is silently ignored and the field is encoded.", "quantifier": "all conventional tag texts (any number of pairs, keys, values, spaces), all field declarations, all struct types and values, any behaviour of strconv.Unquote on other texts", "why_tests_cant": "Tests use a handful of tag texts; that no other text changes the wire format is a statement about the tag parser on all texts.", "anchors": ["codec.go:499-548", "codec.go:448-497"]}
{"id": "C95", "title": "Which struct tags can be changed without breaking stored data", "statement": "Let two versions of a program declare the same types and fields and differ only in struct tags. If only json names and omitempty differ, MarshalBinaryBare, MarshalBinaryLengthPrefixed, UnmarshalBinaryBare and UnmarshalBinaryLengthPrefixed give the same results in both. If in addition amino:\"write_empty\" differs, both versions read binary data in the same way, so each reads what the other writes, with the result the writer's own version would get. If only binary:\"fixed32\", binary:\"fixed64\", amino:\"write_empty\" and amino:\"empty_elements\" differ, MarshalJSON and UnmarshalJSON give the same results. The remaining changes do matter: adding fixed32 to a number makes old data unreadable, adding it to a list of numbers makes old data read as other numbers without an error, empty_elements turns nil into a pointer to an empty struct, and renaming a JSON member loses its data without an error.", "quantifier": "all programs, all pairs of tag assignments, all values, all variables, all byte strings", "why_tests_cant": "A test has one set of tags; independence of a tag is a statement about pairs of programs and all inputs.", "anchors": ["codec.go:456-540", "binary-encode.go:351-430", "binary-decode.go:828-930", "json-encode.go:285-360", "json-decode.go:366-425"]}
{"id": "C96", "title": "aminoscan prints every byte of its input, and for a well-formed message exactly its fields", "statement": "The argument of aminoscan is accepted exactly if it consists of two hexadecimal digits per byte, in small or capital letters. Whatever the bytes, if aminoscan returns, its last line is all bytes of the input in order, then the number of bytes scanned and the error of the scan. For a well-formed message what is printed is, apart from the colors, the listing of the fields: for each field a line with key, field number and wire type, and a line with the value (varints read as zig-zag and as unsigned number, byte strings counted), then the message and its length. The output of aminoscan --color determines the bytes.", "quantifier": "for all inputs; for all well-formed messages of any number of fields", "why_tests_cant": "The tool has no tests; which bytes end up in the output depends on where scanning stops, for unboundedly many inputs.", "anchors": ["cmd/aminoscan/aminoscan.go:14-188", "cmd/aminoscan/colors.go:11-68", "amino.go:110-131"]}
{"id": "C97", "title": "Unmarshal writes only to the variable it is given and keeps no reference to its input", "statement": "UnmarshalBinaryBare(bz, ptr), whatever its outcome, changes no memory except *ptr, what the pointers in it lead to, and newly allocated variables; afterwards *ptr refers to nothing that could not be reached from it before, except new variables. So the input bytes are neither changed nor aliased by the result, and other variables keep their contents, also if *ptr contains shared or cyclic pointers.", "quantifier": "for all programs, types, inputs, memories (with any sharing), and outcomes including errors and panics; UnmarshalAmino methods that keep to the same rule", "why_tests_cant": "Aliasing with the input or with other variables shows only when those are looked at or changed later; which memory is involved depends on the shape of the target.", "anchors": ["binary-decode.go:31-311", "binary-decode.go:500-526", "binary-decode.go:591-629", "binary-decode.go:795-894", "decoder.go:275-297", "reflect.go:130-190", "amino.go:361-445"]}
{"id": "C98", "title": "Unmarshal stores what was encoded, wherever the variable points", "statement": "Unmarshalling into a variable has the outcome, and on success leaves the contents, that the decoder computes from the old contents of the variable alone, whatever memory the variable lies in and whatever pointers it contains. So everything proved about decoded values (round trip, malformed input, resets of absent fields) holds for Go variables in memory.", "quantifier": "for all programs whose UnmarshalAmino methods only use what they are given, all codecs, types, inputs, memories and target variables", "why_tests_cant": "The tests decode into fresh variables. That pointers of an old target are reused, and what happens when they are shared or form a cycle, depends on the memory, of which a test covers one shape.", "anchors": ["binary-decode.go:23-120", "binary-decode.go:420-960", "amino.go:370-440"]}
{"id": "C99", "title": "UnmarshalJSON takes nothing but JSON, and shows methods nothing but JSON", "statement": "If UnmarshalJSON succeeds, its input is a JSON text (RFC 8259: one value, white space around it and between tokens); and UnmarshalJSON methods of the program's types (which, by the contract of json.Unmarshaler, may assume that their argument is a valid encoding of a JSON value) are only called with JSON texts.", "quantifier": "for all programs, codecs, types, targets and byte strings", "why_tests_cant": "The set of byte strings that are not JSON is infinite, and where amino looks at bytes itself (quotes of 64-bit integers, direct calls of methods) no JSON scanner has seen them.", "anchors": ["json-decode.go:18-153", "json-decode.go:493-515", "amino.go:539-568"]}
{"id": "C100", "title": "Which JSON texts are read as bytes", "statement": "UnmarshalJSON into a slice of bytes succeeds exactly on these texts, with white space allowed around the text and around elements: null, which gives no bytes; a string that spells, with any escapes, letters of the base64 alphabet and padding to a multiple of four, line breaks not counting, which gives the bits of the letters; an array whose elements are whole numbers from 0 to 255 without sign, fraction or exponent, which gives those numbers, or null, which gives the byte that the slice held at that place (0 behind its end). The bits of the last letter that belong to no byte are ignored. For an array of n bytes the text must give exactly n bytes, except that the bare text null gives the zero value. A pointer to a slice that gets no bytes becomes nil, not empty.", "quantifier": "for all programs, codecs, types of byte slices and byte arrays without methods, targets and byte strings", "why_tests_cant": "Both directions quantify over all texts; a test can show some accepted and some refused texts, but not that nothing else is accepted (a second text after the padding, a number 256, a negative zero) and nothing valid refused.", "anchors": ["json-decode.go:250-275", "json-decode.go:305-330", "json-encode.go:217-229"]}
{"id": "C101", "title": "Which JSON texts UnmarshalJSON accepts and what it makes of them", "statement": "UnmarshalJSON(bz, ptr) succeeds exactly if the text is one of those described by a grammar over the type of *ptr and its old contents, and then *ptr holds exactly the value the grammar gives, which is unique. In the grammar, with white space allowed wherever RFC 8259 allows it: null alone is the zero value; pointers are followed (new variables if nil); types with UnmarshalJSON get the text, types with UnmarshalAmino what their representation is read as; a registered type stands in an object whose members type and value (letter case of the names not counting for ASCII letters; of several members the last counts) hold its name and its text, and so does the value of an interface; strings are texts in quotes with their escapes resolved; integers of up to 32 bits are whole numbers in range, those of 64 bits the same in quotes; null in their place is zero; times are quoted and end in Z; slices are new, arrays and structs are read over their old elements; a field takes the last member of its name, without one it becomes zero or, if tagged omitempty, stays; unexported and skipped fields stay; maps take the last member for each name; untagged floats are never read.", "quantifier": "for all programs whose values respect their types, all codecs, types, old contents and byte strings", "why_tests_cant": "There are infinitely many texts for every type, and what a text is read as depends on the nesting of types, on duplicates, escapes and white space and on the old contents.", "anchors": ["json-decode.go:16-480", "amino.go:416-446"]}
{"id": "C102", "title": "Which bytes UnmarshalBinaryBare accepts and what it makes of them", "statement": "UnmarshalBinaryBare(bz, ptr) succeeds exactly if the bytes are ones described by a grammar over the type of *ptr and its old contents, and then *ptr holds exactly the value the grammar gives, which is unique; UnmarshalBinaryLengthPrefixed accepts exactly the same bytes behind their count. In the grammar: numbers have at most ten base-128 digits, superfluous ones allowed; a registered type has its four prefix bytes first; values that are not structs, times or lists of them have the key of field 1 unless there are no bytes at all; the fields of a struct stand in the order of declaration with their number and wire type, those not there become the default, those of unexported and skipped fields stay, and behind them may stand unknown fields with increasing numbers and contents of their wire type; integers are in the range of their kind, except that a uint32 takes the lower 32 bits; packed lists are their elements one after the other; other lists are items each with the key of the list, a zero byte standing for the default; slices are new, arrays and structs are read over their old elements, with exactly as many elements; times have seconds and nanoseconds in range, in order; an interface must be nil before, and has the prefix or disambiguation bytes of a registered implementation and its contents up to the end; types with UnmarshalAmino get what their representation is read as; untagged floats, maps and pointers to interfaces are never read.", "quantifier": "for all programs, codecs, types, old contents and byte strings", "why_tests_cant": "There are infinitely many byte strings for every type, and what one is read as depends on the nesting of types, on the counts and keys in it, on what is registered and on the old contents.", "anchors": ["binary-decode.go:31-978", "amino.go:264-285", "amino.go:361-445"]}
{"id": "C103", "title": "Marshal reads a value wherever it is in memory", "statement": "MarshalBinaryBare, MarshalBinaryLengthPrefixed and MarshalJSON of a value in memory give exactly what they give for the tree obtained by following all its pointers, slices, maps and interface values: it makes no difference whether variables are shared, slices overlap or pointers lead into other structs. Decoding the bytes into a new variable gives that (normalised) tree in new memory without any sharing. For a value that contains itself, or has parts within parts without end in visible fields, elements, map values or interface values, no bytes are ever returned; for a node that points to itself the call does not return at all. As shared variables are written each time they are met, the encoding of n variables can have 2^n bytes.", "quantifier": "all programs, codecs, memories, values and types; methods that do on memory what they do on trees; recursion of any depth", "why_tests_cant": "sharing and cycles in memory are unbounded graphs; tests compare trees and cannot show that a call never returns for any depth", "anchors": ["binary-encode.go:25", "binary-encode.go:302", "binary-encode.go:391", "json-encode.go:23", "reflect.go:64", "amino.go:197", "amino.go:495"]}
{"id": "C104", "title": "UnmarshalJSON writes only to the variable it is given and keeps no reference to its input", "statement": "UnmarshalJSON(bz, ptr), whatever its outcome, changes no memory except *ptr, what the pointers in it lead to, and newly allocated variables; afterwards *ptr refers to nothing that could not be reached from it before, except new variables. So the text is neither changed nor aliased by the result, and other variables keep their contents, also if *ptr contains shared or cyclic pointers.", "quantifier": "for all programs, types, texts, memories (with any sharing), and outcomes including errors and panics; UnmarshalJSON and UnmarshalAmino methods that keep to the same rule", "why_tests_cant": "Aliasing with the input or with other variables shows only when those are looked at or changed later; which memory is involved depends on the shape of the target.", "anchors": ["json-decode.go:18", "json-decode.go:173", "json-decode.go:236", "json-decode.go:294", "json-decode.go:363", "json-decode.go:428", "amino.go:539"]}
{"id": "C105", "title": "UnmarshalJSON builds in memory exactly the value its text describes", "statement": "UnmarshalJSON(bz, &x), for an x that holds no pointers, slices, maps or interface values (a new variable in particular), has exactly the outcome that the rules for trees give (the same value, error or panic), and following all pointers, slices, maps and interface values from x afterwards gives exactly that value. Whatever the outcome, everything x refers to is newly allocated and no other variable changes. So a value in memory, however its parts are shared, that is written with MarshalJSON and read into a new variable comes back with the same (normalised) contents, apart from the original.", "quantifier": "for all programs, types, texts, memories and outcomes; UnmarshalJSON and UnmarshalAmino methods that do on memory what they do on trees", "why_tests_cant": "The decoder writes through pointers and into slices, maps and interface values that it allocates on the way, some of them twice; that no later step disturbs an earlier one is a statement about all texts, types and memories.", "anchors": ["json-decode.go:18", "json-decode.go:173", "json-decode.go:236", "json-decode.go:294", "json-decode.go:363", "json-decode.go:428", "amino.go:539", "json-encode.go:23"]}
{"id": "C106", "title": "What becomes of a message of which the end is missing", "statement": "A message that is cut off is refused, and not taken for another message. In full this is false of the code, which cannot tell that the last fields of a bare struct are missing; what is proved: if UnmarshalBinaryBare accepts a front of what MarshalBinaryBare wrote for a struct, it makes of it the first fields as they were, then at most one field that is cut (of a repeated field its first elements, at least one, of an array of repeated elements all of them; or a byte slice read as nil because only its key was there; an element of a list of byte slices likewise), and all other fields as if left out. No field is ever changed otherwise, no element invented. Every cut between two fields is accepted. UnmarshalJSON refuses any proper front of what MarshalJSON wrote, unless the text is that of a number.", "quantifier": "for all programs, codecs, struct types, values, positions of the cut and bounds of recursion", "why_tests_cant": "There are as many cuts as bytes in as many messages; a test tries a few. That a cut inside a nested struct, a count or a key never yields a plausible but different value needs an induction over types.", "anchors": ["binary-decode.go:763", "binary-decode.go:816", "binary-decode.go:591", "binary-decode.go:606", "binary-decode.go:705", "binary-decode.go:459", "decoder.go:280", "amino.go:361", "json-decode.go:18", "amino.go:539"]}
{"id": "C107", "title": "UnmarshalJSON does not amplify memory", "statement": "For every program there is a constant K, depending on its types alone, such that a successful UnmarshalJSON of n bytes into a variable leaves in it at most what it held before plus K·(n+1) components and bytes: no short text becomes a huge value. This fails exactly where two encoded fields of a struct have the same JSON name, which amino does not reject: both are read from the same member, and with a recursive type a text of 6n+4 bytes becomes a value of more than 2^n nodes.", "quantifier": "all programs with finite types and methods that do not blow up their input, all registrations, all targets, all byte strings", "why_tests_cant": "a test decodes one text; the claim bounds the result of every text by one constant per program", "anchors": ["json-decode.go:18-153", "json-decode.go:240-300", "json-decode.go:300-360", "json-decode.go:365-425", "json-decode.go:430-480", "codec.go:448-548", "amino.go:539-568"]}
{"id": "C108", "title": "The order in which Go walks maps affects only the order of members", "statement": "Whatever order Go picks to walk the maps inside a value (the order differs from run to run), MarshalJSON succeeds for all orders or for none; any two of the texts differ only in the order of members inside objects (so they have the same length and the same bytes), and UnmarshalJSON makes the same value of each of them.", "quantifier": "all programs, all values of any nesting, all pairs of iteration orders at every map inside the value", "why_tests_cant": "the number of orders is the product of the factorials of all map sizes, and Go picks them at random", "anchors": ["json-encode.go:encodeReflectJSONMap", "json-decode.go:decodeReflectJSONMap"]}
{"id": "C109", "title": "Which MarshalAmino and UnmarshalAmino are used", "statement": "When a type is first used, amino takes MarshalAmino from the method set of the type and UnmarshalAmino from the method set of the pointer to it, by Go's rules for promoted methods, and panics exactly if one of them has not the form () (R, error) or (R) error with R not a pointer. So methods a type declares itself (MarshalAmino with a value receiver) are used whatever it embeds; MarshalAmino declared with a pointer receiver is ignored; a type that neither declares nor embeds one has none; one that embeds exactly one type with MarshalAmino is written by that method, and by none if it embeds two. Not guaranteed: that the two methods fit together (a pointer receiver or different representation types are accepted, and what is written cannot be read), or that a struct embedding such a type keeps its other fields.", "quantifier": "all sets of type declarations with methods and embedded fields, cyclic ones included, all types", "why_tests_cant": "Depends on the whole graph of embedded types; the tests declare methods directly on the type with matching signatures only.", "anchors": ["codec.go:551-576", "codec.go:775-813"]}
{"id": "C110", "title": "JSON round trip with the program's own JSON methods", "statement": "If the program's methods MarshalJSON write JSON (not null) and its methods UnmarshalJSON make the same value (or a given normal form) of it, then values of these types are written as valid JSON and read back, wherever they occur inside other values. False in general: MarshalJSON with a pointer receiver is not used for values that are not addressable, while UnmarshalJSON always is.", "quantifier": "all programs, sets of types, methods obeying the law, values; all nestings", "why_tests_cant": "Depends on what is written around the method's output at every nesting; the tests have one such type.", "anchors": ["json-encode.go:53-62", "json-decode.go:52-66", "amino.go:495-568"]}
{"id": "C111", "title": "MarshalText and UnmarshalText in JSON", "statement": "A type of kind bool, string or integer of at most 32 bits with methods MarshalText and UnmarshalText is written and read exactly as if it had JSON methods that write the text as a JSON string and read one; types of other kinds have MarshalText ignored. So such values come back if the methods undo each other and write UTF-8. False for 64-bit integers: the number is written, and UnmarshalText is asked to read it, so what MarshalJSON writes is never read.", "quantifier": "all programs without text methods of floats and with string keys, all values", "why_tests_cant": "amino does not mention these methods; encoding/json finds them behind its back.", "anchors": ["json-encode.go:103-125", "json-decode.go:116-171"]}
{"id": "C112", "title": "Map keys in JSON", "statement": "Maps with keys of type string are written and read. Maps with keys of another kind are refused by MarshalJSON and UnmarshalJSON with an error. Maps with keys of a named string type without methods are written like maps with keys of type string, but no entry is ever read back: UnmarshalJSON panics on the first entry it can decode. If the key type has MarshalJSON, what is written need not be JSON.", "quantifier": "all programs, maps, texts", "why_tests_cant": "The tests use map[string]... only.", "anchors": ["json-encode.go:345-410", "json-decode.go:426-478"]}
{"id": "C113", "title": "DeepCopy uses the methods of a type", "statement": "DeepCopy copies a value of a type with DeepCopy() T by that method, and otherwise a value of a type with MarshalAmino and UnmarshalAmino (of the same representation) by making a new variable and giving UnmarshalAmino what MarshalAmino returned, panicking if one of them fails; it uses the same methods as the encoder and decoder. As the code is: this holds for methods DeepCopy in the method set, and for pointers to types with the pair; where encoder and decoder both use methods with one representation, DeepCopy of a pointer does too. It fails for the pair otherwise: DeepCopy of a value does not use it, DeepCopy of a slice of values or of a pointer to a struct with a field of the type panics, MarshalAmino with a pointer receiver is used by DeepCopy but not by the encoder, and methods promoted from an embedded type lose the other fields.", "quantifier": "all declarations of methods (with embedding), all programs, memories, values and effects of the methods", "why_tests_cant": "which methods Go finds depends on receivers, embedding and addressability; a test declares a few types", "anchors": ["deep_copy.go:18-39", "deep_copy.go:151-178", "deep_copy.go:180-217", "deep_copy.go:219-253"]}
{"id": "C114", "title": "An encoding is at most a fixed number of times as big as the value", "statement": "Let the size of a value be the number of its components, every byte of strings and byte slices counted. Then what MarshalBinaryBare, MarshalBinaryLengthPrefixed and MarshalJSON return has at most A bytes per unit of the size (and a few bytes more), where A depends on the program only: on the lengths of the names and on how much MarshalAmino and MarshalJSON methods return. So no value can be chosen, say by a peer whose message is decoded and passed on, that is amplified by encoding. The size is meant in memory: a variable that several pointers lead to counts once.", "quantifier": "for all programs, registrations, values and depths of recursion", "why_tests_cant": "the factor must hold for all values of all types, however they are nested; tests look at the sizes of a few encodings", "anchors": ["amino.go:143-245", "amino.go:495-528", "binary-encode.go:25-530", "json-encode.go:23-455"]}
{"id": "C115", "title": "What Unmarshal does with a target it cannot write to", "statement": "If the argument ptr of UnmarshalBinaryBare, UnmarshalBinaryLengthPrefixed, UnmarshalBinaryLengthPrefixedReader or UnmarshalJSON is nil or not a pointer, an error is returned; if it is a nil pointer the call panics, as the comments say; both whatever the input. Nothing is taken from a reader for a target that is refused. MarshalBinaryBare and MarshalBinaryLengthPrefixed panic on nil and on nil pointers.", "quantifier": "for all programs, inputs, readers and arguments", "why_tests_cant": "the checks come before or after others depending on the function, so what happens depends on the input too; tests try one input per bad argument", "anchors": ["amino.go:197-245", "amino.go:264-285", "amino.go:290-350", "amino.go:361-371", "amino.go:539-552"]}
{"id": "C116", "title": "Messages from other protobuf implementations", "statement": "UnmarshalBinaryBare (and UnmarshalBinaryLengthPrefixed for delimited streams) reads every serialization that protobuf allows for a message with the fields of the Go struct, and makes of it the value protobuf prescribes: numbers with superfluous digits, zero values written or left out, empty messages, packed numbers, timestamps, fields that the program does not know, at every nesting; for registered types behind the prefix bytes. Protobuf also allows any order of the fields, fields given twice (the last counts), numbers that are not packed, and superfluous digits everywhere.", "quantifier": "for all programs, struct types of kinds that protobuf knows, messages and serializations", "why_tests_cant": "amino's tests compare with messages that one protobuf library wrote in its canonical form; the other forms are infinitely many", "anchors": ["binary-decode.go:31-978", "decoder.go", "amino.go:361-445", "README.md"]}
{"id": "C117", "title": "The work of Unmarshal grows at most with the square of the message, and reaches it", "statement": "For a program with finitely wide types there is a factor K such that UnmarshalBinaryBare and UnmarshalBinaryLengthPrefixed, on any bytes of any origin and with any target, registered types and codec, whether they succeed or fail, take at most K·(n+1)² steps for n bytes; a step is one call of the decoder, one iteration of its loops or one byte copied. The square is needed: for every k there are messages of at most 11·k bytes, made of pointers nested k deep, that take at least k² steps, because every level copies everything inside it. From below, a call that succeeds takes at least one step for every 60 bytes.", "quantifier": "all byte strings, targets, codecs and programs whose structs and arrays have at most F fields and elements and whose unframed nesting has a rank; all k below 2^59", "why_tests_cant": "A benchmark measures chosen messages; that no message of an attacker takes more than quadratic work, and that nesting does reach it, are statements about all of them", "anchors": ["binary-decode.go:31-311", "binary-decode.go:459-760", "binary-decode.go:764-894", "decoder.go:280-306", "amino.go:361-445"]}
{"id": "C118", "title": "The work of Marshal grows at most with the square of the value, and reaches it", "statement": "For every program whose MarshalAmino methods return at most a fixed number of times as much as they are given, there is a factor K such that MarshalBinaryBare and MarshalBinaryLengthPrefixed, on any value and with any registered types, whether they succeed or fail, take at most K·n² steps, n the size of the value (its components, every byte of strings and byte slices counted, and everything its pointers lead to written out); a step is one call of the encoder, one iteration of its loops or one byte written to a buffer. If moreover the methods do not return deeper nested values, the work is at most K·n·d for values nested d deep, so proportional to the size for values of bounded depth. The square is needed: chains of k+1 pointers, of size 2k+2, take at least k² steps, because every level writes everything inside it again. From below, every byte of the result is counted.", "quantifier": "all values, types, codecs with prefix bytes as made by registrations, depths of recursion and programs with zero values of their types, representations bounded by B and chains of representations by R; all k", "why_tests_cant": "A benchmark measures chosen values; that no value takes more than quadratic work, that this is due to nesting alone, and that nesting does reach it, are statements about all of them", "anchors": ["binary-encode.go:25-201", "binary-encode.go:203-278", "binary-encode.go:302-530", "amino.go:143-167", "amino.go:203-245"]}
{"id": "C119", "title": "The command line of aminoscan", "statement": "aminoscan understands exactly the flags color and concrete-name (one or two dashes, value behind = or, for concrete-name, in the next argument; the last one wins) and --; every other flag ends the program. aminoscan HEX scans these bytes, aminoscan --color HEX prints them colored, aminoscan --concrete-name NAME prints the disambiguation and prefix bytes that every codec uses for a type registered as NAME, and MarshalBinaryBare writes these prefix bytes in front of its values. Bytes to scan may follow flags or --, and --help prints the help text.", "quantifier": "for all argument lists, all hash functions, all codecs made by a sequence of registrations, all values", "why_tests_cant": "Argument lists are unbounded and the tool has no tests; that the printed prefix is the one on the wire relates the tool to all codecs and values.", "anchors": ["cmd/aminoscan/aminoscan.go:14-67", "cmd/aminoscan/aminoscan.go:310-316", "codec.go:48-50", "codec.go:751-767"]}
{"id": "C120", "title": "Messages can be told apart by their prefix bytes", "statement": "NewPrefixBytes applied to a message of MarshalBinaryBare of a registered type is what NameToDisfix returns for its name; two messages have equal prefix bytes exactly if the names do; what can be read into a registered type has its prefix bytes; values written with disambiguation bytes are never taken for ones with prefix bytes. EqualBytes holds for a byte string exactly if it begins with the prefix.", "quantifier": "for all codecs made by a sequence of registrations, all hash functions, all values and byte strings", "why_tests_cant": "The claim relates the helpers to all registered types, values and messages.", "anchors": ["codec.go:33-50", "codec.go:751-767", "amino.go:197-250", "amino.go:361-390"]}
{"id": "C121", "title": "aminoscan lists the fields of what MarshalBinaryBare wrote", "statement": "Given the hexadecimal digits of a struct message of MarshalBinaryBare, aminoscan prints exactly the fields of the message, each between 1 and the number of encoded fields, then all bytes, their number, and no error.", "quantifier": "for all programs, codecs and struct values in the universe of the round trip, all hash functions, further arguments, digits in either case", "why_tests_cant": "The claim relates the tool to every message the encoder can write.", "anchors": ["cmd/aminoscan/aminoscan.go:60-200", "amino.go:197-250"]}

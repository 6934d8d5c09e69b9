import json
P=[]
def p(title, statement, quant, why, anchors):
    P.append(dict(id=f"C{len(P)+1:02d}", title=title, statement=statement, quantifier=quant, why_tests_cant=why, anchors=anchors))

p("Unsigned varint round trip, self-delimiting",
  "For every uint64 u and every byte string rest, DecodeUvarint on (the bytes EncodeUvarint(u) writes, followed by rest) returns u, no error, and n equal to exactly the number of bytes EncodeUvarint wrote.",
  "all 2^64 values and all byte strings that may follow",
  "2^64 values times unboundedly many suffixes; tests sample a handful of boundary values",
  ["encoder.go:EncodeUvarint","decoder.go:DecodeUvarint"])
p("Signed (zig-zag) varint round trip for int8, int16 and int64",
  "For every int64 i (resp. int8, int16) and every suffix, DecodeVarint (DecodeInt8, DecodeInt16) on the bytes EncodeVarint (EncodeInt8, EncodeInt16) writes returns i and the exact number of bytes written.",
  "all values of each signed type and all suffixes",
  "full 64-bit domain plus arbitrary suffixes",
  ["encoder.go:EncodeVarint","encoder.go:EncodeInt8","encoder.go:EncodeInt16","decoder.go:DecodeVarint","decoder.go:DecodeInt8","decoder.go:DecodeInt16"])
p("Size functions agree with the encoders",
  "UvarintSize(u), VarintSize(i) and ByteSliceSize(bz) equal the number of bytes EncodeUvarint(u), EncodeVarint(i), EncodeByteSlice(bz) write; the varint sizes are always between 1 and 10.",
  "all uint64 / int64 values and all byte slices",
  "UvarintSize uses a bit-length formula, the encoder a loop; agreement on samples says nothing about other bit lengths",
  ["encoder.go:UvarintSize","encoder.go:VarintSize","encoder.go:ByteSliceSize"])
p("Varint encodings are minimal",
  "No byte string shorter than what EncodeUvarint(u) writes is decoded to u by DecodeUvarint, and the emitted string is the only string of its length that decodes to u.",
  "all uint64 values and all byte strings",
  "quantifies over every competing byte string",
  ["encoder.go:EncodeUvarint","decoder.go:DecodeUvarint"])
p("Fixed-width integers and float bit patterns round trip",
  "EncodeInt32/Uint32/Float32 write exactly 4 bytes, EncodeInt64/Uint64/Float64 exactly 8, little-endian, and the corresponding Decode returns the same value (same bits for floats) and n=4 or 8 for every suffix; fewer bytes than that are rejected.",
  "all 32/64-bit values, all suffixes, all short inputs",
  "full domains",
  ["encoder.go:EncodeInt32","encoder.go:EncodeInt64","encoder.go:EncodeUint32","encoder.go:EncodeUint64","decoder.go:DecodeInt32","decoder.go:DecodeInt64","decoder.go:DecodeUint32","decoder.go:DecodeUint64","decoder.go:DecodeFloat32","decoder.go:DecodeFloat64"])
p("Primitive decoders are safe on arbitrary bytes",
  "Every Decode{Int8,Int16,Int32,Int64,Varint,Byte,Uint8,Uint16,Uint32,Uint64,Uvarint,Bool,Float32,Float64,Time,ByteSlice,String} call on every byte slice returns (never panics) with 0 <= n <= len(bz), and n>0 whenever it succeeds on anything but an empty Time.",
  "all byte strings",
  "fuzzing only samples; a single off-by-one would later become an 'impossible slide' panic in the struct decoder",
  ["decoder.go","reflect.go:slide"])
p("Narrow integers are range checked on decode",
  "If DecodeInt8/Int16/Uint8/Uint16 succeeds, the varint on the wire denotes exactly the returned value; a varint whose value does not fit is rejected with an error.",
  "all byte strings",
  "every out-of-range wire value must be rejected",
  ["decoder.go:DecodeInt8","decoder.go:DecodeInt16","decoder.go:DecodeUint8","decoder.go:DecodeUint16"])
p("Byte slices and strings round trip and truncation is detected",
  "DecodeByteSlice/DecodeString on EncodeByteSlice/EncodeString output plus any suffix returns the same bytes and exact n; on every proper prefix of that output it returns an error.",
  "all byte strings shorter than 2^63, all suffixes, all truncation points",
  "every truncation point of every length",
  ["encoder.go:EncodeByteSlice","encoder.go:EncodeString","decoder.go:DecodeByteSlice","decoder.go:DecodeString"])
p("Time round trip and range enforcement",
  "EncodeTime succeeds exactly on times whose Unix seconds lie in [-62135596800, 253402300800); DecodeTime on its output returns the same instant and consumes all of it; DecodeTime never returns a time outside that range or with nanoseconds outside [0,999999999].",
  "all (seconds, nanoseconds) pairs; all byte strings for the decode direction",
  "the time domain has about 3*10^20 points",
  ["encoder.go:EncodeTime","decoder.go:DecodeTime","decoder.go:decodeSeconds","decoder.go:decodeNanos"])
p("Field keys round trip",
  "The key bytes written for a field number below 2^29 and a Typ3 decode to the same number and Typ3 with exact n for every suffix; a key whose number is 2^29 or more is rejected.",
  "all field numbers, typ3 values, suffixes",
  "2^32 keys times suffixes",
  ["binary-encode.go:encodeFieldNumberAndTyp3","binary-decode.go:decodeFieldNumberAndTyp3"])
p("MarshalBinaryBare / UnmarshalBinaryBare round trip for structs",
  "For every struct (or repeated-struct) type built from bools, ints of every kind, unsafe floats, strings, []byte, [n]byte, time.Time, pointers, slices, arrays, nested and recursive structs, and registered interfaces holding registered struct implementations, and every value of it: if MarshalBinaryBare returns bytes, UnmarshalBinaryBare of exactly those bytes into a fresh variable succeeds and yields the value up to an explicit normalisation (empty slice -> nil, pointer to default -> nil, pointer shape of an interface value -> as registered, omitted nested struct -> Go zero value).",
  "all types in the grammar, all codecs reachable by registration, all values, unbounded depth and size",
  "infinitely many types and values; gofuzz samples a fixed handful of types",
  ["amino.go:MarshalBinaryBare","amino.go:UnmarshalBinaryBare","binary-encode.go:encodeReflectBinary","binary-decode.go:decodeReflectBinary"])
p("Length-prefixed round trip",
  "If MarshalBinaryLengthPrefixed(v) returns bytes then they are uvarint(len(bare)) followed by MarshalBinaryBare(v), and UnmarshalBinaryLengthPrefixed of them into a fresh variable yields the same result as UnmarshalBinaryBare of the bare bytes.",
  "all values and types (same universe as C11)",
  "all sizes, all types",
  ["amino.go:MarshalBinaryLengthPrefixed","amino.go:UnmarshalBinaryLengthPrefixed"])
p("Re-encoding a decoded value reproduces the bytes",
  "For every value v of the C11 universe with no omitted nested struct containing a time: Marshal(Unmarshal(Marshal(v))) = Marshal(v); i.e. normalisation does not change the encoding, so hashes of encodings are stable across a store/load cycle.",
  "all values in the universe",
  "signature/hash stability must hold for every message",
  ["amino.go:MarshalBinaryBare","amino.go:UnmarshalBinaryBare"])
p("Encoding is injective up to normalisation",
  "Two values of one type in the C11 universe have equal MarshalBinaryBare bytes only if their normalised forms are equal: no two semantically different messages share bytes.",
  "all pairs of values",
  "collision freedom quantifies over pairs",
  ["amino.go:MarshalBinaryBare"])
p("The binary decoder never over-reads: no 'impossible slide'",
  "For every byte string, every type and every target contents, UnmarshalBinaryBare never panics with 'impossible slide', and every internal decode step reports a consumed count n with n <= number of bytes it was given.",
  "all byte strings, all types, all codec states",
  "adversarial input space is unbounded",
  ["binary-decode.go","reflect.go:slide"])
p("The binary decoder never panics on adversarial bytes",
  "For every byte string, UnmarshalBinaryBare into a type without maps, interface pointers or untagged floats returns a value or an error, never panics.",
  "all byte strings, all such types, all registered codecs",
  "one panicking input is a remote crash; the space of inputs is unbounded",
  ["binary-decode.go:decodeReflectBinaryInterface","codec.go:getTypeInfoFromDisfixRlock"])
p("The binary decoder terminates with bounded recursion",
  "For every byte string of length L and every type whose MarshalAmino/UnmarshalAmino representation chain is finite, UnmarshalBinaryBare returns, with recursion depth at most linear in L.",
  "all byte strings and types, including recursive types",
  "non-termination and unbounded recursion cannot be observed by finite tests",
  ["binary-decode.go:decodeReflectBinary"])
p("Length-prefixed framing is exact",
  "UnmarshalBinaryLengthPrefixed rejects every proper prefix and every proper extension of a MarshalBinaryLengthPrefixed output, and accepts an input only if its uvarint prefix equals the number of remaining bytes.",
  "all values, all truncation points, all extensions",
  "every cut and every extension of every message",
  ["amino.go:UnmarshalBinaryLengthPrefixed"])
p("Reader decoding depends only on the byte stream, not its chunking",
  "For any io.Reader that delivers the same bytes split arbitrarily into non-empty reads, UnmarshalBinaryLengthPrefixedReader gives the same result and the same n, leaves exactly the bytes after the message unread, and a concatenation of k messages is read back as the k messages in order.",
  "all chunkings (schedules) of all streams, all message sequences",
  "chunkings are schedules: exponentially many",
  ["amino.go:UnmarshalBinaryLengthPrefixedReader"])
p("Reader honours maxSize",
  "With maxSize > 0, UnmarshalBinaryLengthPrefixedReader consumes at most max(maxSize,10) bytes from the reader whatever the bytes are, allocates a body of at most maxSize bytes, and succeeds only if prefix+body fit in maxSize.",
  "all byte streams, all maxSize values",
  "adversarial peers choose the stream",
  ["amino.go:UnmarshalBinaryLengthPrefixedReader"])
p("Reader rejects malformed length prefixes",
  "If the length prefix on the stream is not a valid uvarint (more than 10 bytes or overflowing 64 bits), UnmarshalBinaryLengthPrefixedReader reports an error.",
  "all byte streams",
  "needs all overflow patterns; the sampled tests never send one",
  ["amino.go:UnmarshalBinaryLengthPrefixedReader"])
p("Forward compatibility: unknown trailing fields are ignored",
  "If bz decodes into a struct type and extra is any sequence of well-formed fields with strictly increasing numbers above the struct's highest field number, then bz followed by extra decodes to the same value; in particular old code reads messages written with appended fields.",
  "all messages, all well-formed sequences of extra fields",
  "all possible future schemas",
  ["binary-decode.go:decodeReflectBinaryStruct","binary-decode.go:consumeAny"])
p("Field order is enforced",
  "Whenever decoding a struct succeeds, the field numbers on the wire are non-decreasing, and a number repeats only as entries of one repeated (unpacked list) field.",
  "all accepted byte strings",
  "quantifies over all accepted inputs",
  ["binary-decode.go:decodeReflectBinaryStruct"])
p("Default values take no space",
  "A struct whose fields are all default (nil, zero, false, empty, 1970 time, blank nested struct; no write_empty, no float, no non-empty array) encodes to zero bytes, and in general a field contributes bytes iff it is not omitted by the stated rule.",
  "all struct types and values",
  "all types",
  ["binary-encode.go:encodeReflectBinaryStruct","binary-encode.go:writeFieldIfNotEmpty","reflect.go:isDefaultValue"])
p("Decoding result does not depend on stale target contents",
  "Unmarshalling bytes into a variable that already holds data gives the same value as into a fresh variable, if the old data holds no non-nil interface and the type has no unexported/skipped fields; otherwise the only differences are an error for non-nil interfaces and preserved skipped fields.",
  "all byte strings, all old contents",
  "all combinations of stale data and input",
  ["binary-decode.go:decodeReflectBinaryStruct","binary-decode.go:decodeReflectBinaryArray"])
p("Interface values keep their dynamic type",
  "Encoding a registered interface holding a registered struct implementation and decoding it gives the same registered concrete type, in pointer or value form exactly as it was registered, with or without disambiguation bytes.",
  "all registries without failed registrations, all values, all prefix collisions resolved by priority lists",
  "prefix collisions cannot be provoked in tests without mining sha256",
  ["binary-encode.go:encodeReflectBinaryInterface","binary-decode.go:decodeReflectBinaryInterface","reflect.go:constructConcreteType"])
p("Prefix and disambiguation bytes are unambiguous",
  "For every name, NameToDisfix returns prefix bytes and disambiguation bytes that do not begin with 0x00, so DecodeDisambPrefixBytes applied to (prefix ++ rest) or (00 ++ disamb ++ prefix ++ rest) returns exactly those bytes and consumes exactly 4 or 8.",
  "all names and all sha256 outputs, all suffixes",
  "names with leading zero hash bytes are rare",
  ["codec.go:nameToDisfix","binary-decode.go:DecodeDisambPrefixBytes"])
p("Registered types are always prefixed and the prefix is verified",
  "MarshalBinaryBare of a registered type starts with its 4 prefix bytes; UnmarshalBinaryBare into a registered type returns an error on every input that does not start with them.",
  "all registered types, values, inputs",
  "all inputs",
  ["amino.go:MarshalBinaryBare","amino.go:UnmarshalBinaryBare"])
p("Registered names and disfixes stay unique",
  "After any sequence of successful RegisterInterface/RegisterConcrete/Marshal/Unmarshal calls, no two registered concrete types share a name, a disfix or a Go type, and lookups by name and by disfix return the type that was registered under it.",
  "all operation histories",
  "histories are unbounded",
  ["codec.go:setTypeInfoNolock","codec.go:RegisterConcrete"])
p("Registration order does not matter",
  "After any successful history the implementers an interface knows are exactly the registered concretes whose pointer type implements it, in whatever order interfaces and concretes were registered; two successful histories with the same registrations resolve every prefix and disfix identically.",
  "all histories and permutations of them",
  "n! orders",
  ["codec.go:collectImplementersNolock","codec.go:addCheckConflictsWithConcreteNolock"])
p("Prefix conflicts are caught or disambiguated",
  "After any successful history, if two implementers of an interface share prefix bytes then both are in its priority list, encoding either writes disambiguation bytes, and decoding those returns the right one.",
  "all histories, all hash collisions",
  "collisions cannot be sampled",
  ["codec.go:checkConflictsInPrioNolock","binary-encode.go:encodeReflectBinaryInterface"])
p("Seal stops registration",
  "Once Seal has returned, no later effect of RegisterInterface/RegisterConcrete is visible, in any interleaving of goroutines.",
  "all schedules of concurrent Register and Seal calls",
  "a schedule property",
  ["codec.go:Seal","codec.go:assertNotSealed","codec.go:RegisterConcrete"])
p("A failed registration leaves the codec unchanged",
  "If RegisterInterface or RegisterConcrete panics (conflict, duplicate name, duplicate type) and the panic is recovered, the codec behaves as if the call had not happened.",
  "all histories including failing calls",
  "needs every failure point of every history",
  ["codec.go:addCheckConflictsWithConcreteNolock","codec.go:setTypeInfoNolock"])
p("A recovered panic does not wedge the codec",
  "If any codec call panics and the panic is recovered, later calls on the codec still return (the codec mutex is released).",
  "all histories with recovered panics",
  "deadlock after a panic is not observable by unit tests that stop at the panic",
  ["codec.go:getTypeInfoWlock","codec.go:newTypeInfoUnregistered","reflect.go:checkUnsafe"])
p("Integers that do not fit the field are rejected",
  "Decoding a struct field of integer kind succeeds only if the wire value is in the range of the Go type, and then the field holds exactly that value.",
  "all byte strings, all ten integer kinds, fixed and varint",
  "all wire values",
  ["binary-decode.go:decodeReflectBinary"])
p("Nested messages are isolated",
  "Bytes inside a length-delimited field are never interpreted as fields of the enclosing message: the enclosing decoder resumes exactly after the declared length.",
  "all byte strings and types",
  "type confusion depends on adversarial lengths",
  ["binary-decode.go:decodeReflectBinaryStruct","binary-decode.go:decodeReflectBinarySlice","decoder.go:DecodeTime"])
p("Top-level non-struct values round trip",
  "For every value of a non-struct type (ints, strings, byte slices, arrays, lists), UnmarshalBinaryBare(MarshalBinaryBare(v)) yields v again.",
  "all values of all non-struct types",
  "all types and values",
  ["amino.go:MarshalBinaryBare","amino.go:UnmarshalBinaryBare"])
p("Non-struct implementations of interfaces round trip",
  "A registered non-struct concrete type (e.g. [4]byte, string, []int) stored in an interface field, interface list or decoded from its own top-level encoding into an interface comes back as the same value.",
  "all non-struct concretes, all positions",
  "position- and type-dependent key handling",
  ["binary-decode.go:decodeReflectBinaryInterface","binary-encode.go:encodeReflectBinaryInterface"])
p("Registering more types does not change existing encodings",
  "Registering a further concrete type whose prefix collides with no concrete type registered before, or a further interface, changes neither the bytes MarshalBinaryBare returns nor the result of any UnmarshalBinaryBare that succeeded before.",
  "all codecs, further registrations, values and byte strings",
  "all extensions of all registries",
  ["codec.go:RegisterConcrete","codec.go:RegisterInterface"])
p("The writer form writes exactly the length-prefixed bytes",
  "MarshalBinaryLengthPrefixedWriter hands the writer exactly MarshalBinaryLengthPrefixed(v) in one call and reports the writer's count; on a marshalling error nothing is written.",
  "all values and writers",
  "all values",
  ["amino.go:MarshalBinaryLengthPrefixedWriter"])
p("Encodings are schema-less parseable protobuf wire format",
  "The bare encoding of every struct whose types have no MarshalAmino override is a sequence of well-formed protobuf fields with non-decreasing numbers between 1 and the number of fields, so it can be split without the schema.",
  "all struct types and values",
  "all types",
  ["binary-encode.go:encodeReflectBinaryStruct"])
p("Multi-dimensional lists are rejected or preserved",
  "Encoding a list of lists either reports an error or the encoding determines the value.",
  "all list-of-list types and values",
  "all nesting shapes",
  ["binary-encode.go:encodeReflectBinary"])
p("Nested struct with an epoch time survives a round trip",
  "A struct nested by value inside another struct (or in a slice) comes back from a binary round trip with its time.Time fields unchanged.",
  "all nested struct types with times",
  "depends on one instant out of 10^20",
  ["reflect.go:defaultValue","binary-encode.go:writeFieldIfNotEmpty"])
p("MarshalAmino/UnmarshalAmino overrides are transparent",
  "A type with MarshalAmino to R and UnmarshalAmino from R is encoded exactly as its representation and decoded by decoding the representation and applying UnmarshalAmino, in every position.",
  "all override pairs, positions and values",
  "all types and positions",
  ["binary-encode.go:encodeReflectBinary","binary-decode.go:decodeReflectBinary","reflect.go:toReprObject"])
p("Struct metadata: field numbers and options",
  "Exported, non-skipped fields get field numbers 1,2,3,... in declaration order; adding, removing or retagging unexported or json:\"-\" fields changes no field number; an untagged float field makes the type unusable.",
  "all struct declarations and tags",
  "all declarations",
  ["codec.go:parseStructInfo","codec.go:parseFieldOptions","reflect.go:checkUnsafe"])
p("JSON round trip",
  "For every value of the C11 universe (plus string-keyed maps, minus unsafe floats), UnmarshalJSON(MarshalJSON(v)) into a fresh variable yields v up to JSON normalisation (empty slice -> nil, interface pointer shape as registered).",
  "all types and values",
  "all types and values",
  ["json-encode.go","json-decode.go","amino.go:MarshalJSON","amino.go:UnmarshalJSON"])
p("JSON integers: 64-bit quoted, exact, range checked",
  "int64/int/uint64/uint are written as quoted decimals and read back exactly; unquoted numbers are rejected for them; no value outside the range is accepted for any integer kind.",
  "all integers, all JSON inputs",
  "full domains",
  ["json-encode.go:encodeReflectJSON","json-decode.go:decodeReflectJSON"])
p("JSON floats tagged unsafe round trip",
  "A float field tagged amino:\"unsafe\" that MarshalJSON accepts is accepted again by UnmarshalJSON.",
  "all struct types with unsafe floats",
  "option plumbing depends on nesting position",
  ["json-decode.go:decodeReflectJSONStruct"])
p("MarshalJSON is deterministic",
  "MarshalJSON of the same value always gives the same bytes.",
  "all values, all map iteration orders",
  "map iteration order is a schedule",
  ["json-encode.go:encodeReflectJSONMap"])
p("JSON interface decoding never panics",
  "UnmarshalJSON of arbitrary JSON into a registered interface returns a value of a registered implementation or an error.",
  "all JSON inputs",
  "adversarial type names",
  ["json-decode.go:decodeReflectJSONInterface","codec.go:getTypeInfoFromNameRlock"])
p("DeepCopy returns an equal value",
  "DeepCopy(o) is structurally equal to o for every object of exported-field types without DeepCopy/MarshalAmino methods.",
  "all object graphs",
  "all shapes and depths",
  ["deep_copy.go:DeepCopy","deep_copy.go:_deepCopy"])
p("DeepCopy shares no mutable memory with the original",
  "No location reachable from DeepCopy(o) that can be written is reachable from o.",
  "all object graphs",
  "aliasing is a property of the heap for all shapes",
  ["deep_copy.go:_deepCopy"])
p("aminoscan terminates",
  "The aminoscan tool returns on every hex input.",
  "all byte strings",
  "non-termination cannot be tested",
  ["cmd/aminoscan/aminoscan.go:scanStruct"])
p("MarshalJSON always emits valid JSON for registered types",
  "For every registered name the disfix wrapper MarshalJSON writes is valid JSON whose type member decodes to that name.",
  "all registered names",
  "names are arbitrary strings",
  ["amino.go:MarshalJSON","json-encode.go:encodeReflectJSONInterface"])
p("Must* variants agree with their plain variants",
  "Each Must function returns exactly what the plain function returns when it reports no error, and panics exactly when it reports one.",
  "all inputs",
  "all inputs",
  ["amino.go:MustMarshalBinaryBare","amino.go:MustUnmarshalBinaryBare"])
p("Reader accepts every behaviour the io.Reader contract allows",
  "UnmarshalBinaryLengthPrefixedReader gives the same result for every reader that conforms to the io.Reader contract and delivers the same bytes, including readers that report the end of file together with the last bytes and readers that occasionally return no bytes and no error.",
  "all conforming readers, all streams",
  "the contract leaves the reader a choice at every call",
  ["amino.go:UnmarshalBinaryLengthPrefixedReader"])
p("Concurrent Marshal and Register are free of data races",
  "In no schedule of concurrent calls on one codec does a goroutine read or write the list of implementers of an interface while another goroutine writes it.",
  "all programs, all numbers of goroutines, all interleavings",
  "the race detector only sees the schedules that happen",
  ["codec.go:RegisterConcrete","codec.go:getTypeInfoWlock","binary-encode.go:encodeReflectBinaryInterface"])
p("aminoscan never panics",
  "On every byte string the aminoscan tool returns a count within the input and possibly an error, but does not panic; a well-formed message is scanned to its end without error.",
  "all byte strings",
  "adversarial bytes",
  ["cmd/aminoscan/aminoscan.go:scanStruct","cmd/aminoscan/aminoscan.go:scanByteLength","cmd/aminoscan/aminoscan.go:scanAny"])
p("DeepCopy leaves the original alone",
  "DeepCopy writes only to memory it allocates itself: every memory location that existed before holds the same content afterwards, unless a user method writes to it.",
  "all object graphs, all heaps",
  "all shapes and aliasings",
  ["deep_copy.go:DeepCopy","deep_copy.go:_deepCopy"])
p("UnmarshalJSON never panics",
  "On every byte string and every variable UnmarshalJSON terminates and returns either an error or a value of the variable's type; it does not panic.",
  "all byte strings, all types made of registered components, all old contents",
  "adversarial bytes; a boundary case two levels below the API",
  ["amino.go:UnmarshalJSON","json-decode.go:decodeReflectJSON","json-decode.go:decodeInterfaceJSON"])
p("Which JSON texts are accepted as integers",
  "A 64-bit integer is accepted only from a quoted decimal number, a smaller one only from an unquoted decimal number, each within the range of its type (the bare text null gives zero).",
  "all byte strings, all integer types",
  "infinitely many near misses: signs, leading zeros, exponents, white space",
  ["json-decode.go:decodeReflectJSON"])
p("UnmarshalJSON does not depend on old contents",
  "Unmarshalling the same JSON text into two variables of a type gives the same result, success or failure, whatever they held before.",
  "all types, all texts, all pairs of old contents",
  "needs all pairs of old contents",
  ["amino.go:UnmarshalJSON","json-decode.go:decodeReflectJSONStruct","json-decode.go:decodeReflectJSONInterface"])
p("Order of members and unknown members do not matter",
  "Decoding a struct from a JSON object depends only on the value the object gives last to each field's name: permuting the members or adding members with other names does not change the result.",
  "all struct types, all member lists, all permutations",
  "all permutations of all objects",
  ["json-decode.go:decodeReflectJSONStruct"])
p("aminoscan reports truncated input",
  "When the aminoscan tool finishes without an error, the input was a whole number of complete fields (key and value) and all of it was scanned.",
  "all byte strings",
  "every way a message can be cut off",
  ["cmd/aminoscan/aminoscan.go:scanStruct","cmd/aminoscan/aminoscan.go:scanVarint","cmd/aminoscan/aminoscan.go:scanByteLength"])
p("Every spelling of a JSON string is understood",
  "UnmarshalJSON into a string stores exactly the text that the literal spells, whichever mixture of raw UTF-8, two-character escapes, \\uXXXX escapes in either case and UTF-16 surrogate pairs the sender uses, and whatever white space surrounds it; and whatever bytes are read, the string stored is well formed UTF-8 (null stores the empty string).",
  "all texts, all spellings of each, all white space; for the second part all byte strings",
  "all mixtures of spellings of all texts",
  ["json-decode.go:decodeReflectJSON"])
p("Field numbers and wire types are checked",
  "If UnmarshalBinaryBare accepts an input, then every field whose number is that of a declared field carries the wire type of that field's type (length-delimited for repeated fields); a value that is not a struct starts with the key of field 1 and its wire type; and so does a non-struct implementation behind an interface, after the prefix bytes.",
  "all struct types, all other types, all interfaces and registered implementations, all inputs",
  "all combinations of declared types and wire types in adversarial inputs",
  ["binary-decode.go:decodeReflectBinaryStruct","binary-decode.go:decodeReflectBinaryInterface","amino.go:UnmarshalBinaryBare"])
p("Encodings are proto3 serializations",
  "MarshalBinaryBare writes the prefix bytes of a registered type and then exactly the proto3 serialization of the message the Go value stands for: fields numbered in declaration order, integers as int32/int64/uint32/uint64 or fixed32/fixed64 (int8 and int16 as sint32), floats, strings and bytes as such, times as google.protobuf.Timestamp, structs as messages, lists of numbers packed, other lists repeated, empty values left out, interface values as amino's extension; and a value stands for one message only.",
  "all supported types (overrides that keep the wire type), all values, all codecs",
  "all types and values at once, against an independent description of the format",
  ["binary-encode.go:encodeReflectBinary", "binary-encode.go:encodeReflectBinaryStruct", "binary-encode.go:encodeReflectBinaryList", "binary-encode.go:encodeReflectBinaryInterface", "binary-encode.go:writeFieldIfNotEmpty", "encoder.go:EncodeTime", "README.md"])
p("Programs with the same registrations understand each other",
  "If a writer and a reader have each, without a panic, made the same RegisterInterface and RegisterConcrete calls, in any order and mixed with uses of the codec and Seal, then MarshalBinaryBare and MarshalJSON give the same bytes on both sides, and whatever the writer marshals the reader unmarshals, without error, to the value the documented normalisation assigns to it. Nothing else about the state of the codecs matters.",
  "all programs (types, method sets, histories of codec calls on both sides), all values, binary and JSON",
  "Tests use one codec on both sides and one order of registration; the conditions under which an encoded interface value is readable by another process are never exercised.",
  ["codec.go:154-245", "amino.go:197-252", "amino.go:361-487", "amino.go:495-568"])
p("Decoding does not amplify memory",
  "If UnmarshalBinaryBare or UnmarshalBinaryLengthPrefixed accepts an input, the value it stores is no larger than what was there before plus a constant times the length of the input, where the constant depends on the declared types alone: not on the input, the registered concretes, the nesting of the message or the number of elements.",
  "all inputs, all codecs, all types of a program whose zero values, field counts and UnmarshalAmino methods are bounded",
  "A hostile message that unfolds into gigabytes is one among 2^(8n); tests try only the messages the encoder produces.",
  ["binary-decode.go:640-770", "binary-decode.go:459-588", "binary-decode.go:772-897", "decoder.go:275-300", "amino.go:264-285", "amino.go:361-445"])
p("White space between JSON tokens does not matter",
  "UnmarshalJSON gives the same result for a JSON text with white space (space, tab, newline, carriage return) before, after and between its tokens as for the compact text, for every target.",
  "all JSON texts, all ways to insert white space, all target types and prior contents, all codecs",
  "Infinitely many layouts of infinitely many texts; amino looks at the first and last byte of raw texts itself, which only differs from encoding/json on rare layouts.",
  ["json-decode.go:22-101", "json-decode.go:103-176", "json-decode.go:178-428", "json-decode.go:430-560", "amino.go:536-568"])
p("MarshalJSONIndent's text means what MarshalJSON's means",
  "Whenever MarshalJSON succeeds with a JSON text, MarshalJSONIndent with a prefix and indentation of white space succeeds too; its text is that text with white space between tokens, UnmarshalJSON into any target gives the same result for both, and a value written with it is read back as C46 says. The layout is the documented one for every prefix and indentation: each element and each closing bracket on its own line, beginning with the prefix and one indentation per level.",
  "all values, types, codecs, prefixes and indentations of white space, all targets",
  "Layouts and values are unbounded; the tests only compare one indented literal.",
  ["amino.go:577-592", "amino.go:495-528", "amino.go:536-568"])
p("JSON times are RFC 3339 instants in UTC",
  "A time.Time of the years 0 to 9999 is written as its Gregorian date and time of day in UTC in the notation of RFC 3339 ending in Z, in the shortest such notation; other instants are an error. Every RFC 3339 notation in UTC of an instant is read as exactly that instant, nothing else is read as a time, and what is written is read back exactly.",
  "all instants a time.Time can hold, all texts",
  "There are 2^63 * 10^9 instants; leap years, centuries, month lengths and trailing zeros are exactly where sampled tests miss errors.",
  ["json-encode.go:45-65", "json-decode.go:50-66"])
p("A JSON text determines the value",
  "Values of one type that MarshalJSON writes as the same text come back from UnmarshalJSON as the same value; different values that JSON has an exact notation for have different texts; and two values of registered types with the same text have the same type. So a signature over the JSON text of a registered value is a signature over the value.",
  "all pairs of values, of supported types, of registered types with plain names",
  "Injectivity relates all pairs of values; tests compare a few texts with their expected form.",
  ["amino.go:495-528", "json-encode.go:23-132", "json-decode.go:23-150"])
p("JSON round trips settle",
  "What a JSON round trip made of a value comes back unchanged from every further round trip, so its text no longer changes either.",
  "all values of supported types, any number of round trips",
  "Nil, empty, omitted and hidden parts of a value combine without bound; the tests make one round trip.",
  ["amino.go:495-568", "json-encode.go:195-341", "json-decode.go:195-460"])
p("Old messages are read by newer types",
  "A message written by an older version of a struct type is read by a newer version, which has the same fields followed by any others, as the same fields with the same contents, and the appended ones unset: Go's zero value, nil for pointers, and 1970 for times (also behind pointers).",
  "all old values, all lists of appended fields, all codecs",
  "Tests have one pair of type versions; the claim is for every struct type and every extension of it.",
  ["binary-decode.go:772-897", "reflect.go:130-164", "codec.go:430-500"])
p("JSON fields are matched by name",
  "The JSON text of a value of a struct type, read into a variable of any other struct type whose fields of the same JSON name have the same type, gives every field of a name written in the text its content, and leaves the others zero; members without a field are ignored. So fields may be added, removed and reordered.",
  "all pairs of struct types, all values",
  "Tests have at most a few pairs of type versions; adding, removing, reordering and hiding fields combine freely.",
  ["json-decode.go:361-428", "json-encode.go:260-341"])
p("Types may be changed at any depth",
 "Suppose the types of a program change: fields are renamed, fields are appended to structs at any depth (also to elements of lists and to registered implementations of interfaces), and untagged integers are widened within the families int8→int16, int32→int64/int, int64↔int, uint16→uint32→uint64/uint, uint64↔uint; registered names stay, and new registrations do not make old implementations ambiguous. Then every message written by MarshalBinaryBare with the old types is, byte for byte, what the new types write for the corresponding value, and UnmarshalBinaryBare with the new types reads it as that value. Widening across the families (int16→int32) is not safe: struct{int16}{5} is read as struct{int32}{10} without an error.",
 "for all programs, all pairs of related types, all values, all codecs",
 "Upgrades of a protocol combine changes at many places; tests cover a few pairs of types and values, while the claim is about every combination of allowed changes at every depth.",
 ["binary-encode.go:24-520","binary-decode.go:30-1000","amino.go:178-330","encoder.go:15-60"])
p("What can be written",
  "MarshalBinaryBare succeeds exactly when the value is not a nil pointer, all types reached are known to the codec (interfaces registered, floats tagged unsafe), interfaces hold non-nil values of registered types, times are in years 1 to 9999, MarshalAmino succeeds, no nil pointer is tagged write_empty or is an element of a list tagged empty_elements, and there are no lists of lists (except of bytes). In every other case it fails; in no case does success depend on anything else, such as the size or depth of the value.",
  "all programs, codecs, types and values", "that nothing else makes the encoder fail, however deep the value, is a statement about all values",
  ["amino.go:MarshalBinaryBare","binary-encode.go:encodeReflectBinary"])
p("What was read can be written again",
  "If UnmarshalBinaryBare accepts a byte string, MarshalBinaryBare succeeds on the value read, so that every accepted message can be forwarded, and the new encoding is understood in turn. False in general: an absent pointer tagged write_empty is read as nil, on which the encoder panics; an absent array of pointers tagged empty_elements is read as nil pointers, on which it returns an error.",
  "all byte strings and all programs without those tags on pointers", "accepted byte strings are more than the encodings: missing fields, non-minimal varints, explicit defaults",
  ["amino.go:UnmarshalBinaryBare","amino.go:MarshalBinaryBare","binary-decode.go:decodeReflectBinary"])
p("The JSON that is written",
  "MarshalJSON writes a JSON notation (RFC 8259) for one definite document determined by the value: null for nil pointers, slices and interfaces, an object with the visible fields that are not left out by omitempty, in the order of declaration, for structs, arrays for lists, base64 (RFC 4648) for bytes, strings of digits for 64-bit integers, numbers for smaller ones, {\"type\": name, \"value\": ...} around registered types in interfaces and at the top, MarshalJSON for types that have it (and, for addressable values, whose pointers have it), MarshalAmino's representation for types that have that, and U+FFFD for bytes that are not UTF-8.",
  "all programs, values and codecs whose registered names need no escapes",
  "A reader and a writer that agree on a wrong format pass every round-trip test; the format is a claim about every value.",
  ["amino.go:495-528", "json-encode.go:23-472"])
p("What can be written as JSON",
  "MarshalJSON succeeds exactly when all types reached are known to the codec (interfaces registered, floats in structs tagged unsafe), interfaces hold registered types and no nil pointers, floats have a text (neither infinite nor NaN) and are in tagged fields, times are in years 0 to 9999, byte lists that are not addressable have elements of type byte itself, and the methods MarshalJSON and MarshalAmino succeed. In every other case it fails; in no case does success depend on anything else, such as the size or depth of the value.",
  "all programs, codecs, types and values", "that nothing else makes the encoder fail, however deep the value, is a statement about all values",
  ["amino.go:495-528", "json-encode.go:23-472"])
p("What was read from JSON can be written again",
  "If UnmarshalJSON accepts a text, MarshalJSON succeeds on the value read. False in general: null elements of a list of floats are accepted and become zeros, for which MarshalJSON returns an error; a list of a named byte type is read, but MarshalJSON panics on it unless it is given a pointer.",
  "all texts and all programs without untagged floats and lists of named byte types, whose methods come in pairs", "accepted texts are more than the texts written: missing and unknown members, white space, null, escapes",
  ["amino.go:495-572", "json-encode.go:23-472", "json-decode.go:22-560"])
p("A pointer or a value: the same encoding",
  "Marshalling a pointer to a value gives what marshalling the value gives, in binary and JSON; callers pass either. False in general: an array of a named byte type (type MyByte byte; [2]MyByte) reached from a value that is not addressable makes MarshalBinaryBare panic, while with a pointer it succeeds, and MarshalJSON declared for the pointer is used only with a pointer. But if marshalling the value to binary succeeds, marshalling the pointer gives the same bytes.",
  "all programs, codecs and values; equality for programs without arrays of named byte types, and for JSON also without methods declared for pointers only",
  "addressability depends on the path by which a value is reached (slices, pointers, interfaces, representations); tests pass few combinations",
  ["binary-encode.go:280-300", "json-encode.go:45-66", "json-encode.go:212-230", "reflect.go:225-242"])
p("Every call returns",
  "However many goroutines use a codec at once, and in whatever order they are scheduled, no deadlock arises: as long as some goroutine is inside a call (registering, marshalling, sealing, PrintTypes), one of them can go on, and once no new calls are made all of them return after a bounded number of steps, although a waiting writer of sync.RWMutex holds up new readers.",
  "all programs, all numbers of goroutines, all schedules from the empty codec, all reachable states",
  "A deadlock shows only under particular interleavings of lock acquisitions; the number of schedules is unbounded.",
  ["codec.go:163-250 (RegisterInterface, RegisterConcrete, Seal)", "codec.go:253-309 (PrintTypes)", "codec.go:364-446 (getTypeInfo_wlock, the lookups under RLock)"])
p("JSON output is safe in HTML and on one line",
  "Whatever strings, map keys and bytes a value contains, what MarshalJSON writes is valid UTF-8 without control characters (in particular without line breaks), without <, > and &, and without U+2028 and U+2029; so a message can be put on a line of its own, into an HTML page or a script.",
  "all programs, codecs, values and types",
  "It is a claim about every string, including malformed UTF-8, at every place of every value; tests check a few strings.",
  ["json-encode.go:23-132 (encodeReflectJSON)", "json-encode.go:134-193 (names in the disfix wrapper)", "json-encode.go:416-423 (invokeMarshalJSON)", "amino.go:495-528 (MarshalJSON)"])
p("Through JSON to the same bytes",
  "Marshalling a value to JSON, unmarshalling the text and marshalling the result to binary gives the bytes that marshalling the value to binary gives; values with the same JSON text have the same binary encoding, so a hash or signature of the binary form survives a client that only speaks JSON. (Although the value itself need not survive: empty slices come back nil, nil maps empty.)",
  "all programs, codecs, values and types without floats",
  "The two formats leave out and default different things (omitempty, write_empty, null, empty lists, pointers); tests compare the few combinations somebody thought of.",
  ["json-encode.go:23-330", "json-decode.go:19-420", "binary-encode.go:25-530", "reflect.go:105-126", "json-encode.go:448-470"])
p("One message, one byte string",
  "A value has one accepted encoding: if UnmarshalBinaryBare accepts two byte strings with the same result, they are equal. Where the decoder is more tolerant than that, encoding the result again and comparing it with the input tells exactly whether some value is encoded as the input, and encoding the result gives a canonical form that is accepted and is its own canonical form.",
  "all programs, codecs, byte strings and types",
  "It speaks about every byte string the decoder accepts, including ones no encoder writes; tests feed the decoder with what the encoder wrote.",
  ["amino.go:197-238 (MarshalBinaryBare)", "amino.go:361-436 (UnmarshalBinaryBare)", "binary-decode.go:25-978"])
p("Later registrations keep the JSON",
  "Registering further types and interfaces on a codec changes no JSON text and no JSON decoding that worked before, for every type that is not itself registered meanwhile; even if the new types' prefix bytes collide with old ones (which can break the binary encoding).",
  "all programs, sequences of registrations, values, types and texts",
  "It compares a codec with all its later states; tests use a codec in one state.",
  ["codec.go:116-243 (registration)", "json-encode.go:134-193", "json-decode.go:173-234", "amino.go:495-568 (MarshalJSON, UnmarshalJSON)"])
p("Streams that break off",
  "When a stream of length-prefixed messages breaks off at any byte, UnmarshalBinaryLengthPrefixedReader reads the messages that are complete as if nothing had happened, and then fails; it never makes a message out of an incomplete one. The error is io.EOF exactly if the stream broke off between two messages.",
  "all readers that deliver the stream (in any pieces), sequences of messages, places to break off, targets and sizes",
  "There is one place to break off per byte and one way to deliver the rest per partition; tests cut a message or two at a few places.",
  ["amino.go:287-350 (UnmarshalBinaryLengthPrefixedReader)"])
p("Calls while others register","Marshal and Unmarshal (binary, length-prefixed and JSON) look types up one at a time, and other goroutines may register or use types between two look-ups. The outcome of such a call — result, error or panic — is nevertheless that of the same call made alone at the moment it ends, as if all its look-ups had happened then; and a successful result is what the same call would give at any later time.","for every reachable codec, every type, value, byte string and JSON text, every schedule of successful registrations, uses and seals by other goroutines between the look-ups, all hash functions","the schedules are infinitely many, and a test run meets only those the scheduler happens to produce; the race detector finds unsynchronised accesses but not mixed results",["codec.go:366-446","binary-encode.go:205-280","binary-decode.go:309-445","json-encode.go:141-193","json-decode.go:270-340","amino.go:197-245","amino.go:361-445"])
p("The table of registered types","PrintTypes writes a table with one row per registered concrete type, in the order of registration, from which the type, the registered name, the prefix bytes and the length of its encoding can be read back; nothing else is listed. If the writer reports an error, PrintTypes stops there and returns this error, and the writer has received a beginning of the table.","for every history of successful registrations, all type names, all registered names without | and line feed, every writer (any state machine that may fail at any write)","tests print a few types into a buffer that never fails; they do not cover every registry, nor a failure at each of the writes",["codec.go:253-325"])
p("The variable after a failed Unmarshal",
"A failed UnmarshalBinaryBare does no lasting harm to the variable. It holds a value of its type. Decoding into it again, after any number of calls of which any may have failed, gives what decoding into a new variable gives. Numbers, strings, times, slices and byte arrays are not changed by a failed call. Fields that are not encoded are never changed.",
"All programs, codecs, types, old contents, byte strings, sequences of calls, and anything that a failing UnmarshalAmino may leave behind.",
"What is left depends on where the bytes break off and on the old contents; tests throw the variable away after an error.",
["binary-decode.go:52-58","binary-decode.go:398-403","binary-decode.go:499-526","binary-decode.go:795-867","amino.go:423-444"])
p("The variable after a failed UnmarshalJSON",
"When UnmarshalJSON returns an error, the target variable is as before the call; or at least a later successful UnmarshalJSON into it gives what it gives for a new variable, so that nothing of a rejected text ends up in an accepted value.",
"all programs, codecs, types, prior contents, sequences of earlier calls of UnmarshalJSON (failed or not), texts, and behaviours of failing UnmarshalJSON and UnmarshalAmino methods",
"Tests check the error and drop the variable. What is left in it depends on how far decoding came, in every nesting of structs, arrays, pointers and interfaces, and whether it shows up later depends on the next text.",
["amino.go:539-568","json-decode.go:18-153","json-decode.go:173-234","json-decode.go:250-293","json-decode.go:386-422"])
p("The text of struct tags",
"In struct tags of the conventional form (key:\"value\" pairs, plain values), the options of a field depend only on the first values given to binary, amino and json: neither the order of the pairs nor the spaces between them nor the tags of other packages matter, and a field tagged json:\"-\" is never encoded. Tags of another form are not reported: with a comma between the pairs, json:\"-\" is silently ignored and the field is encoded.",
"all conventional tag texts (any number of pairs, keys, values, spaces), all field declarations, all struct types and values, any behaviour of strconv.Unquote on other texts",
"Tests use a handful of tag texts; that no other text changes the wire format is a statement about the tag parser on all texts.",
["codec.go:499-548","codec.go:448-497"])
p("Which struct tags can be changed without breaking stored data",
"Let two versions of a program declare the same types and fields and differ only in struct tags. If only json names and omitempty differ, MarshalBinaryBare, MarshalBinaryLengthPrefixed, UnmarshalBinaryBare and UnmarshalBinaryLengthPrefixed give the same results in both. If in addition amino:\"write_empty\" differs, both versions read binary data in the same way, so each reads what the other writes, with the result the writer's own version would get. If only binary:\"fixed32\", binary:\"fixed64\", amino:\"write_empty\" and amino:\"empty_elements\" differ, MarshalJSON and UnmarshalJSON give the same results. The remaining changes do matter: adding fixed32 to a number makes old data unreadable, adding it to a list of numbers makes old data read as other numbers without an error, empty_elements turns nil into a pointer to an empty struct, and renaming a JSON member loses its data without an error.",
"all programs, all pairs of tag assignments, all values, all variables, all byte strings",
"A test has one set of tags; independence of a tag is a statement about pairs of programs and all inputs.",
["codec.go:456-540","binary-encode.go:351-430","binary-decode.go:828-930","json-encode.go:285-360","json-decode.go:366-425"])
p("aminoscan prints every byte of its input, and for a well-formed message exactly its fields",
  "The argument of aminoscan is accepted exactly if it consists of two hexadecimal digits per byte, in small or capital letters. Whatever the bytes, if aminoscan returns, its last line is all bytes of the input in order, then the number of bytes scanned and the error of the scan. For a well-formed message what is printed is, apart from the colors, the listing of the fields: for each field a line with key, field number and wire type, and a line with the value (varints read as zig-zag and as unsigned number, byte strings counted), then the message and its length. The output of aminoscan --color determines the bytes.",
  "for all inputs; for all well-formed messages of any number of fields",
  "The tool has no tests; which bytes end up in the output depends on where scanning stops, for unboundedly many inputs.",
  ["cmd/aminoscan/aminoscan.go:14-188", "cmd/aminoscan/colors.go:11-68", "amino.go:110-131"])
p("Unmarshal writes only to the variable it is given and keeps no reference to its input",
  "UnmarshalBinaryBare(bz, ptr), whatever its outcome, changes no memory except *ptr, what the pointers in it lead to, and newly allocated variables; afterwards *ptr refers to nothing that could not be reached from it before, except new variables. So the input bytes are neither changed nor aliased by the result, and other variables keep their contents, also if *ptr contains shared or cyclic pointers.",
  "for all programs, types, inputs, memories (with any sharing), and outcomes including errors and panics; UnmarshalAmino methods that keep to the same rule",
  "Aliasing with the input or with other variables shows only when those are looked at or changed later; which memory is involved depends on the shape of the target.",
  ["binary-decode.go:31-311", "binary-decode.go:500-526", "binary-decode.go:591-629", "binary-decode.go:795-894", "decoder.go:275-297", "reflect.go:130-190", "amino.go:361-445"])
p("Unmarshal stores what was encoded, wherever the variable points",
  "Unmarshalling into a variable has the outcome, and on success leaves the contents, that the decoder computes from the old contents of the variable alone, whatever memory the variable lies in and whatever pointers it contains. So everything proved about decoded values (round trip, malformed input, resets of absent fields) holds for Go variables in memory.",
  "for all programs whose UnmarshalAmino methods only use what they are given, all codecs, types, inputs, memories and target variables",
  "The tests decode into fresh variables. That pointers of an old target are reused, and what happens when they are shared or form a cycle, depends on the memory, of which a test covers one shape.",
  ["binary-decode.go:23-120", "binary-decode.go:420-960", "amino.go:370-440"])
p("UnmarshalJSON takes nothing but JSON, and shows methods nothing but JSON",
  "If UnmarshalJSON succeeds, its input is a JSON text (RFC 8259: one value, white space around it and between tokens); and UnmarshalJSON methods of the program's types (which, by the contract of json.Unmarshaler, may assume that their argument is a valid encoding of a JSON value) are only called with JSON texts.",
  "for all programs, codecs, types, targets and byte strings",
  "The set of byte strings that are not JSON is infinite, and where amino looks at bytes itself (quotes of 64-bit integers, direct calls of methods) no JSON scanner has seen them.",
  ["json-decode.go:18-153", "json-decode.go:493-515", "amino.go:539-568"])
p("Which JSON texts are read as bytes",
  "UnmarshalJSON into a slice of bytes succeeds exactly on these texts, with white space allowed around the text and around elements: null, which gives no bytes; a string that spells, with any escapes, letters of the base64 alphabet and padding to a multiple of four, line breaks not counting, which gives the bits of the letters; an array whose elements are whole numbers from 0 to 255 without sign, fraction or exponent, which gives those numbers, or null, which gives the byte that the slice held at that place (0 behind its end). The bits of the last letter that belong to no byte are ignored. For an array of n bytes the text must give exactly n bytes, except that the bare text null gives the zero value. A pointer to a slice that gets no bytes becomes nil, not empty.",
  "for all programs, codecs, types of byte slices and byte arrays without methods, targets and byte strings",
  "Both directions quantify over all texts; a test can show some accepted and some refused texts, but not that nothing else is accepted (a second text after the padding, a number 256, a negative zero) and nothing valid refused.",
  ["json-decode.go:250-275", "json-decode.go:305-330", "json-encode.go:217-229"])
p("Which JSON texts UnmarshalJSON accepts and what it makes of them",
"UnmarshalJSON(bz, ptr) succeeds exactly if the text is one of those described by a grammar over the type of *ptr and its old contents, and then *ptr holds exactly the value the grammar gives, which is unique. In the grammar, with white space allowed wherever RFC 8259 allows it: null alone is the zero value; pointers are followed (new variables if nil); types with UnmarshalJSON get the text, types with UnmarshalAmino what their representation is read as; a registered type stands in an object whose members type and value (letter case of the names not counting for ASCII letters; of several members the last counts) hold its name and its text, and so does the value of an interface; strings are texts in quotes with their escapes resolved; integers of up to 32 bits are whole numbers in range, those of 64 bits the same in quotes; null in their place is zero; times are quoted and end in Z; slices are new, arrays and structs are read over their old elements; a field takes the last member of its name, without one it becomes zero or, if tagged omitempty, stays; unexported and skipped fields stay; maps take the last member for each name; untagged floats are never read.",
"for all programs whose values respect their types, all codecs, types, old contents and byte strings",
"There are infinitely many texts for every type, and what a text is read as depends on the nesting of types, on duplicates, escapes and white space and on the old contents.",
["json-decode.go:16-480","amino.go:416-446"])
p("Which bytes UnmarshalBinaryBare accepts and what it makes of them","UnmarshalBinaryBare(bz, ptr) succeeds exactly if the bytes are ones described by a grammar over the type of *ptr and its old contents, and then *ptr holds exactly the value the grammar gives, which is unique; UnmarshalBinaryLengthPrefixed accepts exactly the same bytes behind their count. In the grammar: numbers have at most ten base-128 digits, superfluous ones allowed; a registered type has its four prefix bytes first; values that are not structs, times or lists of them have the key of field 1 unless there are no bytes at all; the fields of a struct stand in the order of declaration with their number and wire type, those not there become the default, those of unexported and skipped fields stay, and behind them may stand unknown fields with increasing numbers and contents of their wire type; integers are in the range of their kind, except that a uint32 takes the lower 32 bits; packed lists are their elements one after the other; other lists are items each with the key of the list, a zero byte standing for the default; slices are new, arrays and structs are read over their old elements, with exactly as many elements; times have seconds and nanoseconds in range, in order; an interface must be nil before, and has the prefix or disambiguation bytes of a registered implementation and its contents up to the end; types with UnmarshalAmino get what their representation is read as; untagged floats, maps and pointers to interfaces are never read.","for all programs, codecs, types, old contents and byte strings","There are infinitely many byte strings for every type, and what one is read as depends on the nesting of types, on the counts and keys in it, on what is registered and on the old contents.",["binary-decode.go:31-978","amino.go:264-285","amino.go:361-445"])
p("Marshal reads a value wherever it is in memory",
  "MarshalBinaryBare, MarshalBinaryLengthPrefixed and MarshalJSON of a value in memory give exactly what they give for the tree obtained by following all its pointers, slices, maps and interface values: it makes no difference whether variables are shared, slices overlap or pointers lead into other structs. Decoding the bytes into a new variable gives that (normalised) tree in new memory without any sharing. For a value that contains itself, or has parts within parts without end in visible fields, elements, map values or interface values, no bytes are ever returned; for a node that points to itself the call does not return at all. As shared variables are written each time they are met, the encoding of n variables can have 2^n bytes.",
  "all programs, codecs, memories, values and types; methods that do on memory what they do on trees; recursion of any depth",
  "sharing and cycles in memory are unbounded graphs; tests compare trees and cannot show that a call never returns for any depth",
  ["binary-encode.go:25", "binary-encode.go:302", "binary-encode.go:391", "json-encode.go:23", "reflect.go:64", "amino.go:197", "amino.go:495"])
p("UnmarshalJSON writes only to the variable it is given and keeps no reference to its input",
"UnmarshalJSON(bz, ptr), whatever its outcome, changes no memory except *ptr, what the pointers in it lead to, and newly allocated variables; afterwards *ptr refers to nothing that could not be reached from it before, except new variables. So the text is neither changed nor aliased by the result, and other variables keep their contents, also if *ptr contains shared or cyclic pointers.",
"for all programs, types, texts, memories (with any sharing), and outcomes including errors and panics; UnmarshalJSON and UnmarshalAmino methods that keep to the same rule",
"Aliasing with the input or with other variables shows only when those are looked at or changed later; which memory is involved depends on the shape of the target.",
["json-decode.go:18","json-decode.go:173","json-decode.go:236","json-decode.go:294","json-decode.go:363","json-decode.go:428","amino.go:539"])
p("UnmarshalJSON builds in memory exactly the value its text describes",
"UnmarshalJSON(bz, &x), for an x that holds no pointers, slices, maps or interface values (a new variable in particular), has exactly the outcome that the rules for trees give (the same value, error or panic), and following all pointers, slices, maps and interface values from x afterwards gives exactly that value. Whatever the outcome, everything x refers to is newly allocated and no other variable changes. So a value in memory, however its parts are shared, that is written with MarshalJSON and read into a new variable comes back with the same (normalised) contents, apart from the original.",
"for all programs, types, texts, memories and outcomes; UnmarshalJSON and UnmarshalAmino methods that do on memory what they do on trees",
"The decoder writes through pointers and into slices, maps and interface values that it allocates on the way, some of them twice; that no later step disturbs an earlier one is a statement about all texts, types and memories.",
["json-decode.go:18","json-decode.go:173","json-decode.go:236","json-decode.go:294","json-decode.go:363","json-decode.go:428","amino.go:539","json-encode.go:23"])
p("What becomes of a message of which the end is missing",
"A message that is cut off is refused, and not taken for another message. In full this is false of the code, which cannot tell that the last fields of a bare struct are missing; what is proved: if UnmarshalBinaryBare accepts a front of what MarshalBinaryBare wrote for a struct, it makes of it the first fields as they were, then at most one field that is cut (of a repeated field its first elements, at least one, of an array of repeated elements all of them; or a byte slice read as nil because only its key was there; an element of a list of byte slices likewise), and all other fields as if left out. No field is ever changed otherwise, no element invented. Every cut between two fields is accepted. UnmarshalJSON refuses any proper front of what MarshalJSON wrote, unless the text is that of a number.",
"for all programs, codecs, struct types, values, positions of the cut and bounds of recursion",
"There are as many cuts as bytes in as many messages; a test tries a few. That a cut inside a nested struct, a count or a key never yields a plausible but different value needs an induction over types.",
["binary-decode.go:763","binary-decode.go:816","binary-decode.go:591","binary-decode.go:606","binary-decode.go:705","binary-decode.go:459","decoder.go:280","amino.go:361","json-decode.go:18","amino.go:539"])
p("UnmarshalJSON does not amplify memory",
"For every program there is a constant K, depending on its types alone, such that a successful UnmarshalJSON of n bytes into a variable leaves in it at most what it held before plus K·(n+1) components and bytes: no short text becomes a huge value. This fails exactly where two encoded fields of a struct have the same JSON name, which amino does not reject: both are read from the same member, and with a recursive type a text of 6n+4 bytes becomes a value of more than 2^n nodes.",
"all programs with finite types and methods that do not blow up their input, all registrations, all targets, all byte strings",
"a test decodes one text; the claim bounds the result of every text by one constant per program",
["json-decode.go:18-153","json-decode.go:240-300","json-decode.go:300-360","json-decode.go:365-425","json-decode.go:430-480","codec.go:448-548","amino.go:539-568"])
p("The order in which Go walks maps affects only the order of members",
  "Whatever order Go picks to walk the maps inside a value (the order differs from run to run), MarshalJSON succeeds for all orders or for none; any two of the texts differ only in the order of members inside objects (so they have the same length and the same bytes), and UnmarshalJSON makes the same value of each of them.",
  "all programs, all values of any nesting, all pairs of iteration orders at every map inside the value",
  "the number of orders is the product of the factorials of all map sizes, and Go picks them at random",
  ["json-encode.go:encodeReflectJSONMap","json-decode.go:decodeReflectJSONMap"])
p("Which MarshalAmino and UnmarshalAmino are used","When a type is first used, amino takes MarshalAmino from the method set of the type and UnmarshalAmino from the method set of the pointer to it, by Go's rules for promoted methods, and panics exactly if one of them has not the form () (R, error) or (R) error with R not a pointer. So methods a type declares itself (MarshalAmino with a value receiver) are used whatever it embeds; MarshalAmino declared with a pointer receiver is ignored; a type that neither declares nor embeds one has none; one that embeds exactly one type with MarshalAmino is written by that method, and by none if it embeds two. Not guaranteed: that the two methods fit together (a pointer receiver or different representation types are accepted, and what is written cannot be read), or that a struct embedding such a type keeps its other fields.","all sets of type declarations with methods and embedded fields, cyclic ones included, all types","Depends on the whole graph of embedded types; the tests declare methods directly on the type with matching signatures only.",["codec.go:551-576","codec.go:775-813"])
p("JSON round trip with the program's own JSON methods","If the program's methods MarshalJSON write JSON (not null) and its methods UnmarshalJSON make the same value (or a given normal form) of it, then values of these types are written as valid JSON and read back, wherever they occur inside other values. False in general: MarshalJSON with a pointer receiver is not used for values that are not addressable, while UnmarshalJSON always is.","all programs, sets of types, methods obeying the law, values; all nestings","Depends on what is written around the method's output at every nesting; the tests have one such type.",["json-encode.go:53-62","json-decode.go:52-66","amino.go:495-568"])
p("MarshalText and UnmarshalText in JSON","A type of kind bool, string or integer of at most 32 bits with methods MarshalText and UnmarshalText is written and read exactly as if it had JSON methods that write the text as a JSON string and read one; types of other kinds have MarshalText ignored. So such values come back if the methods undo each other and write UTF-8. False for 64-bit integers: the number is written, and UnmarshalText is asked to read it, so what MarshalJSON writes is never read.","all programs without text methods of floats and with string keys, all values","amino does not mention these methods; encoding/json finds them behind its back.",["json-encode.go:103-125","json-decode.go:116-171"])
p("Map keys in JSON","Maps with keys of type string are written and read. Maps with keys of another kind are refused by MarshalJSON and UnmarshalJSON with an error. Maps with keys of a named string type without methods are written like maps with keys of type string, but no entry is ever read back: UnmarshalJSON panics on the first entry it can decode. If the key type has MarshalJSON, what is written need not be JSON.","all programs, maps, texts","The tests use map[string]... only.",["json-encode.go:345-410","json-decode.go:426-478"])
p("DeepCopy uses the methods of a type","DeepCopy copies a value of a type with DeepCopy() T by that method, and otherwise a value of a type with MarshalAmino and UnmarshalAmino (of the same representation) by making a new variable and giving UnmarshalAmino what MarshalAmino returned, panicking if one of them fails; it uses the same methods as the encoder and decoder. As the code is: this holds for methods DeepCopy in the method set, and for pointers to types with the pair; where encoder and decoder both use methods with one representation, DeepCopy of a pointer does too. It fails for the pair otherwise: DeepCopy of a value does not use it, DeepCopy of a slice of values or of a pointer to a struct with a field of the type panics, MarshalAmino with a pointer receiver is used by DeepCopy but not by the encoder, and methods promoted from an embedded type lose the other fields.","all declarations of methods (with embedding), all programs, memories, values and effects of the methods","which methods Go finds depends on receivers, embedding and addressability; a test declares a few types",["deep_copy.go:18-39","deep_copy.go:151-178","deep_copy.go:180-217","deep_copy.go:219-253"])
p("An encoding is at most a fixed number of times as big as the value",
  "Let the size of a value be the number of its components, every byte of strings and byte slices counted. Then what MarshalBinaryBare, MarshalBinaryLengthPrefixed and MarshalJSON return has at most A bytes per unit of the size (and a few bytes more), where A depends on the program only: on the lengths of the names and on how much MarshalAmino and MarshalJSON methods return. So no value can be chosen, say by a peer whose message is decoded and passed on, that is amplified by encoding. The size is meant in memory: a variable that several pointers lead to counts once.",
  "for all programs, registrations, values and depths of recursion",
  "the factor must hold for all values of all types, however they are nested; tests look at the sizes of a few encodings",
  ["amino.go:143-245","amino.go:495-528","binary-encode.go:25-530","json-encode.go:23-455"])
p("What Unmarshal does with a target it cannot write to",
  "If the argument ptr of UnmarshalBinaryBare, UnmarshalBinaryLengthPrefixed, UnmarshalBinaryLengthPrefixedReader or UnmarshalJSON is nil or not a pointer, an error is returned; if it is a nil pointer the call panics, as the comments say; both whatever the input. Nothing is taken from a reader for a target that is refused. MarshalBinaryBare and MarshalBinaryLengthPrefixed panic on nil and on nil pointers.",
  "for all programs, inputs, readers and arguments",
  "the checks come before or after others depending on the function, so what happens depends on the input too; tests try one input per bad argument",
  ["amino.go:197-245","amino.go:264-285","amino.go:290-350","amino.go:361-371","amino.go:539-552"])
p("Messages from other protobuf implementations",
  "UnmarshalBinaryBare (and UnmarshalBinaryLengthPrefixed for delimited streams) reads every serialization that protobuf allows for a message with the fields of the Go struct, and makes of it the value protobuf prescribes: numbers with superfluous digits, zero values written or left out, empty messages, packed numbers, timestamps, fields that the program does not know, at every nesting; for registered types behind the prefix bytes. Protobuf also allows any order of the fields, fields given twice (the last counts), numbers that are not packed, and superfluous digits everywhere.",
  "for all programs, struct types of kinds that protobuf knows, messages and serializations",
  "amino's tests compare with messages that one protobuf library wrote in its canonical form; the other forms are infinitely many",
  ["binary-decode.go:31-978","decoder.go","amino.go:361-445","README.md"])
p("The work of Unmarshal grows at most with the square of the message, and reaches it",
 "For a program with finitely wide types there is a factor K such that UnmarshalBinaryBare and UnmarshalBinaryLengthPrefixed, on any bytes of any origin and with any target, registered types and codec, whether they succeed or fail, take at most K·(n+1)² steps for n bytes; a step is one call of the decoder, one iteration of its loops or one byte copied. The square is needed: for every k there are messages of at most 11·k bytes, made of pointers nested k deep, that take at least k² steps, because every level copies everything inside it. From below, a call that succeeds takes at least one step for every 60 bytes.",
 "all byte strings, targets, codecs and programs whose structs and arrays have at most F fields and elements and whose unframed nesting has a rank; all k below 2^59",
 "A benchmark measures chosen messages; that no message of an attacker takes more than quadratic work, and that nesting does reach it, are statements about all of them",
 ["binary-decode.go:31-311","binary-decode.go:459-760","binary-decode.go:764-894","decoder.go:280-306","amino.go:361-445"])
p("The work of Marshal grows at most with the square of the value, and reaches it",
  "For every program whose MarshalAmino methods return at most a fixed number of times as much as they are given, there is a factor K such that MarshalBinaryBare and MarshalBinaryLengthPrefixed, on any value and with any registered types, whether they succeed or fail, take at most K·n² steps, n the size of the value (its components, every byte of strings and byte slices counted, and everything its pointers lead to written out); a step is one call of the encoder, one iteration of its loops or one byte written to a buffer. If moreover the methods do not return deeper nested values, the work is at most K·n·d for values nested d deep, so proportional to the size for values of bounded depth. The square is needed: chains of k+1 pointers, of size 2k+2, take at least k² steps, because every level writes everything inside it again. From below, every byte of the result is counted.",
  "all values, types, codecs with prefix bytes as made by registrations, depths of recursion and programs with zero values of their types, representations bounded by B and chains of representations by R; all k",
  "A benchmark measures chosen values; that no value takes more than quadratic work, that this is due to nesting alone, and that nesting does reach it, are statements about all of them",
  ["binary-encode.go:25-201", "binary-encode.go:203-278", "binary-encode.go:302-530", "amino.go:143-167", "amino.go:203-245"])
p("The command line of aminoscan",
  "aminoscan understands exactly the flags color and concrete-name (one or two dashes, value behind = or, for concrete-name, in the next argument; the last one wins) and --; every other flag ends the program. aminoscan HEX scans these bytes, aminoscan --color HEX prints them colored, aminoscan --concrete-name NAME prints the disambiguation and prefix bytes that every codec uses for a type registered as NAME, and MarshalBinaryBare writes these prefix bytes in front of its values. Bytes to scan may follow flags or --, and --help prints the help text.",
  "for all argument lists, all hash functions, all codecs made by a sequence of registrations, all values",
  "Argument lists are unbounded and the tool has no tests; that the printed prefix is the one on the wire relates the tool to all codecs and values.",
  ["cmd/aminoscan/aminoscan.go:14-67", "cmd/aminoscan/aminoscan.go:310-316", "codec.go:48-50", "codec.go:751-767"])
p("Messages can be told apart by their prefix bytes",
  "NewPrefixBytes applied to a message of MarshalBinaryBare of a registered type is what NameToDisfix returns for its name; two messages have equal prefix bytes exactly if the names do; what can be read into a registered type has its prefix bytes; values written with disambiguation bytes are never taken for ones with prefix bytes. EqualBytes holds for a byte string exactly if it begins with the prefix.",
  "for all codecs made by a sequence of registrations, all hash functions, all values and byte strings",
  "The claim relates the helpers to all registered types, values and messages.",
  ["codec.go:33-50", "codec.go:751-767", "amino.go:197-250", "amino.go:361-390"])
p("aminoscan lists the fields of what MarshalBinaryBare wrote",
  "Given the hexadecimal digits of a struct message of MarshalBinaryBare, aminoscan prints exactly the fields of the message, each between 1 and the number of encoded fields, then all bytes, their number, and no error.",
  "for all programs, codecs and struct values in the universe of the round trip, all hash functions, further arguments, digits in either case",
  "The claim relates the tool to every message the encoder can write.",
  ["cmd/aminoscan/aminoscan.go:60-200", "amino.go:197-250"])
open('/verif/properties.jsonl','w').write(''.join(json.dumps(x,ensure_ascii=False)+'\n' for x in P))
print(len(P))

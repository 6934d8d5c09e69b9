# Formal model of go-amino: design

Subject: tendermint/go-amino at the pinned commit in `/repo` (Go, read as text, unchanged, never run).
Prover: Lean 4.33.0. No Mathlib module is imported so far.

* `properties.jsonl` – the properties, `MANIFEST.json` – status and theorems of each.
* `AXIOMS.txt` – the axioms of every claimed theorem, written by `tools/axioms.sh`.
* `seeded/LOG.jsonl` – wrong programs tried (`tools/mutate.py`), with the theorems that failed.
* `tools/gen_properties.py` writes `properties.jsonl`; `tools/setstatus.py` and `tools/manifest.py` write
  `MANIFEST.json` from `tools/status.json` and the theorem names in `lean/Verif/Props*.lean`.

## Trusted base

* Lean's kernel. Every claimed theorem depends on at most `propext`, `Classical.choice` and `Quot.sound`
  (per theorem in `AXIOMS.txt`). There are no axioms of our own, no `sorry`, no `native_decide`, no `bv_decide`.
* The hand translation from Go to Lean. Every model definition cites the Go lines it follows and says what it
  leaves out.
* The meaning of Go: `reflect` behaves as documented, `int`/`uint` are 64 bit (amd64), memory is unbounded (except
  for `make` with absurd lengths, which panics), the standard library is that of Go 1.12.

### How the translation was checked

* `Vectors` replays the expected bytes and JSON texts of the project's own tests (binary_test, amino_test,
  reflect_test, codec_test, encoder_test, example_test, time2_test, proto3_compat_test, json_test, repr_test) on the
  model, with registration by real SHA-256 (`Sha256`, checked on the standard vector). The model agrees with all of
  them. These are tests of the translation, not proofs of properties.
* `tools/cites.py` checks that cited lines of /repo hold the functions named.
* `seeded/LOG.jsonl`: wrong programs against the theorems.

### Modelled

| Go | Lean | cites |
|----|------|-------|
| `encoding/binary` varints and fixed width | `Varint`, `Prim` | stdlib |
| encoder.go, decoder.go | `Prim` | all functions |
| reflect.go (isDefaultValue, typeToTyp3, derefPointers, constructConcreteType, ...) | `Types`, `BinDecode` | |
| binary-encode.go | `BinEncode`, with addressability `BinAddr` | all functions |
| binary-decode.go | `BinDecode` | all functions |
| amino.go: Marshal*/Unmarshal* binary, writer, Must | `AminoApi` | 143-445, 456-490 |
| amino.go: UnmarshalBinaryLengthPrefixedReader | `Reader` | 290-350 |
| codec.go: registration, sealing, lookups, disfix | `Registry` | 154-446, 593-767 |
| codec.go: NewPrefixBytes, EqualBytes | `PrefixApi` | 33-45 |
| codec.go: locks and critical sections | `Lock` | 154-446 |
| codec.go: parseStructInfo, parseFieldOptions, isExported | `StructInfo` | 448-548, 724-739 |
| json-encode.go | `JsonEncode` | all functions |
| json-decode.go | `JsonDecode` | all functions |
| values with references: binary-decode.go, binary-encode.go, json-encode.go, json-decode.go and the calls in amino.go once more | `MemDecode`, `MemEncode`, `MemJson`, `MemJDecode` | the same lines |
| amino.go: MarshalJSON, UnmarshalJSON | `JsonEncode`, `JsonDecode` | 495-570 |
| amino.go: MarshalJSONIndent, and `json.Indent` | `JsonIndent` | 577-592 and stdlib |
| package time: Time.MarshalJSON, UnmarshalJSON of UTC times, Date, Format, Parse | `GoTime` | stdlib (Go 1.12) |
| `encoding/json` text layer: scanner, string quoting and unquoting, integers, base64, member matching | `JsonText` | stdlib |
| deep_copy.go | `DeepCopy` | all functions |
| cmd/aminoscan | `Scan` (control flow), `ScanText` (strings and output), `ScanMain` (main, flags) | aminoscan.go 14-200, 310-316; colors.go |

### Not modelled

* `chan`, `func`, `complex` kinds, named pointer types. Sharing and cycles: a Go value is a finite tree, except in
  `DeepCopy`, which has a heap, in `MemDecode`, the binary decoder on memory (C98 says for which memories it agrees with
  `BinDecode`), in `MemJDecode`, the JSON decoder on memory (C104; C105: it agrees with `JsonDecode` for targets without references), and in `MemEncode` and `MemJson`, the encoders on memory (C103: they agree with `BinEncode` and `JsonEncode`
  wherever the value in memory is a finite tree).
* The representation type of MarshalAmino is a base type id (no pointers). Which methods are found, and the panics of a
  wrong method signature, are in `Methods` (C109), not in `Registry`.
* `reflect.Value.CanAddr` in `BinEncode`; `BinAddr` is the binary encoder with it, and C83 says how they differ.
* Formatting of floats in JSON: a parameter `JLib`, with the assumed laws `LibOk` (what is written is JSON and is read
  back) and `LibTy` (what is read is in range) as explicit hypotheses. Times are a parameter too, but `GoTime` models
  them, and `libOk_withTime`, `libTy_withTime` discharge the assumptions about times.
* Struct tags are functions from keys to values in `StructInfo`; `TagText` models the text of a tag (`StructTag.Get`), with
  `strconv.Unquote` on values with escapes as parameter. `sha256` is an arbitrary function from names to byte strings,
  except in `Sha256`. The order of Go's map iteration is a list; permuted in C49.
* Writer preference of `sync.RWMutex` in `Lock` (readers may overtake there); `LockPref` has it, and refines `Lock` (C84).
* `printLog` output, what the flag package prints in aminoscan, `tests/` (but see `Vectors`).
* Methods `MarshalText` and `UnmarshalText` and the key types of maps in `JsonEncode`, `JsonDecode`; `JsonExt` has them (C111, C112),
  except text methods on floats.
* `DeepEqual` in `isEmpty` is equality of values (signed zeros and time locations aside).

## Conventions

* Bytes are `List UInt8`; machine integers in the primitive coders are `UInt64`, so shifts and wrap-around are the
  machine's.
* A call returns `ok | err | panic | oof`. Errors and panics are values. `oof` is "out of fuel"; fuel bounds the depth
  of the reflect walk. Theorems hold for every fuel with which the call returns; C17 and C60 bound the fuel needed.
* `slide` keeps its explicit panic, so that "never panics" is a theorem and not a modelling choice.
* A Go type is `Ty` (a base type id, or a pointer); the program `Prog` gives the shape of each id, so recursive types
  are covered. A Go value is `Val`, a target variable is its old content.
* The codec is a state; histories are lists of operations; goroutines interleave critical sections (`Lock`).
* `Spec*` files state the specifications without using the model's helpers: grammar of the wire format, base-128
  digits, JSON grammar, normal form of a value, and so on. `Props*` files hold the property theorems, each with an
  `example` that meets its hypotheses.

## Proof methods

| properties | method |
|---|---|
| C01-C10 | arithmetic on base-128 digits and little-endian bytes, case analysis |
| C11-C14, C26, C28, C37, C38, C43, C44 | induction on fuel, against a normal form (`SpecNorm`) |
| C15-C17, C35, C36, C60 | invariants of the decoder on arbitrary bytes; rank function for termination |
| C18-C21, C40, C56 | stream semantics of readers, induction over reads |
| C22-C25, C41, C62, C63 | induction over field lists; relational induction over old contents |
| C27, C29-C33, C39 | invariants by induction over histories of registrations |
| C32, C34, C57 | invariant of the interleaving semantics |
| C45 | induction over declarations, against an independent numbering |
| C46-C50, C54, C61 | JSON grammar; the scanner inverts it; induction on fuel against `jnorm` |
| C51, C52, C59 | heap invariants: allocation only, typed reachability |
| C53, C58, C64 | exact characterisation of the scan loop |
| C65 | relation of literals and texts, inverted by the unquoter |
| C66 | invariant of the field loop on arbitrary bytes |
| C67 | induction on fuel against a relation of Go values and protobuf values and an independent serializer |
| C68 | the universe of types follows from the invariant of the registry; extensionality of encoder and decoder in the lookups |
| C69 | a size measure on values; induction over the recursion depth with two invariants: without a length prefix a type of rank r adds at most a constant, with one the prefix pays for it |
| C70 | a relation between compact and spaced texts; the scanner and each `json.Unmarshal` respect it; congruence of the decoder by induction on fuel |
| C71 | `json.Indent`'s loop is modelled; induction over JSON texts shows its output related to its input, then C70 and C46 |
| C72 | time.go and format.go are modelled; their day arithmetic is shown to be an independent recursive Gregorian calendar; parsing is inverted |
| C73 | consequence of C46 and of the quoting of names |
| C74 | the normal form `jnorm` is shown to be among the values with an exact notation, by induction on fuel |
| C75 | the field loop's round trip (C11) generalised to a tail; induction over the appended fields on empty input |
| C76 | the members written are related to the fields written; induction over the target's fields |
| C77 | a relation between old and new types (`Evolves`) and between values (`ValTo`); induction on the fuel of the encoder that the bytes are the same; existence of the counterpart by induction on the typing; then the round trip of the new types |
| C78 | an inductive predicate `Writable`, without reference to the encoder; one direction by induction on the fuel, the other by induction on the predicate |
| C79 | induction on the fuel of the decoder that the value it returns is `Writable`; then C78 and the round trip |
| C80 | a relation `Stands` between values and documents and a relation `Notation` between documents and texts (base64 over bits, string escapes, decimal digits specified independently); induction on the fuel of the encoder; `Stands` is functional |
| C81 | an inductive predicate `JWritable`, both directions: by induction on the fuel of the encoder, and on the derivation |
| C82 | with C81: by induction on the fuel of the decoder everything read into a zero variable is `JWritable` |
| C83 | an encoder `encA` with a flag for addressability, which uses the helpers of `BinEncode`; they are monotone in the recursive call for the relation "equal, or the panic of reflect.Copy"; JSON by induction on the fuel |
| C84 | `LockPref`: sync.RWMutex with announced writers as a transition system that refines `Lock`; an invariant ties the announcement to the owner; progress by cases on who has the lock, termination by a measure summed over the goroutines inside calls |
| C85 | safe text (`SpecSafe`) is closed under concatenation; string literals byte by byte, base64, numbers and times by cases, values by induction on the fuel |
| C86 | the JSON round trip normal form (`jnorm`, C46) is a value of the type, is a default value exactly if the value was (`void_norm`), and is encoded alike: induction on the encoder's fuel, each component seen through its pointers (`comp`) |
| C87 | what is read is a value of its type (C35); if the input was written for some value, reading and writing gives it back (C13) and fuel does not matter (`unmarshalBare_le`), so the comparison is exact; what was read can be written (C79), is read again and written alike (C13) |
| C88 | JSON asks the codec for the type of a name, the name of a type and whether an interface is known; a longer history answers what a shorter one answered (`Codec.Grows`); successes are kept through the encoder and decoder by induction on the fuel |
| C89 | the prefix of a list of byte strings is some of them and a proper beginning of the next (`take_flatten`); complete messages are read exactly (C19), a proper beginning ends in the prefix loop (`prefixOn_short`) or in io.ReadFull, and nothing is left for the calls after it |
| C90 | encoders and decoders once more with every look-up at an instant of its own (`Together.lean`); a relation between a call in pieces and a call in one go (`Run.Lin`) that is closed under sequencing, so that each function has a one-line proof; a type once looked up is cached and cannot be registered any more (`step_known`), registered names and interfaces stay (`later_mono`), prefix look-ups stay while prefixes are unique (`later_agree`, `clear_withPrefix`); `C90_alone` ties the copy to the original functions |
| C91 | the strings written are listed (`printChunks`) and handed to a writer that is any state machine (`writeAll_spec`); an independent reader of Markdown tables (`Spec.readTable`) is proved to read them back (`cut_rows`, `readRow_body`, `unhex_hexBytes`) |
| C92 | the contents of the variable after the call are a second function over the decoder (`left`, `leftBare`), tied to it by `left_ok`; typing by induction over the depth (`left_typed`), then every typed value of a reusable type is clean (`reusable_clean`) and C25 applies |
| C93 | JLeftover.lean models what `rv` holds when decodeReflectJSON returns with an error (`jleft`, `leftJSON`); what failing methods and the standard library leave is a parameter. Tied to `jdec` (`jleft_ok`). Reuse: the contents keep their form (`Fits`, by induction on the fuel), and for types without `omitempty` and hidden fields two contents of the same form decode alike (`jdec_fitBlind`). |
| C94 | TagText.lean models reflect.StructTag.Lookup (scan pairs from the left, give up at the first syntax error; strconv.Unquote is the identity on plain values, else a parameter). Specification: `Spec.TagText` (pairs written with any spaces). By induction on the pairs `Get` is the look-up in the list (C94_get); options, order, other keys, json:"-" follow through parseFieldOptions. |
| C95 | Two programs are related by `Spec.Retagged R`: same types and fields, options of each field related by `R`. The functions of the model are shown to be unchanged when the options of all fields are mapped by a function that keeps the options the function looks at (`mapOpts_dec`, `mapOpts_enc`, `mapOpts_jenc`, `mapOpts_jdec`, by induction on the fuel), and related programs have the same image. `C95_cross` combines this with the round trip C11. Witnesses by evaluation for the tags that do matter. |
| C96 | The scanner again with its strings and output (ScanText); forgetting the text gives the scanner of Scan (scanLoopT_erase), so that C53, C58 and C64 carry over. A small specification removes the escape sequences (Spec.uncolor); the strings show the bytes consumed (scanLoopT_shows, induction on the rounds), and for a well-formed message the output is Spec.listing (induction on the fields). |
| C97 | The decoder again, in place on a memory of variables with references (MemDecode): locations, pointers, slices with backing arrays, interface values. An invariant relative to a region (locations that may be written, variables that may be referred to) is preserved by every function (MemInv, induction on the recursion depth, the loops and the pointer chains); the theorems take the region made of what the target owns and what it can reach (Spec.Owned, Spec.Reached, inductive). |
| C98 | The decoder on memory (`MemDecode`) is simulated by the decoder on values (`BinDecode`), by induction on the fuel and on the number of fields and elements, for targets that own their memory: `Unshared` says that the variable represents a value (`RepV`, an inductive relation between memory and values) through pointers to pairwise different variables; it is preserved, so one can decode again. New variables are a special case. For shared and cyclic targets, refuted. |
| C99 | The scanner is inverted: what `skipVal` takes is a value of the grammar (`Spaced`), by induction on the bound of nesting, so `validJSON` decides the grammar exactly (`validJSON_iff`). Acceptance: by cases on the kind, through chains of UnmarshalAmino. Methods: two libraries that agree on JSON texts (`SameOnJson`) give the same outcome. Refuted for unregistered 64-bit integers and for methods of the outermost type. |
| C100 | SpecByteText.lean: which texts mean which bytes (spelled base64 of RFC 4648, arrays of whole numbers), given the old bytes. B64Inv.lean inverts the base64 reader; the scanner lemmas of C99 invert the array reader. Both directions. |
| C101 | SpecReads.lean: a grammar (inductive relation ReadAs) between types, old contents, texts and values, written with a declarative meaning of string escapes, of objects and arrays, and of the wrapper objects. StrMeaning.lean and JReadText.lean show that the readers of encoding/json as modelled accept exactly those texts; JReadAs.lean is an induction over the recursion depth one way and over the derivation the other. |
| C102 | `SpecBReads` gives the grammar as an inductive relation `BRead` (old contents, bytes, how many count as read, new contents) without mention of the decoder; `BReadPrim` shows that the primitive decoders and the loop over unknown fields accept exactly the texts of the specification, `BReadAs` the same for the loops over elements, items and fields, `BReadMain` soundness by induction on the recursion depth and completeness by induction on the derivation (with the lemma that something is consumed by every element, so that the loops end). `PropsBRead` lifts both to UnmarshalBinaryBare and UnmarshalBinaryLengthPrefixed; uniqueness follows from both. No hypotheses on the program, the codec or the old contents. |
| C103 | The two encoders once more on memory (`MemEncode`, `MemJson`), function by function; `Unfolds` says which tree a value in memory stands for, with any sharing. Simulation by induction on the depth. `Endless` is an infinite chain of parts; if an encoder returns bytes for a value it does so for each of its parts with one level less, so by induction on the depth never for an endless one. The round trip combines C11, C98 and this. Exponential size by induction on a family of memories |
| C104 | the JSON decoder modelled in place on memory, including what encoding/json does to the array of a byte slice; invariant over all steps: it stays within a region of writable locations; `C104_bytes_refuted`: arrays behind byte slices are overwritten, `C104_frame_partial` allows for that |
| C105 | simulation between the decoder on memory (`MemJDecode`) and the one on trees (`JsonDecode`) over all steps, with the region of C104 as the frame; with C46 and C103 the round trip; `C105_needs_noRefs`: for a target whose pointer leads into itself the result differs |
| C106 | `SpecTrunc` says what may be left of a value (`CutFields`). From the grammar of C102: bytes behind a counted value make no difference (`bread_more`) and only a byte slice can be read from nothing (`bread_none`); then induction over elements and fields along the round trip of C11 (`cut_slice`, `cut_array`, `cut_fields`). JSON: a value other than a number ends where it ends whatever follows (`skipVal_ends`), and C99. |
| C107 | the scanner splits a text into disjoint pieces; induction over the recursion depth with a size measure, chains of UnmarshalAmino bounded by a rank; for the refutation a family of texts, by induction |
| C108 | SpecJOrder: `Reordered` texts, `OrderBlind` programs, `TextKeys` values. The encoder is shown to take values equal up to the order of map entries to texts equal up to the order of members, by induction on fuel (`jenc_order`); `C108_order` holds for every program whose methods do not look at map order. `C108_reading_partial` combines C46 with an induction over `jnorm`. Partial: keys must be valid UTF-8. |
| C109 | Methods.lean models the part of newTypeInfoUnregistered that looks for methods, and the two functions that check their form; `reflect` is a parameter. SpecMethods states the method sets of the Go language (`found`: all fields and methods of a name at a depth; `Selected`: the only one at the least depth). Case analysis for `C109_exact` and `C109_panics`, induction over the depth for `C109_none`; witnesses by evaluation in a program that has exactly the methods its declarations give (`MethodsOf`). |
| C110 | SpecJMeth: `jnormM`, the normal form of C46 with the results of methods as given by `N`; `JMethods`, the law the methods must obey. The induction of C46 again (`jencM_rt`), reusing its lemmas for each kind. `C110_none`: without methods it is C46. |
| C111 | JsonExt.lean models encoder and decoder with text methods and keys (what json.Marshal and json.Unmarshal do with such types). `C111_same_marshal`, `C111_same_unmarshal`: they are the encoder and decoder of JsonEncode/JsonDecode for a program that has the JSON methods `withText` instead; the round trip then follows from C110. |
| C112 | Same model; case analysis on the kind of the keys. |
| C113 | CopyMeth.lean gives `deepCopyM` and `aminoCopyM` of DeepCopy.lean from the declarations (C109). `valueMethod` is shown to be the method set of the language; signatures by cases; then one step of `copyVal`. Refutations: in general for slices and fields (an addressable value always ends in the panic of `dst.Set`), by witnesses for the rest. |
| C114 | Fuel induction on `enc` and `jenc`: the length plus room for the key (or member name) of the parent is at most A times `vsize`; MarshalAmino methods may return something not bigger, or a flat string B times as big |
| C115 | Case analysis on the argument; for the length prefix the reading of the number from C18; for readers the stream theorem C19_exact |
| C116 | A grammar of what may be sent (PSent), by mutual induction into the grammar of what is read (C102) |
| C117 | An instrumented copy of the decoder (`Work.lean`) counts calls, loop iterations and copied bytes. By induction over the recursion depth: a call does at most X(rank) + Q·(bytes it reports, or all bytes if it fails) steps, where Q is a multiple of the length of the whole input because each call copies at most that; a call that must consume a byte pays for X too. Lower bound by induction over the nesting. |
| C118 | An instrumented copy of the encoder (`EncWork.lean`) counts calls, loop iterations and bytes written to buffers. The bound is proved once for any function G of values with room for the components and a copy of the encoding (`Room`), by induction over the recursion depth with C114 bounding each copy, and then for G = K·size² and G = K·size·depth. Lower bound by induction over a chain of pointers. |
| C119 | A grammar of command lines (`SpecCmd.Line`) is shown to be what the flag parser accepts, both directions by induction; the rest follows with C96 (text), C27 and C29 (disfix). |
| C120 | Four bytes in front of every message of a registered type (C29) and the four bytes `copy` takes; the check in `UnmarshalBinaryBare` for reading. |
| C121 | C41 (every struct message is a sequence of well-formed fields) with C96 (their listing) and C119; the refutation with the exact outcomes of C58. |

Where the code violates a property, a theorem `Cnn_..._refuted` gives a concrete input (checked by evaluation in the
kernel) and `..._partial` theorems prove what does hold. The status of such a property is `partial`.

## Findings about the code

Numbers refer to theorems in `Props*.lean`.

Binary
1. A registered type that does not implement the interface, named by disambiguation bytes, makes
   Unmarshal panic in `reflect.Set` (C16_refuted); likewise in JSON by name (C50_refuted).
2. A non-nil pointer to a list as target of Unmarshal panics (C16_refuted_list, C25_listPointer_panics).
3. Varint `uint32` fields are truncated silently (C35_refuted).
4. Zero scalars and lists of byte-length elements do not round trip at top level (C37).
5. Interface implementations that are not structs do not survive in field 1, in lists or at top level (C38).
6. `[][]byte` outside direct struct fields is written as nothing (C42).
7. A nested struct whose only content is the 1970 epoch comes back with year 1 (C43_refuted).
8. MarshalAmino whose representation has another wire type or defaultness is not transparent (C44).
9. Times leave unread bytes that are read again as fields of the outer struct (C23_time_refuted), with any wire type (C66_time_refuted).
10. Non-minimal length prefixes of nested messages are miscounted (C36_nonMinimal_refuted).
11. Appended repeated fields are not skipped by older readers (C22_repeatedExtra_rejected).
12. Named byte types in lists make the decoder panic; nil pointers tagged `write_empty` make the encoder panic.
    Widening int16 to int32 changes the values of old messages silently (C77_widen_refuted): the two use different codings.

Reader
13. A malformed length prefix is taken for an empty message (C21_refuted).
14. A reader that reports EOF together with the last byte of the prefix, or that returns no bytes without an error,
    is mishandled (C56).

Registry
15. Failed registrations leave traces in the codec (C33).
16. Seal races with a registration past its check (C32_refuted).
17. A panic on an untagged float leaves the mutex locked (C34_refuted).
18. The list of implementers is read without lock while encoding (C57_refuted).
19. A hash with too few non-zero bytes makes `nameToDisfix` index out of range (C27_total_refuted).

JSON
20. Floats tagged `unsafe` are written but rejected on reading (C48_refuted).
21. Names are written without escaping (C54_refuted). Map order is Go's (C49_refuted).
22. Invalid UTF-8 and nil maps change in a round trip (C46_refuted). A field tagged `omitempty` that is absent keeps its
    old content (C62_refuted). A pointer to an empty slice settles only in the second round trip (C74_refuted).
23. A lone quote read into an int64 panics (C60_refuted); `"null"` and `" 5 "` are read as int64 (C61_refuted).

Tools
24. aminoscan loops forever on a truncated varint (C53_refuted) and panics on malformed input (C58_refuted).
25. DeepCopy shares slices and map values with the original (C52), and panics on pointers to nil (C51).

Re-encoding
26. A pointer tagged `write_empty` that is absent from a message is read as nil, and marshalling the value then panics; so
    does, with an error, an absent array of pointers tagged `empty_elements` (C79_rewrite_refuted).
27. `[null]` is accepted for `[]float64` as one zero, which cannot be written (C82_float_refuted); a list of a named byte
    type is read, but `MarshalJSON` of it panics in `reflect.Copy` unless given a pointer (C82_named_bytes_refuted).
28. `MarshalBinaryBare` of a struct with a `[2]MyByte` (`type MyByte byte`) panics, of a pointer to it succeeds
    (C83_array_refuted); and what it wrote cannot be decoded (the decoder panics in `reflect.Copy` too, C16).
29. Unlike `json.Marshal`, amino writes what a `MarshalJSON` method returns, and the names of registered types, as they
    are: line breaks, `<` and even text that is not JSON get into the output (C85_method_refuted, C85_name_refuted).

Locking (see also C32, C34)
30. `PrintTypes` calls the user's `Write` with the read lock held. If that method marshals something with the codec, it
    waits for itself, and no goroutine gets the lock for writing any more (C84_printTypes_refuted).

JSON against binary
31. A pointer to a zero-length array tagged `omitempty` is left out of JSON but written in binary, so the binary encoding
    changes on the way through JSON (C86_pointer_refuted). Strings that are not UTF-8 change as well (C86_text_refuted).
    From binary to JSON nothing of the kind holds: `[]` becomes `null` (C86_converse_refuted).

32. The decoder accepts several byte strings for a value: numbers in more bytes than needed, explicit defaults, unknown
    fields (C87_malleable_refuted). A hash of the received bytes is not a hash of the message; a receiver has to encode
    the result again, which is an exact test (C87_strict_partial).

33. UnmarshalBinaryLengthPrefixedReader reports a plain io.EOF also when the stream breaks off within or right behind
    a length prefix (C89_eof_refuted): a loop that reads until io.EOF takes a truncated stream for a complete one. The
    returned n tells the difference: it is 0 exactly between messages (C89_cut_partial).

34. Registering a type whose prefix bytes equal those of an implementer while a message is being encoded may give a
    message in which equal values are written differently, with and without disambiguation bytes (C90_mixed_refuted,
    binary-encode.go:246-254): the implementers are read anew for every interface value, without the lock. Without
    shared prefixes, and in JSON always, calls behave as if made at one instant (C90_binary_partial, C90_json).

35. The Length column of PrintTypes is the size in memory, not the length of the encoding: a registered int32 is
    listed with length 4, but written in 1 to 10 bytes after prefix and key (C91_length_refuted, codec.go:312-325). A
    registered name with | spoils its row (C91_names_refuted).

36. A failed UnmarshalBinaryBare can make a variable unusable. If the concrete value of an interface cannot be
    decoded, the interface is nevertheless set to the half-read value ("Helps with debugging", binary-
    decode.go:400-403), and every later call refuses the variable because the interface is not nil
    (C92_interface_refuted). A nil pointer to a list is replaced by a pointer to an empty one before anything is read,
    and the next call panics (C92_listPointer_refuted). That bytes are left over is noticed only after the value has
    been stored (C92_trailing_refuted).

37. A text rejected by UnmarshalJSON can leave data in the variable that a later accepted text does not overwrite:
    fields tagged `omitempty` (C93_omitempty_refuted). Without such tags and hidden fields the variable can be used
    again (C93_again_partial), unlike with the binary decoder also if it contains interfaces.

38. Struct tags with a syntax error are not reported by amino: in amino:"unsafe",json:"-" (comma between the pairs)
    the json:"-" is not seen and the field is encoded (C94_comma).

39. Adding or removing `binary:"fixed32"` on a field of type `[]uint32` (or `fixed64` on `[]int64`) is not noticed by
    the decoder: the elements are packed without a type for each, so four small numbers are read as one large number
    and conversely (`C95_fixed_list_refuted`).

40. Decoding into a variable with shared pointers loses data without an error: `Pair{A: 1, B: 2}` decoded into
    `Pair{&n, &n}` gives 2 and 2, and `Node{Next: &Node{N: 5}}` decoded into a node that points to itself gives
    `Node{}` (C98).

41. UnmarshalJSON into a variable of an unregistered type does not check that its input is JSON before looking at it:
    an int64 is read from a string literal with a raw line break in it, and an UnmarshalJSON method is called with any
    bytes whatever, e.g. `}`, contrary to the contract of json.Unmarshaler (C99).

42. `null` in JSON can leave old contents: UnmarshalJSON of `[null]` into a []byte keeps the byte that the slice held,
    because json.Unmarshal is called on the variable itself (C62_null_refuted, C100_bytes). Numbers, bools and strings
    are read into a new variable first (`invokeStdlibJSONUnmarshal`), so `null` makes them zero. (A version of the model
    had the latter wrong: it handed the old contents of numbers and strings to json.Unmarshal too.)

43. C102: the count of a nested message may be written with more digits than needed, but decodeReflectBinary* then
    counts only the needed ones as read (UvarintSize of the length instead of the number of digits): the grammar must
    say so (`Framed.counted`), and the reading goes on inside the message just read.

44. Marshal does not detect cycles: `type Node struct { Next *Node }` with `n.Next = n` recurses until the stack
    overflows, which ends the process and cannot be recovered from (C103_never_returns). Shared variables are written
    every time, so n variables can make 2^n bytes (C103_blowup).

45. UnmarshalJSON of a JSON array into a byte slice writes into the array that the slice has, up to its capacity, so
    other slices of that array change (also bytes behind the end of the target slice, and also if the call fails), and
    `null` elements bring to light what the array holds behind the end of the slice. UnmarshalBinaryBare, and
    UnmarshalJSON of the base64 strings that amino writes, allocate a new array. (`C104_bytes_refuted`,
    `C104_beyond_refuted`.)

46. A bare message that ends right behind the key of a byte slice (or of an element of a list of byte slices) is
    accepted; the slice is read as nil, or the list gets a nil element that was never sent (binary-decode.go:606-610
    returns nil for no bytes at all, before the count is looked for). Behind any other key the end of the message is
    an error (C106).

47. JSON names are not checked for duplicates: two fields of one name are both read from the one member, and a
    recursive type with such fields (`type T struct { A, B *T }`, both tagged `json:"x"`) turns a text of 6n+4 bytes
    into more than 2ⁿ nodes (C107_names_refuted). In the other direction such a struct is written with the name twice,
    and comes back with the second value in both fields.

48. Map keys that are not valid UTF-8 are written as U+FFFD, so that different keys can collide:
    `map[string]int64{"\xff": 1, "\xfe": 2}` is read back as a map with one entry, 1 or 2 depending on the order in
    which Go walked the map when writing (C108_keys_refuted).

49. MarshalAmino declared with a pointer receiver is silently ignored, even if amino is given a pointer, while
    UnmarshalAmino is used: what is written cannot be read (C109_pointer_refuted). Different representation types of
    the two methods are not noticed (C109_mixed_refuted), and a struct embedding a type with MarshalAmino loses its
    other fields (C109_embedded_refuted). DeepCopy checks both points (deep_copy.go:223-260).

50. MarshalJSON with a pointer receiver is skipped when MarshalJSON is given a value, while UnmarshalJSON is used for
    reading: what was written is refused (C110_pointer_refuted).

51. A type of kind int, int64, uint or uint64 with UnmarshalText cannot be read from JSON at all: amino writes `"7"`,
    takes the quotes off and gives `7` to encoding/json, which wants a string for UnmarshalText (C111_int64_refuted).

52. UnmarshalJSON panics on every map with keys of a named string type that has an entry it can decode
    (C112_named_refuted), because it builds keys of type `string`. With a key type that has MarshalJSON, MarshalJSON
    can return text that is not JSON (C112_method_refuted).

53. DeepCopy does not use MarshalAmino and UnmarshalAmino of a value that is not behind a pointer
    (C113_value_refuted), panics on non-empty slices of such values and on pointers to structs with such fields
    (C113_slice_refuted, C113_field_refuted), uses a MarshalAmino with a pointer receiver that the encoder ignores
    (C113_pointer_refuted), and with methods of an embedded type drops the other fields (C113_embedded_refuted).

54. C114: the encoding of a value can be exponentially bigger than the value in memory, without any cyclic pointer: a
    variable that is pointed to twice is written twice, and n+1 variables `Twin{p, p}` give more than 2^n bytes
    (C114_shared_refuted). The same happens without sharing if a MarshalAmino method returns its receiver twice
    (C114_methods_refuted). For trees and methods that do not duplicate the encoding is linear (C114_bare_partial,
    C114_json_partial).

55. C115: UnmarshalBinaryLengthPrefixed does not panic on a nil pointer when the length prefix is wrong, though its
    comment says so, nor does UnmarshalJSON for the empty text (C115_nil_refuted). UnmarshalBinaryLengthPrefixedReader
    reads a whole message from the stream before it looks at ptr: with a target that is not a pointer it returns
    ErrNoPointer, and the message is gone (C115_reader_refuted).

56. C116: amino does not read messages whose fields are in another order (C116_order_refuted), given twice
    (C116_twice_refuted), repeated numbers that are not packed (C116_unpacked_refuted), and superfluous digits in the
    count of a nested message or in a boolean (C116_digits_refuted); protobuf readers must take all of these.

57. C117: `DecodeByteSlice` copies (decoder.go:295-296), and the decoder calls it again at every level of nesting, so
    a message nested k deep is copied k times over: quadratic work for a linear message. `C117_square_reached` has the
    messages; `C117_bare` shows that it never gets worse than quadratic.

58. Nested values cost a copy per level on both sides: encodeReflectBinary writes every struct, list and interface
    value to a buffer of its own before writing it to the one around it, and DecodeByteSlice copies what it returns.
    Deep chains of pointers therefore take quadratic work in both directions (C117, C118).

59. `aminoscan` ignores bytes behind flags: line 61 scans `os.Args[1]` instead of `flgs.Arg(0)`, so `aminoscan --
    0801` and `aminoscan --color=false 0801` panic (`C119_behind_flags_refuted`). The help text of lines 28-37 is
    never printed: with `flag.ExitOnError`, `Parse` ends the program on `--help` (`C119_help_refuted`).

60. `NewPrefixBytes` fills up short byte strings with zero bytes, so `01 02 03` is taken for the prefix `01 02 03 00`
    (`C120_short_refuted`).

61. `aminoscan` takes the prefix bytes of registered types for fields: it panics on every message of a type whose
    prefix begins with, say, `0B` (`C121_registered_refuted`). The digits behind the prefix are listed correctly.

## Status per property

Written from `MANIFEST.json` by `tools/design_table.py`.

| id | property | status | theorems | remarks |
|---|---|---|---|---|
| C01 | Unsigned varint round trip, self-delimiting | proved | `C01_uvarint_roundtrip`, `C01_uvarint_wire`, `C01_uvarint_decode_iff` | bit-level model of encoding/binary against base-128 digits |
| C02 | Signed (zig-zag) varint round trip for int8, int16 and int64 | proved | `C02_varint_roundtrip`, `C02_int8_roundtrip`, `C02_int16_roundtrip` |  |
| C03 | Size functions agree with the encoders | proved | `C03_uvarintSize`, `C03_varintSize`, `C03_byteSliceSize` |  |
| C04 | Varint encodings are minimal | proved | `C04_uvarint_minimal` |  |
| C05 | Fixed-width integers and float bit patterns round trip | proved | `C05_fixed64_roundtrip`, `C05_fixed32_roundtrip`, `C05_int64_roundtrip`, `C05_int32_roundtrip`, `C05_fixed_short` | floats are their bit patterns, coded by the same functions |
| C06 | Primitive decoders are safe on arbitrary bytes | proved | `C06_decoders_safe` |  |
| C07 | Narrow integers are range checked on decode | proved | `C07_int8_range`, `C07_int16_range`, `C07_uint8_range`, `C07_uint16_range` |  |
| C08 | Byte slices and strings round trip and truncation is detected | proved | `C08_bytes_roundtrip`, `C08_bytes_truncated` |  |
| C09 | Time round trip and range enforcement | proved | `C09_time_encode_range`, `C09_time_roundtrip`, `C09_time_decode_range` | time.Time is its (Unix, Nanosecond) pair |
| C10 | Field keys round trip | proved | `C10_key_roundtrip`, `C10_key_range`, `C10_key_encode_panics` |  |
| C11 | MarshalBinaryBare / UnmarshalBinaryBare round trip for structs | proved | `C11_roundTrip`, `C11_lengthPrefixed` | for every universe of types closed under components (SpecUniv: no maps, no pointers to interfaces, no lists of lists except as [][]byte fields); interface implementations in field 1 or in lists must be structs |
| C12 | Length-prefixed round trip | proved | `C12_lengthPrefixed` |  |
| C13 | Re-encoding a decoded value reproduces the bytes | proved | `C13_reencode`, `C13_nestedTime_differs`, `C13_idempotent` | types without *time.Time fields and without by-value structs containing a time (C13_nestedTime_differs shows the exclusion is needed) |
| C14 | Encoding is injective up to normalisation | proved | `C14_injective` |  |
| C15 | The binary decoder never over-reads: no 'impossible slide' | proved | `C15_step_fits`, `C15_step_progress`, `C15_unmarshal_no_slide`, `C15_unmarshalLP_no_slide` | user methods may panic or fail, but are assumed not to raise the slide panic themselves |
| C16 | The binary decoder never panics on adversarial bytes | partial | `C16_panics_partial`, `C16_noPanic_partial`, `C16_refuted`, `C16_refuted_list` | false of the code: a registered concrete type that does not implement the target interface, named by disambiguation bytes, makes reflect.Set panic (C16_refuted); also a non-nil pointer to a list as target (C16_refuted_list). Proved: these are the only panics, apart from panics of user methods. |
| C17 | The binary decoder terminates with bounded recursion | proved | `C17_terminates` | for programs with a rank (finite representation chains, no list type whose representation contains itself keyless) |
| C18 | Length-prefixed framing is exact | proved | `C18_accept`, `C18_truncated`, `C18_extended` |  |
| C19 | Reader decoding depends only on the byte stream, not its chunking | proved | `C19_chunking`, `C19_exact`, `C19_sequence` | Same result, n and rest for all readers delivering the same bytes in non-empty pieces; exact reading of messages and of sequences of messages. Behaviours beyond non-empty pieces are C56. |
| C20 | Reader honours maxSize | proved | `C20_consumed`, `C20_allocated`, `C20_accepted` | For arbitrary readers (only the io.Reader length bound assumed): bytes consumed, buffer allocated, size of accepted messages. |
| C21 | Reader rejects malformed length prefixes | partial | `C21_malformedIsEmpty`, `C21_rejected_partial`, `C21_refuted` | Refuted: a malformed prefix is taken for length 0 (C21_malformedIsEmpty gives the exact behaviour); it is never accepted for registered types or maxSize below 10. |
| C22 | Forward compatibility: unknown trailing fields are ignored | partial | `C22_extraFields_partial`, `C22_appendedFields`, `C22_repeatedExtra_rejected`, `C22_acceptedBytes_refuted` | Proved for messages written by the encoder: unknown well-formed fields with strictly increasing higher numbers are skipped, and a message of a newer struct with appended non-repeated fields reads as the older struct. Refuted with witnesses for repeated appended fields and for arbitrary accepted (not encoder-written) bytes. |
| C23 | Field order is enforced | partial | `C23_order_partial`, `C23_time_refuted` | Field order proved for structs whose fields are of exact types and messages with minimal varints; refuted with witnesses for time.Time fields (unread bytes of a time are re-read as outer fields). |
| C24 | Default values take no space | proved | `C24_chunks`, `C24_empty` | Each encoded field contributes a chunk that is empty exactly if the omission rule of the spec applies; the whole struct is empty exactly if all fields are omitted. |
| C25 | Decoding result does not depend on stale target contents | partial | `C25_stale_partial`, `C25_staleLengthPrefixed_partial`, `C25_nonNilInterface`, `C25_skippedKept`, `C25_fresh_partial`, `C25_listPointer_panics` | Independence of the target's old contents proved for all supported types; a non-nil interface target is an error and a non-nil pointer to a list panics (both proved), so the full statement is false. |
| C26 | Interface values keep their dynamic type | proved | `C26_dynamicType`, `C26_readIntoInterface`, `C26_ambiguousPrefix` | the registry conditions (disfix table, prefix shapes) are hypotheses of ImplOk |
| C27 | Prefix and disambiguation bytes are unambiguous | partial | `C27_exact_partial`, `C27_panics`, `C27_unambiguous`, `C27_total_partial`, `C27_total_refuted` | Unambiguous for every hash function for which nameToDisfix returns; exactly which bytes of the digest are returned and when there is a panic (C27_exact_partial, C27_panics). That it returns is proved when the digest has enough non-zero bytes (C27_total_partial) and refuted otherwise (C27_total_refuted). |
| C28 | Registered types are always prefixed and the prefix is verified | proved | `C28_prefixed`, `C28_verified`, `C28_stripped` |  |
| C29 | Registered names and disfixes stay unique | proved | `C29_unique`, `C29_found`, `C29_only` | For every sequence of registrations that succeeds. |
| C30 | Registration order does not matter | proved | `C30_implementers`, `C30_order`, `C30_anyOrder` | Any permutation of a successful sequence in which concrete types and interfaces are registered in any order yields the same observable registry. |
| C31 | Prefix conflicts are caught or disambiguated | proved | `C31_prioritised`, `C31_encoded`, `C31_resolved`, `C31_decoded`, `C31_registry` | Conflicting implementers are written with disambiguation bytes, or only a prioritised one without; decoding resolves each header to the type it was written for. |
| C32 | Seal stops registration | partial | `C32_frozen_partial`, `C32_goroutine_partial`, `C32_sequential_partial`, `C32_refuted` | Proved for calls one after the other, and for all schedules in which no registration is past its check when Seal is called; refuted for a registration under way (C32_refuted). |
| C33 | A failed registration leaves the codec unchanged | partial | `C33_interface_partial`, `C33_concrete_partial`, `C33_kept_partial`, `C33_dupName_refuted`, `C33_dupType_refuted`, `C33_used_refuted`, `C33_conflict_refuted` | Registrations that panic before any write leave the codec unchanged; refuted for duplicate names, duplicate types, used types and conflicting prefixes. |
| C34 | A recovered panic does not wedge the codec | partial | `C34_released_partial`, `C34_refuted` | Proved for programs without untagged float fields in every schedule; refuted otherwise (C34_refuted): the lock is never released. |
| C35 | Integers that do not fit the field are rejected | partial | `C35_int_exact_partial`, `C35_result_in_range`, `C35_refuted` | false for varint uint32 fields, which are truncated (C35_refuted); exact for the other nine kinds and fixed uint32 |
| C36 | Nested messages are isolated | partial | `C36_isolated_partial`, `C36_resumes_partial`, `C36_nonMinimal_refuted`, `C36_pointerToList_refuted` | Isolation proved for exact types with minimal lengths; refuted with witnesses for non-minimal length varints, time.Time and pointers to lists. |
| C37 | Top-level non-struct values round trip | partial | `C37_roundTrip_partial`, `C37_scalar_partial`, `C37_zero_refuted`, `C37_strings_refuted` | False in general: zero scalars marshal to nothing and cannot be read back, lists of strings/bytes/interfaces are written with inner field number 0. Proved for all non-blank values of integers, bools, strings, byte strings and packed lists. |
| C38 | Non-struct implementations of interfaces round trip | partial | `C38_field_partial`, `C38_element_refuted`, `C38_firstField_refuted`, `C38_topLevel_refuted` | False in field number 1, in lists of interfaces and for the top-level encoding read into an interface (witnesses, two of them silent corruption). Proved for fields with any other number. |
| C39 | Registering more types does not change existing encodings | proved | `C39_preserved`, `C39_collision` | Registering further types preserves bytes and successful decodes; C39_collision shows the hypothesis on prefixes is needed. |
| C40 | The writer form writes exactly the length-prefixed bytes | proved | `C40_writer` | the writer is a function from the bytes of one Write call to its result |
| C41 | Encodings are schema-less parseable protobuf wire format | proved | `C41_wire`, `C41_split_unique` | Encodings are sequences of well-formed protobuf fields with non-decreasing numbers, split in one way only; for supported universes whose overrides keep the wire type. |
| C42 | Multi-dimensional lists are rejected or preserved | partial | `C42_rejected_partial`, `C42_bytes_refuted`, `C42_pointer_refuted` | False for [][]byte as a value of its own, behind a pointer, or one level deeper (witnesses). Proved: every other list of lists is rejected; direct struct fields are covered by C14. |
| C43 | Nested struct with an epoch time survives a round trip | partial | `C43_time_partial`, `C43_refuted` | False for the 1970 epoch in an otherwise blank nested struct (witness). Proved for every other instant at any depth of structs nested by value in fields and lists, and for every instant in a field of the message itself. |
| C44 | MarshalAmino/UnmarshalAmino overrides are transparent | partial | `C44_fields_partial`, `C44_marshal_partial`, `C44_unmarshal_partial`, `C44_default_refuted`, `C44_list_refuted`, `C44_wireType_refuted` | Top level and struct fields (by value, behind pointers, as list elements) proved for all values, under conditions (same wire type, same defaultness, no list type with MarshalAmino); without each of the conditions false (witnesses). The round trip through MarshalAmino and UnmarshalAmino in all positions is part of C11. |
| C45 | Struct metadata: field numbers and options | proved | `C45_options`, `C45_numbers`, `C45_stable`, `C45_float`, `C45_encode`, `C45_decode`, `C45_json_encode`, `C45_json_decode` | For all declaration lists and tag functions; C45_encode, C45_decode, C45_json_encode and C45_json_decode connect the parsed metadata with the models of all four struct coders. |
| C46 | JSON round trip | partial | `C46_json_roundtrip_partial`, `C46_json_exact_partial`, `C46_refuted` | Round trip proved up to the normalisation jnorm (C46_json_roundtrip_partial), identity for values JSON has an exact notation for (C46_json_exact_partial). Refuted as stated: invalid UTF-8 and nil maps change (C46_refuted). Formatting of floats is assumed (LibOk); that of times too, but this assumption is discharged in C72_json_roundtrip; types with their own MarshalJSON/UnmarshalJSON are excluded. |
| C47 | JSON integers: 64-bit quoted, exact, range checked | proved | `C47_json_int_written`, `C47_json_int_read`, `C47_json_unquoted_rejected`, `C47_json_int_in_range` | Written in decimal, quoted for 64 bits; every decimal read back exactly or rejected when out of range; unquoted text rejected for 64 bits; whatever is read is in range. |
| C48 | JSON floats tagged unsafe round trip | partial | `C48_refuted`, `C48_json_float_rejected`, `C48_json_float_partial` | Refuted: C48_refuted (a float tagged unsafe is written but rejected on reading), and C48_json_float_rejected for all floats. With the option passed down the round trip holds (C48_json_float_partial). |
| C49 | MarshalJSON is deterministic | partial | `C49_refuted`, `C49_json_deterministic_partial` | Refuted for maps with two entries (C49_refuted); deterministic when all maps have at most one entry. |
| C50 | JSON interface decoding never panics | partial | `C50_refuted`, `C50_json_iface_partial`, `C50_json_iface_value` | Refuted when a registered type does not implement the interface (C50_refuted). Otherwise no panic and termination for every input except a lone quote into a 64-bit integer, which has its own property. |
| C51 | DeepCopy returns an equal value | partial | `C51_equal_partial`, `C51_map_refuted`, `C51_pointer_refuted` | Proved for all heaps and values in which no pointer points to a nil pointer, interface or map; refuted otherwise. |
| C52 | DeepCopy shares no mutable memory with the original | partial | `C52_disjoint_partial`, `C52_independent_partial`, `C52_slice_refuted`, `C52_map_refuted` | Proved for values without slices and without references in maps; refuted for slices (the copy is discarded) and map values (copied shallowly). |
| C53 | aminoscan terminates | partial | `C53_refuted`, `C53_stops_partial`, `C53_exact_partial` | Refuted (input 80 loops forever); proved to stop on every input whose last byte has no continuation bit, and exactly characterised in C53_exact_partial. |
| C54 | MarshalJSON always emits valid JSON for registered types | partial | `C54_refuted`, `C54_json_wrapper_partial` | Refuted for names containing a quote (C54_refuted); holds for names without quotes, backslashes and control characters. |
| C55 | Must* variants agree with their plain variants | proved | `C55_must` |  |
| C56 | Reader accepts every behaviour the io.Reader contract allows | partial | `C56_exact_partial`, `C56_eofWithPrefix_refuted`, `C56_emptyRead_refuted` | Refuted for end-of-file reported with the length prefix and for reads of no bytes; proved for end-of-file reported with the last bytes of the body. |
| C57 | Concurrent Marshal and Register are free of data races | partial | `C57_race_partial`, `C57_sealed_partial`, `C57_refuted` | Locked accesses never race in any schedule, and no race once sealed; refuted for the unlocked read in encodeReflectBinaryInterface (C57_refuted). |
| C58 | aminoscan never panics | partial | `C58_count_partial`, `C58_refuted`, `C58_wellformed_partial`, `C58_exact_partial`, `C58_end` | Refuted by eight malformed inputs. C58_exact_partial describes, in terms of the bytes alone, exactly which inputs are scanned without error, with an error, with a panic, or forever. |
| C59 | DeepCopy leaves the original alone | proved | `C59_original` | For all heaps and values; user methods assumed to only allocate. |
| C60 | UnmarshalJSON never panics | partial | `C60_json_no_panic_partial`, `C60_refuted` | Proved for every byte string except the one-byte string '"', for types without pointers to interfaces and lists of named byte types, given that registered types implement the interfaces they are decoded into. C60_refuted: the lone quote read into an int64 panics. |
| C61 | Which JSON texts are accepted as integers | partial | `C61_json_int64_accepted_partial`, `C61_json_int_accepted`, `C61_refuted` | Exact form of everything accepted; null gives 0. C61_refuted: inside the quotes 'null' and white space are accepted too. Excluded: types with their own methods. |
| C62 | UnmarshalJSON does not depend on old contents | partial | `C62_json_stale_partial`, `C62_refuted`, `C62_null_refuted` | Proved for old contents that agree on fields tagged omitempty and on fields not encoded, byte slices for texts in which null stands only behind a colon or alone. C62_refuted: an absent omitempty field keeps its old content. C62_null_refuted: [null] leaves the old byte. |
| C63 | Order of members and unknown members do not matter | proved | `C63_json_members`, `C63_json_member_order`, `C63_json_unknown_member` | For struct types without methods of their own; object texts are written without white space between tokens. |
| C64 | aminoscan reports truncated input | proved | `C64_complete` | Success means that the input is a whole number of complete fields, all of it scanned. |
| C65 | Every spelling of a JSON string is understood | proved | `C65_json_string`, `C65_json_string_top`, `C65_json_string_utf8` | Spelling relation of RFC 8259 over Unicode scalar values (Lean's UTF-8), against the string scanner and unquoter. Whatever is accepted, the variable holds well formed UTF-8. |
| C66 | Field numbers and wire types are checked | partial | `C66_struct_partial`, `C66_topLevel`, `C66_iface`, `C66_time_refuted` | Proved for structs of exact fields, for all wrapped top-level values and for wrapped implementations behind interfaces. False in general: bytes a time leaves unread are taken for fields (C66_time_refuted). |
| C67 | Encodings are proto3 serializations | proved | `C67_struct`, `C67_wrapped`, `C67_bare` | Relation between Go values and schema-less protobuf values, functional (means_unique); bytes equal to an independent serializer; structs, bare lists and values wrapped in field 1. Supported universes whose overrides keep the wire type (otherwise false: C44_wireType_refuted). |
| C68 | Programs with the same registrations understand each other | proved | `C68_binary`, `C68_bytes`, `C68_json` | The state of the codecs is derived from the histories: hypotheses mention only types, method sets and registration calls (Program, JProgram in SpecEnd), with the type restrictions of C11, C46 and C67; the value is roundTrip for binary, jnorm for JSON (see C46). |
| C69 | Decoding does not amplify memory | proved | `C69_bare`, `C69_prefixed` | Size counts components and bytes of strings and byte slices. Hypotheses: bounds on zero values, field counts and pointer depth, UnmarshalAmino results linear in the representation, no UnmarshalAmino on elements of packed arrays, ranks as in C17. The buffer that UnmarshalBinaryLengthPrefixedReader allocates before reading is not part of the stored value (it is bounded by maxSize only, see C20). |
| C70 | White space between JSON tokens does not matter | partial | `C70_json_space_partial`, `C70_json_around_partial`, `C70_refuted` | Refuted for white space around the whole text: amino compares the raw bytes with null and looks at the first and last byte itself, so " \"5\"" is rejected for an int64 (also times, floats, null, types with methods). Proved: white space between tokens inside the text never matters; around the text it does not matter for registered types, nor for kinds that json.Unmarshal reads. Assumes the same of the library float parser and user UnmarshalJSON methods (LibSpace). |
| C71 | MarshalJSONIndent's text means what MarshalJSON's means | proved | `C71_json_indent`, `C71_json_layout`, `C71_json_indent_roundtrip` | json.Indent (Go 1.12) is modelled; the exact layout is C71_json_layout. Texts are compact (no white space between tokens), as MarshalJSON writes them unless a user MarshalJSON method adds white space. |
| C72 | JSON times are RFC 3339 instants in UTC | partial | `C72_json_time_written`, `C72_json_time_read`, `C72_json_time_accepted_partial`, `C72_stamp_unique`, `C72_refuted`, `C72_json_roundtrip` | Written form, reading of every RFC 3339 notation in UTC, uniqueness and the round trip proved for all instants, with package time modelled. Refuted for what is accepted: hours of one digit, and fractions of more than nine digits are misread (0.0000000004 s is read as 4 ns); C72_json_time_accepted_partial gives the exact form of everything accepted. |
| C73 | A JSON text determines the value | proved | `C73_json_injective`, `C73_json_exact_injective`, `C73_json_type` | Up to the normalisation jnorm of C46 (C73_json_injective), exactly for values with an exact notation. Same universe and library assumptions as C46. |
| C74 | JSON round trips settle | partial | `C74_json_settles_partial`, `C74_refuted` | False for pointers to slices (C74_refuted: &[]int64{} is written as [], then as null, then is a nil pointer). Proved for types without pointers to slices; MarshalAmino must recover what UnmarshalAmino was given, and not be represented by slices or interfaces. |
| C75 | Old messages are read by newer types | proved | `C75_olderMessage`, `C75_pointers` | Any appended fields whose types the codec knows; both versions registered under the same name in their codecs or both unregistered (same prefix bytes). |
| C76 | JSON fields are matched by name | proved | `C76_json_byName` | For types without methods of their own, not registered (for a registered type the text also carries its name). |
| C77 | Types may be changed at any depth | proved | `C77_sameBytes`, `C77_read`, `C77_widen_refuted` | uint8 is left out of the widenings (it is special as an element of lists). The values of appended fields are any that are not written: nil, zero numbers, false, empty strings and lists, 1970, structs of such. C77_read needs the usual assumptions of the round trip (C11) for the new types. |
| C78 | What can be written | proved | `C78_writes`, `C78_fuel` | Success is meant up to Go's stack and memory: the theorem gives a fuel for which the encoder succeeds, and C78_fuel says that more changes nothing. The bound of 2^29 fields per struct is that of the field numbers. |
| C79 | What was read can be written again | partial | `C79_rewrite_partial`, `C79_reread_partial`, `C79_rewrite_refuted` | Refuted in general (C79_rewrite_refuted). C79_rewrite_partial excludes the two tags on pointers by hypotheses (Rewritable) and covers the types of the round trip (Universe); C79_reread_partial is for structs and lists of structs. |
| C80 | The JSON that is written | proved | `C80_document`, `C80_nil`, `C80_unique`, `C80_program` | Registered names are assumed to need no escapes (PlainNames; follows from the calls by C80_program): otherwise the output is not JSON at all, see C54. Floats, times and the results of MarshalJSON are texts that are not looked into (times are C72). |
| C81 | What can be written as JSON | proved | `C81_writes`, `C81_depth` | Texts of floats and times and the methods of user types are parameters (times are C72); success is meant for some depth of recursion, and C81_depth gives it for all greater ones. |
| C82 | What was read from JSON can be written again | partial | `C82_json_rewrite_partial`, `C82_time`, `C82_float_refuted`, `C82_named_bytes_refuted` | Refuted for lists of floats (null elements) and lists of named byte types given by value. Proved for programs meeting JRewritable: zero values can be written, byte lists are of byte itself, methods come in pairs and succeed on what was read, times ending in Z have a text (proved for the modelled library, C82_time). |
| C83 | A pointer or a value: the same encoding | partial | `C83_refines`, `C83_transfer`, `C83_pointer`, `C83_pointer_LP`, `C83_alike_partial`, `C83_writes_partial`, `C83_json_partial`, `C83_array_refuted`, `C83_json_refuted`, `C83_places_refuted` | Refuted for arrays of named byte types (binary) and pointer methods (JSON). Proved: the encoder with addressability (encA) gives what enc gives or panics in reflect.Copy, so success by value implies the same bytes by pointer; equality in programs without such types; C83_places_refuted lists which places are addressable. |
| C84 | Every call returns | partial | `C84_refines`, `C84_terminates`, `C84_no_deadlock_partial`, `C84_returns_partial`, `C84_printTypes_refuted` | Proved with the writer preference of sync.RWMutex when no type has an untagged float field (such a field leaves the lock locked, C34_refuted): no deadlock, and at most 7 steps per goroutine. Refuted for PrintTypes with a writer that uses the codec: it is called with the read lock held. |
| C85 | JSON output is safe in HTML and on one line | partial | `C85_safe_partial`, `C85_lib`, `C85_bytes`, `C85_name_refuted`, `C85_method_refuted` | Proved if the names of registered types and what MarshalJSON methods return are safe; refuted otherwise: both are written as they are (encoding/json compacts and escapes what methods return). Times are modelled, floats are assumed to be JSON numbers. |
| C86 | Through JSON to the same bytes | partial | `C86_transcode_partial`, `C86_same_text_partial`, `C86_text_refuted`, `C86_converse_refuted`, `C86_pointer_refuted` | Proved for values with valid UTF-8, without floats, of types whose MarshalAmino undoes UnmarshalAmino and maps zero values to zero values (pointers to such types are limited), and tags that do not combine write_empty with omitempty or pointers, nor omitempty with pointers to arrays. Refuted for invalid UTF-8 and for a pointer to an empty array tagged omitempty; the opposite direction is refuted. |
| C87 | One message, one byte string | partial | `C87_strict_partial`, `C87_canonical_partial`, `C87_malleable_refuted` | The uniqueness is refuted (padded varints, explicit defaults, unknown fields). The comparison with the re-encoding and the canonical form are proved under the hypotheses of C13 and C79. |
| C88 | Later registrations keep the JSON | proved | `C88_json_preserved`, `C88_own_registration` | For all programs and histories. That the type itself must not be registered meanwhile is necessary (C88_own_registration). |
| C89 | Streams that break off | partial | `C89_cut_partial`, `C89_eof_refuted` | All but the last sentence is proved; io.EOF is also reported inside a message (refuted), but n is 0 exactly between messages. |
| C90 | Calls while others register | partial | `C90_binary_partial`, `C90_json`, `C90_alone`, `C90_mixed_refuted` | Proved for JSON without restriction and for the binary calls while no two registered types share prefix bytes; with shared prefixes a message may mix both forms (refuted). |
| C91 | The table of registered types | partial | `C91_table_partial`, `C91_length_refuted`, `C91_names_refuted` | Proved except for the Length column, which is refuted; names with | or a line feed are excluded by hypothesis (and shown to spoil the table). |
| C92 | The variable after a failed Unmarshal | partial | `C92_typed`, `C92_success`, `C92_again_partial`, `C92_kept_partial`, `C92_hidden`, `C92_half_refuted`, `C92_trailing_refuted`, `C92_interface_refuted`, `C92_listPointer_refuted` | Proved for types without interfaces outside slices, without fields that are not encoded, and other than pointers to lists; refuted for interfaces and pointers to lists. Kept contents proved for leaf types, refuted for arrays, structs and trailing bytes. |
| C93 | The variable after a failed UnmarshalJSON | partial | `C93_success`, `C93_again_partial`, `C93_kept_partial`, `C93_half_refuted`, `C93_omitempty_refuted`, `C93_interface_refuted` | Proved: after success the variable holds the result; types without omitempty and hidden fields can be reused after any calls (with byte slices for texts with null only as a member); numbers, strings, maps, slices are kept by failing calls. The full property is refuted (C93_half_refuted, C93_omitempty_refuted, C93_interface_refuted). |
| C94 | The text of struct tags | proved | `C94_get`, `C94_options`, `C94_order`, `C94_others`, `C94_skip`, `C94_secret`, `C94_comma`, `C94_space` | For conventional tag texts with plain values. strconv.Unquote on values with escapes is a parameter. |
| C95 | Which struct tags can be changed without breaking stored data | proved | `C95_json_tags`, `C95_write_empty`, `C95_cross`, `C95_binary_tags`, `C95_fixed_refuted`, `C95_fixed_list_refuted`, `C95_empty_elements_refuted`, `C95_rename_refuted` | Tags that matter are shown to matter by witnesses. |
| C96 | aminoscan prints every byte of its input, and for a well-formed message exactly its fields | proved | `C96_bytes`, `C96_listing`, `C96_color`, `C96_hex` | For all inputs the last line is the input, the count and the error; for all well-formed messages the output is the listing of the fields. |
| C97 | Unmarshal writes only to the variable it is given and keeps no reference to its input | proved | `C97_frame`, `C97_references`, `C97_input` | For all memories, also with sharing and cycles, and all outcomes. User methods must keep to the region themselves (MethodsLocal). |
| C98 | Unmarshal stores what was encoded, wherever the variable points | partial | `C98_unshared_partial`, `C98_new_partial`, `C98_shared_refuted`, `C98_cyclic_refuted` | For targets without shared pointers, and new variables: same outcome and contents as the decoder on values. For shared and cyclic targets the claim is false (C98_shared_refuted, C98_cyclic_refuted). |
| C99 | UnmarshalJSON takes nothing but JSON, and shows methods nothing but JSON | partial | `C99_json_only_partial`, `C99_methods_partial`, `C99_refuted` | Proved except for variables of unregistered 64-bit integer types (accepted texts) and texts that are not JSON given to unregistered types (methods), where it is false (C99_refuted). |
| C100 | Which JSON texts are read as bytes | proved | `C100_bytes`, `C100_bytes_top`, `C100_array` | Both directions for slices, arrays and the whole of UnmarshalJSON. The spare capacity of the slice decoded into is taken as zeros. |
| C101 | Which JSON texts UnmarshalJSON accepts and what it makes of them | proved | `C101_accepts`, `C101_exactly`, `C101_unique`, `C101_refuses` | Both directions, with uniqueness, for variables of the right type. Floats are always refused at the top (no field option reaches them). Entries of maps are listed in the order of the text. |
| C102 | Which bytes UnmarshalBinaryBare accepts and what it makes of them | proved | `C102_exactly`, `C102_accepts`, `C102_unique`, `C102_failure`, `C102_refuses`, `C102_prefixed` | Soundness and completeness of the decoder for the grammar BRead, for every program and codec, every old contents; also uniqueness, refusal of everything else, and the length-prefixed form. |
| C103 | Marshal reads a value wherever it is in memory | proved | `C103_binary`, `C103_lengthPrefixed`, `C103_json`, `C103_sharing`, `C103_endless`, `C103_endless_json`, `C103_cyclic`, `C103_cyclic_json`, `C103_roundTrip`, `C103_never_returns`, `C103_blowup` | both encoders modelled on memory; equality with the tree encoders for all sharing; no bytes for endless values; round trip in memory; exponential size |
| C104 | UnmarshalJSON writes only to the variable it is given and keeps no reference to its input | partial | `C104_frame_partial`, `C104_references`, `C104_input`, `C104_bytes_refuted`, `C104_beyond_refuted` | Proved with the arrays behind byte slices counted as part of the target (C104_frame_partial); references and input in full (C104_references, C104_input). C104_bytes_refuted: reading a JSON array into a byte slice overwrites the array it shares with other slices, also behind its end and when the call fails. C104_beyond_refuted: null elements bring old bytes behind the end of the slice to light. |
| C105 | UnmarshalJSON builds in memory exactly the value its text describes | proved | `C105_outcome`, `C105_separate`, `C105_new`, `C105_roundTrip`, `C105_needs_noRefs` | C105_outcome (same outcome and value as on trees), C105_separate (new memory, nothing else changed), C105_new (new variables), C105_roundTrip (with C46 and C103). C105_needs_noRefs shows that the condition on the target is needed. Sharing among the new variables is not excluded by the statement. |
| C106 | What becomes of a message of which the end is missing | partial | `C106_cut_partial`, `C106_plain_partial`, `C106_between`, `C106_cutRefused_refuted`, `C106_json_partial`, `C106_number_refuted` | C106_cut_partial describes exactly what can be had from a cut message; C106_plain_partial is its reading for structs without repeated fields and byte slices; C106_between shows that cuts between fields are accepted; C106_json_partial for JSON. Refusal of all cuts is refuted (C106_cutRefused_refuted, C106_number_refuted). |
| C107 | UnmarshalJSON does not amplify memory | partial | `C107_size_partial`, `C107_names_refuted` | Proved for programs in which no struct has two encoded fields of the same JSON name (C107_size_partial); refuted otherwise (C107_names_refuted). Size counts components and bytes of strings and byte slices. Hypotheses: bounds on zero values, field counts and pointer depth; UnmarshalAmino adds at most a constant to the representation, UnmarshalJSON methods are linear in their text; chains of UnmarshalAmino are bounded. What json.Unmarshal allocates in between is not counted. |
| C108 | The order in which Go walks maps affects only the order of members | partial | `C108_order`, `C108_reading_partial`, `C108_keys_refuted` | C108_order is proved for all programs whose methods do not look at map order. Reading (C108_reading_partial) for the universe of C46 and values whose map keys are valid UTF-8; refuted for other keys (C108_keys_refuted). |
| C109 | Which MarshalAmino and UnmarshalAmino are used | proved | `C109_exact`, `C109_panics`, `C109_own`, `C109_pointer`, `C109_none`, `C109_promoted`, `C109_ambiguous`, `C109_pointer_refuted`, `C109_mixed_refuted`, `C109_embedded_refuted` | For all declarations, given that reflect follows the rules of the language for method sets. The C109_*_refuted theorems are the part of the statement that says what is not guaranteed. |
| C110 | JSON round trip with the program's own JSON methods | partial | `C110_roundtrip_partial`, `C110_none`, `C110_pointer_refuted` | For methods MarshalJSON that the value itself has and that obey the law JMethods. Refuted for pointer receivers (C110_pointer_refuted). |
| C111 | MarshalText and UnmarshalText in JSON | partial | `C111_same_marshal`, `C111_same_unmarshal`, `C111_roundtrip_partial`, `C111_int64_refuted`, `C111_reads`, `C111_float` | Round trip for kinds other than 64-bit integers, for which it is refuted (C111_int64_refuted). What is read is exact for these kinds (C111_reads). Floats with text methods: refused without a tag (C111_float); with a tag they are left out. |
| C112 | Map keys in JSON | proved | `C112_other`, `C112_named_written`, `C112_named_unread`, `C112_named_refuted`, `C112_method_refuted` | All parts of the statement, for types without other methods at the top level; C112_named_refuted and C112_method_refuted are part of the statement. |
| C113 | DeepCopy uses the methods of a type | partial | `C113_deepcopy`, `C113_deepcopy_pointer`, `C113_amino_partial`, `C113_amino_error`, `C113_slice_refuted`, `C113_field_refuted`, `C113_codec`, `C113_none`, `C113_value_refuted`, `C113_pointer_refuted`, `C113_embedded_refuted` | For methods DeepCopy, and for pointers to types with MarshalAmino and UnmarshalAmino; the rest of the statement is refuted by the code (C113_slice_refuted and C113_field_refuted in general, C113_value_refuted, C113_pointer_refuted, C113_embedded_refuted by witnesses). |
| C114 | An encoding is at most a fixed number of times as big as the value | partial | `C114_bare_partial`, `C114_lengthPrefixed_partial`, `C114_json_partial`, `C114_codec`, `C114_memory_partial`, `C114_shared_refuted`, `C114_methods_refuted` | Linear bound proved for values written out as trees, with explicit constants, for methods that do not duplicate; the claim for the size in memory is false for shared variables, and for MarshalAmino methods that return their receiver twice (both refuted with witnesses of exponential size). |
| C115 | What Unmarshal does with a target it cannot write to | partial | `C115_pointer`, `C115_nonpointer`, `C115_nil_bare`, `C115_nil_partial`, `C115_nil_json_partial`, `C115_marshal`, `C115_reader_reads`, `C115_reader_pointer`, `C115_reader_partial`, `C115_nil_refuted`, `C115_reader_refuted` | Errors for targets that are not pointers proved for all inputs; for nil pointers the exact condition for the panic is proved. The claim as documented is refuted: a wrong length prefix gives an error and no panic for nil pointers, and the reader form takes the message out of the stream before it refuses the target. |
| C116 | Messages from other protobuf implementations | partial | `C116_message_partial`, `C116_registered_partial`, `C116_delimited_partial`, `C116_one`, `C116_order_refuted`, `C116_twice_refuted`, `C116_unpacked_refuted`, `C116_digits_refuted` | Proved for serializations with the fields in order, each given once, numbers packed, and no superfluous digits in the counts of messages, timestamps and packed lists, nor in booleans. The full claim is refuted for each of these four liberties. Interfaces, maps, arrays and types with UnmarshalAmino are not among protobuf's types and left out; pointers are included. |
| C117 | The work of Unmarshal grows at most with the square of the message, and reaches it | proved | `C117_bare`, `C117_prefixed`, `C117_counted`, `C117_square_reached` | The counted steps are the calls, loop iterations and copied bytes of an instrumented copy of the decoder; making zero values, growing slices and methods of users are not counted. C117_counted shows that the count does not miss bytes. |
| C118 | The work of Marshal grows at most with the square of the value, and reaches it | proved | `C118_bare`, `C118_lengthPrefixed`, `C118_nesting`, `C118_counted`, `C118_square_reached` | The counted steps are the calls, loop iterations and written bytes of an instrumented copy of the encoder; growing of buffers, the copy of byte arrays without address and methods of users are not counted. C118_counted shows that the count does not miss bytes of the result. |
| C119 | The command line of aminoscan | partial | `C119_flags`, `C119_scan_partial`, `C119_scan_ends`, `C119_color`, `C119_usage`, `C119_name`, `C119_digest`, `C119_exit`, `C119_behind_flags_refuted`, `C119_help_refuted` | Flag grammar, scanning of the first argument and for which bytes a result is printed, colored bytes, disfix bytes, usages and the exits proved. Refuted: bytes behind flags or -- are not scanned (panic), --help does not print the help. |
| C120 | Messages can be told apart by their prefix bytes | partial | `C120_length`, `C120_begins_partial`, `C120_message`, `C120_prefixed`, `C120_tells`, `C120_reads`, `C120_disamb`, `C120_short_refuted` | Proved for messages of registered types, bare or length-prefixed, and byte strings of at least four bytes; refuted for shorter ones, which NewPrefixBytes fills up with zero bytes (C120_short_refuted). |
| C121 | aminoscan lists the fields of what MarshalBinaryBare wrote | partial | `C121_struct_partial`, `C121_registered_refuted` | Proved for the bytes of struct messages behind the prefix, so for all messages of types that are not registered; refuted for registered types (C121_registered_refuted). |

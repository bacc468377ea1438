{"id": "C01", "title": "Unsigned integers survive serialize/deserialize", "statement": "For u8, u16, u32 and u64: deserializing the bytes that serializing a value v produced, followed by any other bytes, returns exactly v and leaves exactly the other bytes unread; no panic in debug or release builds.", "quantifier": "every width in {8,16,32,64}, every value of that width, every continuation of the stream, both build modes", "why_tests_cant": "2^64 values times arbitrary continuations", "anchors": ["steit/src/impls/varint.rs: impl_unsigned_varint (serialize 21-35, merge 40-62)"]}
{"id": "C02", "title": "Predicted integer size equals bytes written and is minimal", "statement": "compute_size of an integer (signed or unsigned, any width) equals the number of bytes serialize writes, and no shorter LEB128 byte string denotes the same unsigned number.", "quantifier": "every integer type and value", "why_tests_cant": "size_32/size_64 branch on hand-written masks; boundaries at every multiple of 7 bits cannot all be sampled", "anchors": ["steit/src/impls/varint.rs: size_32, size_64, compute_size"]}
{"id": "C03", "title": "Integer encodings are unambiguous (prefix-free)", "statement": "If the encodings of two unsigned integers of one width are both prefixes of one byte stream then the integers are equal; distinct values have distinct encodings.", "quantifier": "every pair of values of every width, every pair of suffixes", "why_tests_cant": "quantifies over pairs and arbitrary suffixes", "anchors": ["steit/src/impls/varint.rs: serialize, merge"]}
{"id": "C04", "title": "Signed integers survive serialize/deserialize", "statement": "For i8, i16, i32, i64: deserializing the serialization of v returns v. FALSE of the code: the zigzag decoder shifts a signed value arithmetically, so the round trip holds exactly when -2^(N-2) <= v < 2^(N-2).", "quantifier": "every signed width and value, both build modes", "why_tests_cant": "the existing tests only use small magnitudes and miss the failing half of the range", "anchors": ["steit/src/impls/varint.rs: impl_signed_varint encode 86-88, decode 90-92"]}
{"id": "C05", "title": "Meaning of every accepted varint", "statement": "Reading an unsigned integer consumes bytes up to and including the first one without continuation bit. If these are at most ceil(width/7) bytes the result is the little-endian base-128 number modulo 2^width, canonical or not; if the stream ends first the result is UnexpectedEof and the target is unchanged; a longer one panics in a debug build and never errors in release.", "quantifier": "every byte stream, width, build mode", "why_tests_cant": "unbounded set of byte strings, non-canonical encodings", "anchors": ["steit/src/impls/varint.rs: merge 40-62"]}
{"id": "C06", "title": "Booleans round-trip and accept any varint", "statement": "Serializing then deserializing a bool gives it back; deserializing an arbitrary terminated varint of any length gives true iff its payload is non-zero.", "quantifier": "both values; every byte stream", "why_tests_cant": "arbitrarily long varints", "anchors": ["steit/src/impls/bool.rs: serialize, merge"]}
{"id": "C07", "title": "Field tags and wire types pack without loss", "statement": "tag(n, wt) succeeds exactly for n <= 2^29-1, parse_tag(tag(n,wt)) = (n,wt), and parse_tag succeeds on exactly the u32 values of that form, never returning an out-of-range field number.", "quantifier": "every u32 and both wire types", "why_tests_cant": "2^32 inputs", "anchors": ["steit/src/wire_fmt.rs: tag, parse_tag, validate_field_number, WireType::from_value"]}
{"id": "C08", "title": "Predicted size equals bytes written for every value", "statement": "For every value of every serializable type (integers, bool, String, Bytes, Vec, arrays, tuples, Option, Box, HashMap, List, Map, derived structs and enums, nested to any depth): compute_size returns the exact number of bytes that serialization writes, provided that number fits u32 and map keys are legal field numbers.", "quantifier": "every type, every value, every prior content of the size caches, both build modes", "why_tests_cant": "unbounded type nesting and value size", "anchors": ["steit/src/ser.rs: compute_size_nested, serialize_nested", "steit-derive/src/derive/struct.rs: sizer, serializer", "steit-derive/src/derive/enum.rs: impl_serialize"]}
{"id": "C09", "title": "Serialized bytes do not depend on cache contents, runtimes or earlier calls", "statement": "The bytes produced by steit_serialize depend only on the data: any stale size-cache contents, any runtime/logger attached, any earlier serialization or mutation of the value give the same bytes, namely those of the wire-format specification.", "quantifier": "every type, value, cache content, runtime", "why_tests_cant": "histories of earlier calls leave arbitrary cache contents", "anchors": ["steit/src/ser.rs: cache_size, cached_size, steit_serialize", "steit/src/rt/size_cache.rs"]}
{"id": "C10", "title": "Concurrent serialization of a shared value is safe", "statement": "Any number of threads serializing the same value through shared references, under any interleaving of their individual cache loads and stores and any initial cache contents, each produce exactly the specified bytes.", "quantifier": "every type, value, number of threads, interleaving, initial caches", "why_tests_cant": "schedules are unbounded; races on the atomics cannot be forced by tests", "anchors": ["steit/src/rt/size_cache.rs: get, set (Relaxed atomics)", "steit/src/ser.rs"]}
{"id": "C11", "title": "Deserialize inverts serialize for every type", "statement": "For every type and every value without integers hit by C04 (and, for Map, with keys the wire format can carry), deserialize(to_bytes(v)) succeeds, consumes all input and returns a value equal to v.", "quantifier": "every type (any nesting), every value, both build modes", "why_tests_cant": "unbounded types and values", "anchors": ["steit/src/de/de.rs", "steit/src/ser.rs", "steit-derive/src/derive/struct.rs: merger", "steit-derive/src/derive/enum.rs: impl_deserialize"]}
{"id": "C12", "title": "Nested values are self-delimiting", "statement": "deserialize_nested of the bytes serialize_nested(None,false) wrote followed by any other bytes returns the value and leaves exactly the other bytes; hence sequences of nested values parse uniquely.", "quantifier": "every type, value, following bytes", "why_tests_cant": "arbitrary following bytes", "anchors": ["steit/src/de/de.rs: merge_nested, deserialize_nested", "steit/src/ser.rs: serialize_nested", "steit/src/de/reader.rs: nested"]}
{"id": "C13", "title": "Omitted fields are exactly the default ones", "statement": "A struct or variant field is left out of the output only if it decodes back to the same value from a missing field (equal to the field type's default); a field whose value differs from the default is always written.", "quantifier": "every field type and value", "why_tests_cant": "needs every type's notion of emptiness to coincide with its default", "anchors": ["steit/src/ser.rs: is_omissible, serialize_nested", "steit/src/impls/macros.rs: is_omissible"]}
{"id": "C14", "title": "Unknown fields are skipped", "statement": "Inserting fields with unknown tags (of either wire type) anywhere between the fields of a serialized struct does not change the decoded value. FALSE in debug builds for varint fields of three or more bytes (skip reads them as u8 and the shift overflows) and for sized fields declaring 2^63 bytes or more.", "quantifier": "every struct type, value, any number and position of unknown fields", "why_tests_cant": "arbitrary unknown payloads", "anchors": ["steit/src/de/reader.rs: skip_field 43-57", "steit-derive/src/derive/struct.rs: merger 356-370"]}
{"id": "C15", "title": "Field order on the wire does not matter", "statement": "Decoding the fields of a struct in any permutation of their serialized order yields the same value.", "quantifier": "every struct type, value and permutation", "why_tests_cant": "factorially many orders", "anchors": ["steit-derive/src/derive/struct.rs: merger"]}
{"id": "C16", "title": "Merging is sequential", "statement": "Merging a concatenation x ++ y into a struct, list, map, Vec, Bytes value where x ends at a field/item boundary equals merging x and then y; in particular decode(enc a ++ enc b) equals merging enc b into a.", "quantifier": "every type with loop-style merge, every pair of inputs", "why_tests_cant": "arbitrary inputs", "anchors": ["steit-derive/src/derive/struct.rs: merger", "steit/src/types/list.rs: merge", "steit/src/types/map/map.rs: merge", "steit/src/impls/vec.rs: merge"]}
{"id": "C17", "title": "Schemas can evolve by adding fields", "statement": "If a schema gains fields with fresh tags, an old reader decodes new data to the common part and a new reader decodes old data with the added fields at their defaults.", "quantifier": "every struct schema, set of added fields, value", "why_tests_cant": "every schema pair", "anchors": ["steit-derive/src/derive/struct.rs: merger", "steit-derive/src/derive/field.rs: merger, serializer"]}
{"id": "C18", "title": "Decoding any bytes terminates without panic", "statement": "For every type and every finite input, deserialization terminates with Ok or an io error; no panic. FALSE as stated: overlong varints panic in debug builds, and skipping a sized field of declared size >= 2^63 aborts in every build; in release builds without such a field it holds.", "quantifier": "every type, every byte string", "why_tests_cant": "all byte strings (adversarial input)", "anchors": ["steit/src/de/reader.rs", "steit/src/impls/varint.rs: merge", "steit-derive/src/derive/struct.rs: merger"]}
{"id": "C19", "title": "A nested value never reads past its declared length", "statement": "Decoding a length-prefixed value sees only the bytes its prefix declares; what follows is decoded exactly as if the nested value had been absent, whatever the nested bytes are.", "quantifier": "every type, payload, suffix", "why_tests_cant": "arbitrary payloads incl. malformed", "anchors": ["steit/src/de/reader.rs: nested 30-36", "steit/src/de/de.rs: merge_nested"]}
{"id": "C20", "title": "Truncated messages are detected", "statement": "Cutting a length-prefixed value short makes decoding fail. FALSE: a truncated length-prefixed payload is silently accepted as a shorter one.", "quantifier": "every value and truncation point", "why_tests_cant": "every cut point", "anchors": ["steit/src/de/reader.rs: nested (io::Take)"]}
{"id": "C21", "title": "Strings accept exactly valid UTF-8", "statement": "Decoding a String succeeds iff the payload is well-formed UTF-8, returns precisely that text, and on failure leaves the old string unchanged.", "quantifier": "every byte string", "why_tests_cant": "all byte strings", "anchors": ["steit/src/impls/string.rs: merge, from_utf8"]}
{"id": "C22", "title": "Fixed arrays tolerate short and long payloads", "statement": "Decoding [T;N] overwrites the first min(k,N) elements with the k items present, keeps the others, ignores surplus bytes and always consumes the payload; a tuple needs all its items.", "quantifier": "every N, T, payload", "why_tests_cant": "every payload length", "anchors": ["steit/src/impls/array.rs: merge", "steit/src/impls/tuple.rs: merge"]}
{"id": "C23", "title": "Log bytes parse back to the logged entries", "statement": "Parsing the bytes a buffer logger returns, as replay does, yields exactly the entries that were logged, in order, with the same path, kind, key and payload.", "quantifier": "every finite sequence of log entries", "why_tests_cant": "unbounded sequences and payloads", "anchors": ["steit/src/log/entry.rs", "steit/src/log/loggers/buffer.rs: bytes", "steit/src/state.rs: replay"]}
{"id": "C24", "title": "A replica replaying the log equals the source", "statement": "Take a root state and a replica equal to it. After any sequence of API mutations (setters, *_with setters, enum variant setters, list push/push_with/pop/swap_remove, map insert/insert_with/remove, nested to any depth), replaying the bytes of the logger on the replica succeeds and makes it equal to the source again. FALSE without the side conditions in C35-C38.", "quantifier": "every state type, every reachable state, every finite history of mutations, both build modes", "why_tests_cant": "unbounded histories over unbounded nesting", "anchors": ["steit/src/state.rs", "steit/src/types/list.rs", "steit/src/types/map/map.rs", "steit-derive/src/derive/field.rs: setter", "steit-derive/src/derive/enum.rs"]}
{"id": "C25", "title": "Every nested object knows its own address", "statement": "In every state reachable from a constructed root by API mutations (subject to C36, C37), deserialization or replay, the path stored in each nested object is the sequence of field numbers leading to it and its logger is the root's, so the next mutation is logged under the right path.", "quantifier": "every type, every history", "why_tests_cant": "invariant over unbounded histories", "anchors": ["steit/src/rt/runtime.rs: nested, parent, sibling", "steit/src/types/list.rs: set_runtime, merge, handle", "steit/src/types/map/map.rs: set_runtime, merge, handle", "steit-derive/src/derive/struct.rs: ctor, runtime_setter"]}
{"id": "C26", "title": "Replaying does not log", "statement": "Replaying any bytes on a replica (successfully or not) adds no entry to the replica's own logger and does not change its pause count.", "quantifier": "every type, replica, byte string", "why_tests_cant": "all inputs", "anchors": ["steit/src/state.rs: replay, handle_update"]}
{"id": "C27", "title": "Pausing nests", "statement": "An entry passed to a runtime logger is recorded iff the pause counter is zero, i.e. iff every pause since the counter was last zero was matched by an unpause; surplus unpauses are ignored. Recorded entries keep their order.", "quantifier": "every sequence of pause/unpause/log calls", "why_tests_cant": "all call sequences", "anchors": ["steit/src/rt/logger.rs: log, pause, unpause"]}
{"id": "C28", "title": "A *_with constructor logs exactly one entry", "statement": "Whatever the closure passed to set_x_with, push_with or insert_with does with the value it builds (any API mutations on it), the logger receives exactly one entry, describing the final value, and the pause count is restored.", "quantifier": "every type, closure effect, prior pause count", "why_tests_cant": "arbitrary user closures", "anchors": ["steit/src/types/list.rs: push_with", "steit/src/types/map/map.rs: insert_with", "steit-derive/src/derive/field.rs: setter_with"]}
{"id": "C29", "title": "Replay is incremental", "statement": "Replaying log a followed by log b gives the same state as replaying their concatenation, for whatever chunking at entry boundaries.", "quantifier": "every type, state, pair of entry sequences", "why_tests_cant": "all chunkings", "anchors": ["steit/src/state.rs: replay"]}
{"id": "C30", "title": "A failing replay stops at the failing entry", "statement": "If replay fails then all entries before the failing one have been applied and none after it. The failing entry itself may leave a partial update (whole-value updates are not atomic), which is exhibited; updates of integers and bools are atomic.", "quantifier": "every type, state, entry sequence and failure point", "why_tests_cant": "every failure point", "anchors": ["steit/src/state.rs: replay, handle_update", "steit/src/impls/macros.rs: handle_update"]}
{"id": "C31", "title": "Replay is refused on non-root objects", "statement": "Calling replay on an object whose path is not the root returns InvalidInput and changes nothing.", "quantifier": "every type with a runtime, every state, every input", "why_tests_cant": "all states", "anchors": ["steit/src/state.rs: replay, is_root", "steit-derive/src/derive/enum.rs: is_root"]}
{"id": "C32", "title": "Replay of arbitrary bytes preserves structural invariants", "statement": "After replaying ANY byte string on a well-formed replica, successful or not, the address invariant (C25) still holds. FALSE for the key-range invariant of Map<u8|u16,_>: a log entry can insert a key outside the key type, after which iteration panics.", "quantifier": "every type, replica, byte string", "why_tests_cant": "adversarial input", "anchors": ["steit/src/state.rs", "steit/src/types/list.rs: handle", "steit/src/types/map/map.rs: handle 221-271", "steit/src/types/map/iter.rs"]}
{"id": "C33", "title": "List operations behave like a sequence", "statement": "push appends and returns the index, pop removes the last, swap_remove(i) returns element i and moves the last one there (None out of range), get_mut edits one element; each logs nothing when it does nothing and otherwise the entries that perform the same edit.", "quantifier": "every item type, list, argument, history", "why_tests_cant": "unbounded lists", "anchors": ["steit/src/types/list.rs: push, pop, swap_remove"]}
{"id": "C34", "title": "Map operations behave like a finite map", "statement": "insert/remove/get/contains/len act as on a finite partial function (insert returns the old value and keeps the position of an existing key; remove moves the last entry into the hole), keys stay distinct in every history.", "quantifier": "every value type, map, history", "why_tests_cant": "unbounded histories", "anchors": ["steit/src/types/map/map.rs: insert, remove, get, merge"]}
{"id": "C35", "title": "Removing an absent map key", "statement": "Map::remove of an absent key changes nothing on the source but still logs an entry. Expected: replicas unaffected. FALSE: replaying that entry fails and stops the replay, so later entries are lost.", "quantifier": "every map without the key, every log suffix", "why_tests_cant": "history dependent", "anchors": ["steit/src/types/map/map.rs: remove 75-79, handle 247-262"]}
{"id": "C36", "title": "Values inserted into a map join the map's runtime", "statement": "After Map::insert(k,v), mutating the inserted value is logged under path [..,k] in the map's logger. FALSE: insert does not call set_runtime, so later mutations of a value built elsewhere go to another logger or path; insert_with and integer values are fine.", "quantifier": "every map, key, value and following mutation", "why_tests_cant": "needs a mutation after the insert", "anchors": ["steit/src/types/map/map.rs: insert 61-65, insert_with 67-73"]}
{"id": "C37", "title": "swap_remove keeps addresses right", "statement": "After swap_remove(i) the moved element logs under index i. FALSE for enum items (their stored runtime includes the variant tag, so the sibling path is one level too deep); true for struct, list and map items.", "quantifier": "every item type, list, index", "why_tests_cant": "depends on item kind", "anchors": ["steit/src/types/list.rs: swap_remove 102-108", "steit-derive/src/derive/enum.rs: set_runtime"]}
{"id": "C38", "title": "no_state fields", "statement": "A setter of a no_state field logs nothing; replaying an entry addressed to it is a silent no-op; a replica therefore keeps the old value until an enclosing whole-value update, which carries the field.", "quantifier": "every struct type, value", "why_tests_cant": "histories mixing both kinds of fields", "anchors": ["steit-derive/src/derive/field.rs: setter 321-332, replayer 396-400"]}
{"id": "C39", "title": "Enum variant setters switch variants consistently", "statement": "set_<variant>_<field>(v) leaves the enum in that variant with the field equal to v, the other fields unchanged if the variant was already active and default otherwise; it logs one entry in the first case and two in the second, and replicas follow.", "quantifier": "every enum type, current variant, field, value", "why_tests_cant": "all variant pairs", "anchors": ["steit-derive/src/derive/field.rs: setter 247-338", "steit-derive/src/derive/enum.rs"]}
{"id": "C40", "title": "A whole-value update overwrites any replica", "statement": "An Update entry for path [] carrying the bytes of v makes any root replica of that type equal to v, whatever its previous content.", "quantifier": "every type, previous replica state, value", "why_tests_cant": "all previous states", "anchors": ["steit/src/state.rs: handle_update", "steit-derive/src/derive/enum.rs: handle_update"]}
{"id": "C41", "title": "Concurrent pause can lose entries", "statement": "Entries logged by independent objects sharing one logger all reach the log, whatever the schedule. FALSE: while one thread is inside a *_with call the shared logger is paused and another thread's mutation is silently not logged; without *_with calls it holds, and the two entries of swap_remove stay adjacent.", "quantifier": "every schedule of any number of threads", "why_tests_cant": "scheduler dependent", "anchors": ["steit/src/rt/logger.rs", "steit/src/rt/runtime.rs: pause_logger, log, log_multi", "steit/src/types/list.rs: push_with"]}
{"id": "C42", "title": "Equality and hashing ignore bookkeeping and agree", "statement": "Derived equality is an equivalence relation that ignores runtimes, size caches and no_eq_hash fields, and equal values feed equal data to the hasher.", "quantifier": "every derived type and pair of values", "why_tests_cant": "all pairs", "anchors": ["steit-derive/src/derive/field.rs: eq, hash", "steit-derive/src/derive/enum.rs: impl_partial_eq, impl_hash", "steit/src/rt/size_cache.rs", "steit/src/rt/runtime.rs"]}
{"id": "C43", "title": "Buffer logger drains without loss or duplication", "statement": "For every sequence of log, clear, pluck, pluck_bytes and bytes calls, the concatenation of everything plucked plus what remains equals the logged entries minus those explicitly cleared, in order.", "quantifier": "every call sequence", "why_tests_cant": "all call sequences", "anchors": ["steit/src/log/loggers/buffer.rs"]}
{"id": "C44", "title": "C# reads every integer Rust writes", "statement": "The C# varint and zigzag readers return the value Rust serialized for all unsigned widths and for sbyte, short, int; for long it fails outside [-2^62,2^62). Rust and C# therefore disagree on large signed values.", "quantifier": "every width and value", "why_tests_cant": "2^64 values, two languages", "anchors": ["steit-csharp/src/Codec/Reader.cs: ReadUnsignedVarint, ReadSignedVarint", "steit/src/impls/varint.rs"]}
{"id": "C45", "title": "C# decodes every message Rust encodes", "statement": "Decoding with the generated C# classes the bytes Rust wrote gives field-by-field the same data, for all schemas of integers, bools, strings, bytes, vectors, options, lists, maps, structs and enums.", "quantifier": "every schema and value", "why_tests_cant": "two languages, unbounded schemas", "anchors": ["steit-csharp/src/Codec/Reader.cs", "steit-csharp/src/State/State.cs: Replace", "steit/src/gen/generators/csharp.rs"]}
{"id": "C46", "title": "The C# client replays logs like a Rust replica", "statement": "Replaying the log of any Rust history on a C# client holding the same state leaves it with the same data as a Rust replica.", "quantifier": "every schema, state, history", "why_tests_cant": "two languages, unbounded histories", "anchors": ["steit-csharp/src/State/StateReplayer.cs: Replay", "steit-csharp/src/Collections/StateList.cs", "steit-csharp/src/Collections/StateMap.cs"]}
{"id": "C47", "title": "Derive accepts exactly collision-free schemas", "statement": "The derive macro accepts a struct/enum iff all tags are present, at most 2^29-1, pairwise distinct and not reserved, and (enum) some variant has tag 0; hence every compiled schema meets the side conditions of the codec theorems.", "quantifier": "every declaration", "why_tests_cant": "all declarations", "anchors": ["steit-derive/src/derive/struct.rs: parse_fields", "steit-derive/src/derive/enum.rs: parse_variants", "steit-derive/src/derive/tag.rs"]}
{"id": "C48", "title": "Code generation visits every message once", "statement": "collect_meta over any finite, possibly cyclic type graph terminates and returns each reachable message exactly once.", "quantifier": "every finite type graph", "why_tests_cant": "all graphs incl. cycles", "anchors": ["steit/src/gen/gen_util.rs", "steit/src/meta"]}
{"id": "C49", "title": "Generated source is well bracketed", "statement": "Every C# file the generator writes is well bracketed and each line is indented by the brackets open before it; the writer's level is never negative whatever is called, and each call writes at the level of that moment; the generator panics on exactly the metadata without a C# name for a primitive or without a default variant; name conversion (camel/snake case) is characterised, inverse on snake-case and camel-case names, and its collisions exhibited.", "quantifier": "every struct and enum metadata; every sequence of writer calls; every identifier", "why_tests_cant": "all call sequences", "anchors": ["steit/src/gen/writer.rs", "steit/src/gen/str_util.rs", "steit/src/gen/generators/csharp.rs"]}
{"id": "C50", "title": "An entry acts on its object only", "statement": "A log entry addressed to an object inside a state does to it exactly what the same entry addressed to [] does to the object standing alone, with the same success or error, and touches no other object; entries addressed to unrelated objects commute, alone and inside a replayed log.", "quantifier": "every state type, state, position at any depth, entry kind, payload and build mode", "why_tests_cant": "positions and types are unbounded; commutation quantifies over pairs of positions", "anchors": ["steit-derive/src/derive/struct.rs", "steit-derive/src/derive/enum.rs", "steit/src/types/list.rs", "steit/src/types/map/map.rs", "steit/src/state.rs"]}
{"id": "C51", "title": "A call on an object inside a state", "statement": "An API call on an object anywhere inside a state changes that object only, logs below that object's path in the logger of the whole state, leaves objects elsewhere as they are, and every replica of the whole state follows by the entries it logged.", "quantifier": "every state type, position at any depth, API call within the documented side conditions", "why_tests_cant": "positions, types and calls are unbounded", "anchors": ["steit/src/rt/runtime.rs", "steit/src/types/list.rs", "steit/src/types/map/map.rs", "steit-derive/src/derive/field.rs"]}
{"id": "C52", "title": "As data, a Maybe is an Option", "statement": "Converting an Option to a Maybe and back gives the Option back; is_some/is_none say which it is; comparing a Maybe with an Option, or two Maybes, is comparing the data; what is written to the wire depends on the Option only and tells None from Some(default).", "quantifier": "every value type, value and runtime", "why_tests_cant": "all value types and values", "anchors": ["steit/src/types/maybe.rs: some, none, from_option, is_some, is_none, to_option, eq"]}
{"id": "C53", "title": "Maybe constructors put the value at the given runtime", "statement": "Maybe::some(rt, x), Maybe::none(rt) and from_option(rt, o) build a value that sits at rt: replaying into it at the root works, and setting it later logs an update of its own position.", "quantifier": "every value type, runtime and option", "why_tests_cant": "all runtimes and types; the defect only shows in later replays", "anchors": ["steit/src/types/maybe.rs: some, none, from_option", "steit-derive/src/derive/enum.rs: setters", "steit/src/state.rs: replay"]}
{"id": "C54", "title": "The C# client terminates on all input", "statement": "Decoding arbitrary bytes with any generated class, and replaying arbitrary bytes on any object, ends with a result or an exception: no loop of the C# client runs forever, and decoding never leaves more than it was given.", "quantifier": "every schema, byte string and object", "why_tests_cant": "all byte strings, unbounded schemas", "anchors": ["steit-csharp/src/State/State.cs: Replace", "steit-csharp/src/State/StateReplayer.cs: Replay", "steit-csharp/src/Collections/StateList.cs: Deserialize", "steit-csharp/src/Collections/StateMap.cs: Deserialize"]}
{"id": "C55", "title": "Data survives permitted schema changes at any depth", "statement": "Data written by a program with one revision of a type is read completely by a program with another revision: fields and variants added or dropped at any depth, integers widened, Vec turned into List and the like, derived traits and caching changed. The reader gets everything both know, defaults for what only it knows, and consumes exactly what was written.", "quantifier": "every pair of types related by permitted changes in any number of places at any depth, every value, both build modes of both programs, any cache contents", "why_tests_cant": "all pairs of types and all values at once; changes interact with omission, merging and framing at every level", "anchors": ["steit/src/de/de.rs: merge_nested", "steit/src/de/reader.rs: skip_field", "steit-derive/src/derive/struct.rs: merger", "steit-derive/src/derive/enum.rs: merger"]}
{"id": "C56", "title": "Replicas with another revision of the type follow the source's log", "statement": "A replica whose type is another revision of the source's (fields and variants added or dropped, integers widened, boxes, caching changed, at any depth) and that holds what it can see of the source's data, replays the source's log and holds what it can see of the source's data again; also in rounds and after joining late from a snapshot. Entries addressed to something the replica's type does not have are refused with an error and change nothing.", "quantifier": "every pair of types related by permitted changes, every history of API calls, both build modes of both programs", "why_tests_cant": "all pairs of types, histories and interleavings of known and unknown entries", "anchors": ["steit/src/state.rs: replay", "steit-derive/src/derive/struct.rs: replayer", "steit-derive/src/derive/field.rs: replayer", "steit-derive/src/derive/enum.rs: replayer", "steit/src/types/list.rs: handle", "steit/src/types/map/map.rs: handle"]}
{"id": "C57", "title": "Generated C# classes answer for each tag what the wire format and the paths require", "statement": "In the C# source generated for a struct, GetWireType gives each field the wire type Rust writes it with, GetNested and ReplaceAt give each tag the property of the field with that tag, ReplaceAt reads a value of the field's type with the path extended by the tag, constructors make nested objects with that path, and tags of no field are skipped; for enums, constructor and ReplaceAt choose the class of the variant with that tag and unknown tags get the default variant.", "quantifier": "every struct and enum with any number of fields, variants and type parameters, every tag, every assignment of types to type parameters", "why_tests_cant": "all messages, tags and type arguments; snapshot tests of the generator compare a few files with themselves", "anchors": ["steit/src/gen/generators/csharp.rs: gen_struct", "steit/src/gen/generators/csharp.rs: gen_enum"]}
{"id": "C58", "title": "C# objects know where they are, and replay tells event handlers exactly what changes", "statement": "In a C# client, after deserialization and any replays, every object's Path is the path of the root followed by the tags leading to it. Replaying the log of a Rust source raises exactly one event per entry, in order: of the kind the entry calls for, from the container the entry addresses, with the value held before and the one held after; nothing changes that is not announced. Deserialization raises no events.", "quantifier": "every type with a C# class, every state, every entry or bytes, every history of API calls", "why_tests_cant": "all nested types, positions and histories; that nothing else changes is a claim about the whole object", "anchors": ["steit-csharp/src/State/StateReplayer.cs: Replay", "steit-csharp/src/Collections/StateList.cs", "steit-csharp/src/Collections/StateMap.cs", "steit/src/gen/generators/csharp.rs: MaybeNotify", "steit-csharp/src/State/Path.cs"]}
{"id": "C59", "title": "C# clients generated from another revision of the type read data and follow logs as far as they know it", "statement": "A C# client whose classes were generated from an earlier or later revision of the type reads the data of a Rust program and shows what it knows of it: unknown fields are skipped, missing ones are at their defaults, unknown variants appear as the default variant. Replaying the log of the Rust program, in any number of rounds, the client never throws, and afterwards shows what it knows of the state the source then has; entries for objects it does not know are without effect.", "quantifier": "every pair of revisions, every value, every history of API calls, any rounds", "why_tests_cant": "all combinations of changes to types at any depth, and all histories", "anchors": ["steit-csharp/src/State/StateReplayer.cs: Replay", "steit/src/gen/generators/csharp.rs: ReplaceAt, GetNested, GetWireType, Deserialize", "steit-csharp/src/Codec/Reader.cs: SkipField"]}
{"id": "C60", "title": "Programs that survive failing loggers keep a state their log describes", "statement": "If the logger refuses an entry (an io::Error, or a panic inside the logger), the mutating call panics. If the program catches the panic and goes on, the object is left in a state the recorded log describes: replaying what was recorded turns a replica of the initial state into the state the program is left with; a failed call changes nothing; a call that returns has done and logged everything; with a poisoned mutex nothing changes any more.", "quantifier": "every type, history of calls and pattern of failures", "why_tests_cant": "failures can hit any entry of any history, and what is left of the state depends on where in the call it happens", "anchors": ["steit/src/types/list.rs: push_with, pop, swap_remove", "steit/src/types/map/map.rs: insert_with, remove", "steit-derive/src/derive/field.rs: setters", "steit/src/rt/logger.rs: log", "steit/src/log/loggers/panic.rs"]}
{"id": "C61", "title": "A log cut short replays to an earlier state or is reported", "statement": "If only the first n bytes of a log arrive (the program died while writing it, the connection broke), replaying them either ends in a state the program went through or reports the cut, having applied exactly the whole entries before it; the rest of the log, from the entry that was cut, can be replayed later and leads to the program's state.", "quantifier": "every type, history of calls and position of the cut; Rust replicas and C# clients", "why_tests_cant": "the outcome depends on the byte at which the log ends, and there are as many cuts as bytes in all logs", "anchors": ["steit/src/state.rs: replay", "steit/src/de/reader.rs: nested readers", "steit/src/log/entry.rs", "steit-csharp/src/Codec/Reader.cs: GetNested", "steit-csharp/src/State/StateReplayer.cs"]}
{"id": "C62", "title": "Decoding and replaying do not depend on how the io::Read delivers its bytes", "statement": "Whatever io::Read the reader is built on, in whatever pieces it returns its bytes, decoding a value and replaying a log give the value, error and remaining input that reading the same bytes from memory gives; a source that fails is reported and not taken for the end of the input, and a replica whose connection fails holds the state after a whole number of entries.", "quantifier": "every type, target, source (any sizes of reads, any buffer sizes of the standard library), point of failure", "why_tests_cant": "tests read from in-memory slices, which return everything asked for; readers are stacked per nesting level, each may hold a byte in advance, and the pieces can end anywhere", "anchors": ["steit/src/de/reader.rs", "steit/src/de/de.rs: merge_nested, deserialize_nested", "steit/src/state.rs: replay", "steit/src/impls/*.rs and steit/src/types/*.rs: merge", "steit-derive/src/derive/struct.rs: merger", "steit-derive/src/derive/enum.rs: merge"]}
{"id": "C63", "title": "Serializing does not depend on what the io::Write takes at a time", "statement": "A value serialized, or a log sent, to any io::Write: if no error is returned, the writer has been given exactly the bytes of the encoding, each once and in order, however few it takes per call; if the writer fails, the error is returned and it has been given a proper prefix of them. No other outcome is possible. What arrived can be decoded from any io::Read to the same value, and a client fed by a writer that failed shows a state the program had after a whole number of log entries.", "quantifier": "every type, value, content of the size caches, build mode, writer (any sizes of writes, any point of failure), list of log entries, history of calls", "why_tests_cant": "tests write to Vec<u8>, which takes everything and never fails; values of any nesting are written in many small calls and each may be cut short or fail", "anchors": ["steit/src/ser.rs: steit_serialize, serialize_nested", "steit/src/impls/*.rs and steit/src/types/*.rs: serialize_cached", "steit-derive/src/derive/struct.rs: serializer", "steit-derive/src/derive/enum.rs: serialize_cached", "steit/src/log/loggers/buffer.rs: bytes"]}
{"id": "C64", "title": "Recursive messages: what holds for unrollings holds for them", "statement": "For messages that mention themselves or each other, the library behaves alike on all unrollings that are deep enough: the same value is written as the same bytes, any bytes decode to the same value or error, logs replay to the same state, the same calls log the same entries, equality agrees, and a value of a shallow unrolling exists, once, in every deeper one. Unrolled deeper than the input is long, neither the depth nor what stands where the unrolling stops can be observed. Nesting is bounded by the length of the input and by nothing else.", "quantifier": "every program (family of mutually recursive declarations), message, pair of unrollings, value, byte string, log, list of calls with arbitrary closures, build mode", "why_tests_cant": "recursive types have values of every depth; a test has values of one depth, and no test can show that deeper values or inputs do not behave differently", "anchors": ["steit-derive/src/derive/struct.rs", "steit-derive/src/derive/enum.rs", "steit/src/impls/*.rs", "steit/src/types/*.rs", "steit/src/state.rs: replay"]}
{"id": "C65", "title": "A value cut short is refused or decodes to an initial part of it", "statement": "When only the first bytes of a written value arrive, decoding them returns UnexpectedEof or InvalidData, or a value that is left of the original in a precise sense: some whole fields, items, elements or entries, at most one that is itself cut, then nothing (defaults); tuples keep all components but may lose part of the last; enums keep their variant; numbers are whole or absent. Every such value is obtained for some cut. It never panics. A log cut short replays to the state after its whole entries, with or without an error, or as if one more entry had been logged, which is the next one with part of its payload, or with the first elements of its path and no payload.", "quantifier": "every type, value, cut, content of the size caches, build mode of writer and reader; every log and cut", "why_tests_cant": "tests decode whole values; what a cut leaves depends on every nesting of types and every position", "anchors": ["steit/src/de/de.rs: deserialize, merge_nested", "steit/src/de/reader.rs: until_eof", "steit-derive/src/derive/struct.rs: merger", "steit-derive/src/derive/enum.rs: impl_deserialize", "steit/src/impls/*.rs: merge", "steit/src/types/*.rs: merge", "steit/src/state.rs: replay"]}
{"id": "C66", "title": "Generated files are the sources of the messages, whatever the order and the disk", "statement": "generate writes the source of each collected message that is neither skipped by name nor (if builtins are skipped) built in to a file named after it, and touches no other file. If it returns Ok, the names returned are exactly those, each once; if it returns Err or panics, there is one message such that those before it have their files and only its own file may be incomplete. On a working disk every file holds its whole source, generating again changes nothing, and the files do not depend on the iteration order of the hash map. Ok means that every file is complete: false, since the buffered writer is dropped without a flush; what may be missing is less than a buffer.", "quantifier": "every collection of messages with distinct names and every order of it, setting, disk (which files can be created, how much each write takes, when it fails), previous contents of the directory, both versions of the standard library's BufWriter", "why_tests_cant": "tests run on one working disk with one iteration order; full disks and write failures at every position are not reachable in a test", "anchors": ["steit/src/gen/generator.rs: Generator::generate", "steit/src/gen/setting.rs: Setting", "steit/src/gen/gen_util.rs: collect_meta"]}
{"id": "C67", "title": "Types in generated classes mirror the Rust types, and every class they mention exists", "statement": "For declarations as they can be written in Rust (generic or not, with aliases, references, arrays, boxes, lists, maps), the properties of the generated classes have, field by field, the C# types that mirror the types of the fields. Every name in these types is found where it is used and stands for what is meant, with the right number of type arguments: a type parameter, a System or library class, or a message; and every such message, also when it only occurs as a type argument, is itself reached and thus gets its file when generating from a root. The metadata of each field describes its type in the sense C57 relies on. Exceptions are exhibited: a variant named like a message its enum mentions, a message called Box or StateMap, maps behind aliases.", "quantifier": "every set of declarations (any number of messages, fields, variants, type parameters, any nesting and recursion of types), every root type, order of messages and case mapping", "why_tests_cant": "the golden files cover a handful of declarations; closure of the set of files under mention is a statement about all type graphs, and about nested generic instantiation to any depth", "anchors": ["steit-derive/src/derive/field.rs: DeriveField::field_type_meta", "steit-derive/src/derive/struct.rs: Struct::impl_meta", "steit-derive/src/derive/enum.rs: Enum::impl_meta", "steit/src/gen/generators/csharp.rs: field_type", "steit/src/gen/gen_util.rs: visit_link"]}
{"id": "C68", "title": "Generated classes declare exactly the expected members, and no two of the same name unless names of fields clash", "statement": "Read off the generated text, the class of a struct declares exactly: the path, for each field in order a property, an event of the type of this property and a method clearing its handlers, the constructor and the methods of a state; the class of an enum declares its constants, tag, variant, event, one property and one static constructor per variant, the methods of a state, and nested after these one such class per variant. The file satisfies the rules of C# on names (members of a class are distinct, differ from the class and its type parameters) exactly if the names in Rust, after conversion to camel case, are distinct and avoid an explicit list of reserved names and affixes. Names that Rust accepts and for which the output is not valid C# are exhibited.", "quantifier": "every struct and enum (any number of fields, variants, type parameters), every namespace and case mapping", "why_tests_cant": "the golden files contain a few classes, all with names that fit; which names do not fit is a statement about all names and all pairs of them", "anchors": ["steit/src/gen/generators/csharp.rs: CSharpGenerator::generate", "steit/src/gen/generators/csharp.rs: StructGenerator/EnumGenerator", "steit/src/gen/writer.rs: Writer"]}
{"id": "C69", "title": "Generated classes, run with the client library, do what the client should for the Rust type", "statement": "Take all files generated from a root type. Running what is read off their text (types of properties, constructors, switches over tags; names of types looked up as C# does) together with the code of the client library gives, for the class of any message and any collection of messages reached from the root: construction yields the default value; deserialization of any bytes yields the same value and leaves the same bytes, or throws the same exception, as the client model of C45; replay of any log does the same as the client model of C46. So a program made of the generated files that starts from the bytes of a Rust state and replays its log shows the state of the source. Enums with type parameters are an exception: their classes mention a type that is not there. The two generated classes that are part of the client (LogEntry.cs, Maybe.cs) are, character by character, what the generator writes, and replay may read log entries by the former. The methods whose bodies are not read off the text have the same lines in every generated file.", "quantifier": "every set of declarations (generic structs, aliases, recursion), every root, every message reached and every input of any length, well-formed or not", "why_tests_cant": "the golden files and C# tests cover a few messages and inputs; that text produced by string templates behaves right for all declarations and all inputs is a statement about the generator and an interpreter of its output", "anchors": ["steit/src/gen/generators/csharp.rs: StructGenerator/EnumGenerator", "steit-csharp/src/State/StateFactory.cs", "steit-csharp/src/State/State.cs: State.Replace", "steit-csharp/src/State/StateReplayer.cs", "steit-csharp/src/State/LogEntry.cs", "steit-csharp/src/Builtins/Maybe.cs"]}
{"id": "C70", "title": "The C# client shows whole first parts of a value cut short, or throws", "statement": "When only the first bytes of a value written by Rust arrive, the C# client throws EndOfStreamException and no other exception, or has an object that shows the first n items, entries or fields of the value, each of them whole, and nothing of the others; an enum has its variant; numbers are whole; only a string or byte string at the root can itself be cut. Every n occurs. A value with its length in front (log entries, nested values) is whole or refused. The generated classes, run, do the same.", "quantifier": "every type with a C# counterpart, value, cut and content of the size caches; every treatment of invalid UTF-8", "why_tests_cant": "tests decode whole values; the claim is about every position in every encoding", "anchors": ["steit-csharp/src/Codec/Reader.cs: GetNested, ReadUnsignedVarint", "steit-csharp/src/Codec/ByteReader.cs: Read", "steit-csharp/src/State/State.cs: Replace", "steit-csharp/src/Collections/*.cs: Deserialize", "steit/src/gen/generators/csharp.rs"]}
{"id": "C71", "title": "One declaration, two sides: derived Rust code and generated C# classes agree from the program as written", "statement": "Take a program as it is written: messages with attributes, names, type parameters and field types. The macro makes its Rust code of it and, as metadata, what the C# generator reads. If the macro accepts a declaration, the metadata says what is written (names, csharp_name, tags, types, in order), and acceptance depends on the text only. If the program compiles (legal types, default values that can be built, finitely many instances), the derived types are well formed, states exactly where State is derived, and they have the declarations of the generator down to any depth, also for recursive messages. So a client made of the generated files that gets a state of such a program and then its log shows the state there is.", "quantifier": "every program (generic and recursive messages, any attributes), every type reached, every input and history of the theorems combined (C24, C46, C69)", "why_tests_cant": "tests fix a few declarations; that two outputs of a macro stay consistent for all declarations is a statement about the macro", "anchors": ["steit-derive/src/derive/derive.rs", "steit-derive/src/derive/struct.rs: meta, StructAttrs::parse", "steit-derive/src/derive/enum.rs: meta", "steit-derive/src/derive/variant.rs: VariantAttrs::parse", "steit-derive/src/derive/field.rs: meta, FieldAttrs::parse", "steit/src/gen/generators/csharp.rs"]}
{"id": "C72", "title": "The text the derive macro writes, with its names, is the derived implementation, or does not compile", "statement": "Derived methods reach fields by name, and in the arms of an enum those names are variables next to the variables of the templates. Take any struct or enum the macro accepts, with any names. If fields (with those that are added), variants and methods have different names and, in variants, no field is named like a keyword or a variable of a template, the derived code compiles and every method of it (default, serializing, merging, setting runtimes, replaying, hashing, comparing) does what the model of derived types does, field for field. If not, it does not compile. In no case does it compile and do something else, except for == of enums: a field called other_x in a variant that has a field x is compared with the wrong one.", "quantifier": "every declaration: any number of variants and fields, any names, raw identifiers, tuple and named members, cached or not, State or not, setters or not; every value and input", "why_tests_cant": "tests fix the names; capture of names is a property of all declarations, and a captured variable that still type-checks is silent", "anchors": ["steit-derive/src/derive/struct.rs: impl_default, impl_ctor, impl_setters, sizer, serializer, merger, hash, eq", "steit-derive/src/derive/enum.rs: impl_eq, impl_hash, impl_serialize, impl_merge, impl_state", "steit-derive/src/derive/field.rs: access, destructure, alias, eq, hash, sizer, serializer, merger"]}
{"id": "C73", "title": "What was received can be used and passed on", "statement": "A program decodes bytes from anywhere, however strange, and gets no error. Then the value is as good as one the program built: no map in it makes its iterator panic and no key comes twice, serializing it succeeds, whoever decodes that has an equal value and would send the very same bytes on (but for the order of entries of HashMaps, see C82), and so over any number of hops; a C# client shown the bytes shows the value. A value being merged into stays such a value even when decoding fails half way. Replaying any log keeps a value like this too, provided the paths in the log name keys of the maps' key types; for other logs it is false.", "quantifier": "every type, every byte string (up to the size where the bytes sent on could reach the 4 GiB limit, which is given explicitly), every value merged into, every log, every number of hops, both build modes", "why_tests_cant": "the inputs are arbitrary bytes, where tests use what a serializer wrote; the next hop, its re-encoding and the iterators are each a quantifier over what the decoder lets through", "anchors": ["steit/src/types/map/key.rs", "steit/src/types/map/map.rs: merge, handle", "steit/src/types/map/iter.rs", "steit/src/types/list.rs: merge", "steit/src/de/de.rs", "steit/src/state.rs: replay"]}
{"id": "C74", "title": "A message cannot make a value much bigger than itself", "statement": "Every byte received makes at most a constant number of objects, the size of the declaration of the type: decoding n bytes gives a value with at most growth(t) * (n + 1) objects and string bytes, merging adds at most growth(t) * n, replaying n bytes of log adds at most 12 * growth(t) * n, also when any of these fails half way. The encoding of a value is at most 24 bytes per object or string byte.", "quantifier": "every type, every byte string and log, every value merged into or replayed on, both build modes", "why_tests_cant": "a length prefix or an index that makes the decoder allocate far more than was sent is found only by the input that does it", "anchors": ["steit/src/de/de.rs", "steit/src/types/list.rs", "steit/src/impls/vec.rs", "steit/src/impls/array.rs", "steit/src/types/map/map.rs", "steit/src/state.rs: replay"]}
{"id": "C75", "title": "Derived code for generic messages has the bounds it needs", "statement": "A generic message whose fields have what is derived, given that its type parameters have it, compiles: the bounds the macro adds to each impl block are enough for the code in the block, for the supertraits, and for every instance used anywhere (no error after generics). An instance that implements a trait implements its supertraits, and an instance of a message that derives State is a state exactly if it can be deserialized. The exceptions are exactly known: a struct that derives State needs T: State written for each type parameter (enums do not), Default alone and derive_setters alone on an enum need derive_ctors, Eq needs PartialEq. Programs of states with T: State on all parameters always compile, and what compiles meets the assumptions the other properties make about types.", "quantifier": "every program of structs and enums (also mutually recursive ones), every list of derived traits and attributes, every set of type parameters and bounds, every instance", "why_tests_cant": "a test compiles the declarations and the instances in it; whether the bounds are right is about all other ones, and a missing bound is a compile error in a user's crate that names code the user did not write", "anchors": ["steit-derive/src/impl.rs", "steit-derive/src/derive/derive.rs", "steit-derive/src/derive/struct.rs", "steit-derive/src/derive/enum.rs", "steit-derive/src/derive/field.rs", "steit/src/impls/mod.rs", "steit/src/types/maybe.rs", "steit-derive/test-crate/src/lib.rs"]}
{"id": "C76", "title": "Several states in one process, and objects that leave a state", "statement": "A process may hold any number of states, each with a logger of its own, and call them in any order with arguments computed from all of them (objects copied or moved from one state to another): the log of each logger is the log of its state and nothing else, so a replica (or C# client) of each state follows it. An object given a runtime of its own with set_runtime is a state of its own. What does not hold is that an object that was popped or removed, or a clone, no longer belongs to the state: it keeps its address, and calls on it are logged there. Then the replica stops for good (popped items, removed values), changes another item (after swap_remove), brings the removed value back (enums in maps), or follows the clone instead of the state.", "quantifier": "every family of state types, every number of calls on them in any order, arguments any function of all states, every path to the list or map, every later log, both build modes on both sides", "why_tests_cant": "tests have one state and one logger and drop what pop and remove return; interference between states and the life of objects after they leave one are about all programs", "anchors": ["steit/src/rt/runtime.rs:20-82", "steit/src/types/list.rs:60-112: push_with, pop, swap_remove", "steit/src/types/list.rs:213-259: handle", "steit/src/types/map/map.rs: insert, remove, handle", "steit/src/state.rs: set_runtime"]}
{"id": "C77", "title": "Changes without log: where the difference is, and how it goes away", "statement": "List and Map give out &mut T (get_mut, iter_mut, IndexMut), so any object in a state can be assigned without a log entry. From then on a replica differs from the state in that object and nowhere else: whatever number of calls is made on objects that are neither it, nor inside it, nor around it, the replica replays all their entries without error and still equals the state but for that object, in which it has what was there before; and so do C# clients. A call on the object that logs the same and leads to the same from the old contents as from the new ones makes them equal again, in particular setting the one field that differs. Calls on the assigned object are not logged in the state's log if it has the runtime of another logger, as new objects do. What does not hold is that a replica can follow calls on the object, or inside it: it may end up with other contents without any error, or stop for good.", "quantifier": "every state type, every object in every state, every object assigned with whatever runtime, every number of calls elsewhere, every replica equal but for that object, both build modes on both sides", "why_tests_cant": "the tests use iter_mut and get_mut only to call setters, and compare logs, not replicas; that a difference never spreads is about all later executions", "anchors": ["steit/src/types/list.rs:49-51: get_mut", "steit/src/types/list.rs:113-130: iter_mut, IndexMut", "steit/src/types/map/map.rs:57-59: get_mut", "steit/src/types/map/map.rs:85-106: iter_mut, IndexMut", "steit/src/types/list.rs:213-259: handle"]}
{"id": "C78", "title": "A message or a log cannot make a C# client much bigger than itself", "statement": "Every byte a client receives makes at most a constant number of objects and string bytes, the size of the declaration of the type: deserializing n bytes gives at most csGrowth(t) * (n + 1), replaying n bytes of log adds at most 12 * csGrowth(t) * n, whether replay goes through or an exception ends it half way. A byte that is no UTF-8 may become the three bytes of U+FFFD, so strings count three times.", "quantifier": "every type, every byte string and log, well formed or not, every object replayed on, every way .NET may replace invalid UTF-8 by at most one U+FFFD per byte", "why_tests_cant": "an index, a key or a size that makes a client allocate far more than it received is found only by the input that does it", "anchors": ["steit-csharp/src/Codec/Reader.cs", "steit-csharp/src/Collections/StateList.cs", "steit-csharp/src/Collections/StateMap.cs", "steit-csharp/src/State/State.cs", "steit-csharp/src/State/StateReplayer.cs"]}
{"id": "C79", "title": "Entries a replica has already seen", "statement": "A log of updates only (setters, setters of other variants, map insertions) may reach a replica more than once: each entry repeated any number of times before the next gives exactly the replica, or the error, the log gives; the whole log sent again, if it is accepted, changes nothing; and a log that begins with entries already seen and goes on with new ones of any kind, if accepted, is the same as the new ones alone. So for C# clients, up to the order in which a dictionary lists its entries. It does not hold of pushes, pops (both silently applied twice) and removals (the second is refused, and with it what follows); nor is a whole log of updates always accepted again by Rust: after a change of variant an earlier entry may address the variant that is gone, which the C# client ignores.", "quantifier": "every state type, every rooted value, every log of updates at any paths with any values (decodable or not), any number of repetitions, any entries after it, both build modes on both sides", "why_tests_cant": "tests replay every entry once; idempotence of whole logs, where later entries overwrite or address what earlier ones created, is about all sequences of entries", "anchors": ["steit/src/state.rs:37-73: replay", "steit/src/types/list.rs:213-259: handle", "steit/src/types/map/map.rs: handle", "steit-derive/src/derive/struct.rs: replayer", "steit-derive/src/derive/enum.rs: impl_state", "steit-csharp/src/State/StateReplayer.cs", "steit-csharp/src/Collections/StateMap.cs"]}
{"id": "C80", "title": "Replicas that agree stay in agreement, whatever they are sent", "statement": "Two replicas that hold the same data, each with its own logger, report the same (success or the same error), message by message, when they are sent the same messages, and hold the same data in the end (HashMaps may be in different orders, before and after, see C82); the messages may be cut, damaged or refused halfway, and the programs may carry on after errors. So for C# clients, with the exceptions thrown, up to the order of dictionaries. A replica restarted from its own snapshot goes on as if it had never stopped. A replica that joins with a snapshot and is then sent a log of updates the snapshot already includes holds, if it accepts it, the data of the source. A debug and a release build agree as long as the debug build does not panic; where it panics the release build may accept the message, so the two can be apart.", "quantifier": "every state type, every pair of rooted values with the same data, any sequence of messages of any bytes, any loggers, every build mode; for snapshots every history of calls", "why_tests_cant": "tests never compare two replicas on bad input; determinism on every message, errors and partially applied entries included, is about all inputs and all pairs of states", "anchors": ["steit/src/state.rs:37-73: replay", "steit/src/de/de.rs:7-39", "steit/src/impls/varint.rs", "steit/src/types/list.rs: handle", "steit/src/types/map/map.rs: handle", "steit/src/rt/runtime.rs", "steit-csharp/src/State/StateReplayer.cs"]}
{"id": "C81", "title": "Opaque parts survive programs that do not know their type", "statement": "A program that declares Bytes where the sender declares any length-prefixed type (messages, enums, strings, collections, options of these), at any depth, reads every message of the sender, holds what it knows as values and the rest as its encoding, and writes back exactly the bytes it read (if it has a HashMap of its own, the entries of that may come in another order; see C82); so through any number of such programs, and a program that knows the whole type gets the value that went in. Bytes::from_value of a length-prefixed value is written, in a field, an item or alone, as the value itself, and left out when the value is; into_raw decodes to the value again. C# clients generated from the opaque type show the same. It is false of integers and bools, and of messages in which a hidden string field occurs twice.", "quantifier": "every type, every choice of parts to hide, every writable value (also values whose hidden parts would not survive decoding), any number of relays, every build mode, any contents of size caches", "why_tests_cant": "tests look at Bytes made of a few values; that no relay disturbs what it does not understand is about all types, all choices of hidden parts and all values", "anchors": ["steit/src/types/bytes.rs:1-60", "steit/src/impls/str.rs:8-20", "steit/src/impls/macros.rs:1-37", "steit/src/de/de.rs", "steit-csharp/src/Builtins/Bytes.cs"]}
{"id": "C82", "title": "The order in which a HashMap iterates does not matter", "statement": "The entries of a HashMap come in an arbitrary order, which may differ between two programs and from one moment to the next. Values that differ in nothing else, at any depth, are equal, can be written if one of them can and in the same number of bytes; written in any order and read back, and passed on by any number of programs which reorder as they like and may not know all of the type, the value is the same up to that order. What is merged into or replayed on such values, any bytes, has the same outcome, errors included. A replica follows its source although the hash maps of both may be reordered at any time. It is false that the bytes are the same: equal values may be written differently.", "quantifier": "every type, every value, every reordering of every HashMap inside it, at any number of moments, any bytes merged or replayed, any number of programs in between, every history of API calls, every build mode", "why_tests_cant": "the order of a HashMap is random per process and cannot be chosen by a test; the claim is about all orders at all moments", "anchors": ["steit/src/impls/hash_map.rs", "steit/src/types/bytes.rs", "steit/src/state.rs: replay", "steit/src/de/de.rs"]}
{"id": "C83", "title": "The 4 GiB limit: sizes that do not fit in 32 bits", "statement": "Sizes are u32. Whatever the size of a value, to_bytes either panics or succeeds, and never returns an error. A release build never panics; it writes the encoding with every length taken modulo 2^32. As long as what is inside the value fits, the value itself may be larger, and is written and read back exactly. A debug build panics exactly if a size, with only the lengths of strings and Bytes cut to 32 bits, does not fit; otherwise it writes what a release build writes. If no single string or Bytes has 4 GiB, a debug build is exact: it writes the right bytes below the limit and panics from the limit on. It is false that a value that is too large is refused: a Bytes field of 4 GiB is written as an empty one in both builds, a vector that sums up to 4 GiB is left out in release builds, and a field slightly above 4 GiB is cut short so that its own content is read as the other fields of the message.", "quantifier": "every type, every value of any size, any contents of the size caches, every build mode of writer and reader", "why_tests_cant": "values of 4 GiB are not tested, and the claim is about all of them", "anchors": ["steit/src/types/bytes.rs:47", "steit/src/impls/string.rs:14", "steit/src/impls/str.rs:13", "steit/src/ser.rs", "steit-derive/src/derive/field.rs", "steit/src/impls/vec.rs"]}
{"id": "C84", "title": "A call logs exactly what it changed", "statement": "Every API call, of any kind and at any depth, logs exactly: for a setter, one update of that field with the encoding of the new value; for a push or a map insertion, the new item with its encoding; for pop and remove, one entry without a payload (pop of an empty list nothing); for swap_remove, a pop and an update with the item that moved (a pop alone for the last item, nothing past the end); for a call on something inside, what that call logs, with the path extended; and for a setter that makes another variant current, before that an update of the enum to this variant with default fields. So a call logs at most two entries, with paths no longer than types nest, and the log of n calls takes, beside the payloads, at most 90 bytes per call and ten per level of nesting: nothing is sent again because something beside it changed.", "quantifier": "every type, every state, every history of API calls at any depth within the side conditions of C24, every build mode, any contents of size caches", "why_tests_cant": "tests compare the logs of a few calls; that no call on any type ever logs more than its change is about all types and calls", "anchors": ["steit/src/types/list.rs", "steit/src/types/map/map.rs", "steit/src/rt/runtime.rs", "steit/src/log/logger.rs", "steit-derive/src/derive/struct.rs", "steit-derive/src/derive/enum.rs", "steit-derive/src/derive/field.rs"]}
{"id": "C85", "title": "Overwritten entries can be left out of a log, and independent ones can change places", "statement": "Let a Rust replica have an object at some path. An entry is for the object if it is addressed to it or to something inside it; it leaves the object alone if it is addressed elsewhere, or pushes to a list around it, or removes another value from a map around it; it overwrites the object if it updates it or something around it, or removes it or something around it from a map. If a log of entries that are for the object or leave it alone, followed by one that overwrites it and by anything else, can be replayed, then so can the same log without the entries for the object before the overwriting one, with exactly the same final state. Two logs with the same entries for the object in the same order, and the same entries that leave it alone in the same order, however interleaved, are both accepted, with exactly the same final state, or both refused. It is not so for objects that do not exist yet: dropping an insertion makes the later removal fail, and two insertions of new keys that change places leave a map that iterates, and is sent, in another order. The same is true of C# clients, up to the order of dictionaries, unless an update is addressed to a variant of an enum around the object, which no source ever logs; so a client sent the shortened log of a history of calls shows the data of the source. That the object exists can also be seen from the log, without knowing any state: it does after an update addressed to it, and before anything else that is addressed to it or inside it. So a program that has nothing but the log can leave out, any number of times and for any objects, the entries for an object between an update of it (which stays) and an entry that overwrites it, or all of them if the first is not an update of the object; every Rust replica that can replay the log can replay the shorter one, with exactly the same final state, and clients sent the shorter log of a history of calls show the data of the source.", "quantifier": "every type, every replica or client state, every object in it, every log in the above form with any payloads, every build mode", "why_tests_cant": "the claim is about every position of every entry in every log; tests replay the logs they recorded", "anchors": ["steit/src/state.rs", "steit/src/types/list.rs", "steit/src/types/map/map.rs", "steit-derive/src/derive/struct.rs", "steit-derive/src/derive/enum.rs", "steit-csharp/src/State/StateReplayer.cs"]}
{"id": "C86", "title": "Programs that change different objects of one state and exchange their logs agree", "statement": "Any number of programs start with the same state, each with a logger of its own. Every program but one has an object of the state that it alone changes, none of these inside another; the remaining program changes nothing but what is not in or around one of these objects. They make calls and replay, in parts of any size and at any time, what the others have logged, in the order in which each logged it. Then no call panics and no replay fails, whatever the order of events; any two programs that know the same entries of each program have equal states, and write the same bytes; in particular all have when everybody has read everything. A Rust replica or a C# client that only listens, and is sent these entries in any order that keeps the order of each program, has or shows the same data. It is not so for programs that change the same object, or replace what is around the object of another: nothing fails, and the states are different for good.", "quantifier": "every type, any number of programs and objects, every sequence of calls and replays in any order and in any build modes, every interleaving for listeners", "why_tests_cant": "the claim is about every schedule of any number of programs; tests run a few schedules of two", "anchors": ["steit/src/state.rs", "steit/src/rt/runtime.rs", "steit/src/log/logger.rs", "steit/src/types/list.rs", "steit/src/types/map/map.rs", "steit-csharp/src/State/StateReplayer.cs"]}
{"id": "C87", "title": "Programs that each have a key of a map, and exchange their logs, agree on the data", "statement": "As C86, but what a program alone changes can also be a place in a map: the map exists at the start, a value at that key need not, and the program inserts, changes, removes and inserts again as it likes, while other programs do the same with other keys of the same map. Then no call panics and no replay fails, whatever the order of events; any two programs that know the same entries of each program have states that are equal by ==; in particular all have when everybody has read everything. A Rust replica or a C# client that only listens, and is sent these entries in any order that keeps the order of each program, has an equal state or shows the same data. The order in which the maps of two such programs iterate, and so the bytes they write, need not be the same. Programs that insert the same key end with different values, and nothing fails.", "quantifier": "every type, any number of programs, objects and keys, every sequence of calls and replays in any order and in any build modes, every interleaving for listeners", "why_tests_cant": "the claim is about every schedule of any number of programs inserting and removing at any time; tests run a few schedules of two", "anchors": ["steit/src/state.rs", "steit/src/types/map/map.rs", "steit/src/rt/runtime.rs", "steit/src/log/logger.rs", "steit-csharp/src/State/StateReplayer.cs"]}
{"id": "C88", "title": "Programs that exchange their logs can start again from a snapshot, and listeners can join late", "statement": "Programs change one state together as in C86 and C87. At any time, and any number of times, one of them can forget its state, read a snapshot written by another one (or by itself), attach its logger, and take over from the snapshot's writer how much of each log is in it, provided that all it has logged itself is in the snapshot. Then nothing fails, whatever the order of events, and any two programs that know the same entries have equal states. A Rust replica or a C# client that starts with a snapshot of any of the programs, and is later sent what another program knows by then and the snapshot's writer did not know, in any order that keeps the order of each program, accepts it and has or shows that program's data. It is not so for a program that starts again although something it logged is not in the snapshot, nor for a listener that is sent what is in the snapshot already: nothing fails, and the data are different.", "quantifier": "every type, any number of programs, objects and keys, every sequence of calls, replays and restarts in any order and in any build modes, every snapshot, every interleaving for listeners", "why_tests_cant": "the claim is about every schedule of calls, exchanges and restarts of any number of programs, and every moment at which a listener may join; tests run a few schedules", "anchors": ["steit/src/state.rs", "steit/src/ser.rs", "steit/src/de/de.rs", "steit/src/types/map/map.rs", "steit/src/log/logger.rs", "steit-csharp/src/State/StateReplayer.cs"]}
{"id": "C89", "title": "Constants, properties and static constructors of generated enums agree with the tags Rust writes", "statement": "C# programs tell the variants of a generated enum apart and make them with the constants ‹Variant›Tag, the properties ‹Variant›Variant and the methods New‹Variant›. In every generated file of an enum, right after the line that opens the class and in the order of the variants, there is one constant per variant, and its number is the tag of the variant in the metadata, the one Rust writes. Each property casts to the class of its variant, each method passes the tag of its variant, and for this number the constructor makes, and ReplaceAt reads, the class to which the property casts. For enums with type parameters the methods New‹Variant› name a type that does not exist, as exhibited under C69.", "quantifier": "every enum declaration, every number of variants, all tags and names", "why_tests_cant": "a test compares a few generated files; the claim is about the text generated for every declaration", "anchors": ["steit/src/gen/generators/csharp.rs:392-422", "steit/src/gen/generators/csharp.rs:441-482", "steit-csharp/src/State/LogEntry.cs", "steit-csharp/src/Builtins/Maybe.cs"]}
{"id": "C90", "title": "Generated files use exactly the namespaces they should, whatever the order these are given in", "statement": "Every generated file opens with using lines for System and then, in ascending order, for exactly the five namespaces of the client library and the namespaces of the setting, each as often as given; then comes the namespace of the setting, which encloses all that follows up to the last line. The file does not depend on the order in which the setting lists its namespaces, so generating again after reordering them changes nothing.", "quantifier": "every declaration, every namespace, every list of used namespaces and every permutation of it", "why_tests_cant": "a test generates with one setting; the claim is about all lists of namespaces, all their orders and all declarations", "anchors": ["steit/src/gen/generators/csharp.rs:36-62", "steit/src/gen/generators/csharp.rs:70-100", "steit/src/gen/generators/csharp.rs:560-576"]}
{"id": "C91", "title": "Generated methods clear exactly the handlers they name", "statement": "C# programs stop listening with the generated methods Clear‹Property›UpdateHandlers and ClearUpdateHandlers. In every generated class of a struct or a variant there is, for each field, a method with the name of its property that sets the event of this property to null and does nothing else, and a method that sets the events of all properties to null, in order, and nothing else; the class of an enum has one that sets its event to null. This holds for no field, one field (the method is on three lines) and more (one line each).", "quantifier": "every declaration, any number of variants and fields, all names", "why_tests_cant": "a test compares a few generated files; the text depends on the number of fields, and the claim is about every declaration", "anchors": ["steit/src/gen/generators/csharp.rs:162-228", "steit/src/gen/generators/csharp.rs:484-493"]}

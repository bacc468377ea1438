# Formal model of steit: design and trusted base

Source: `/repo` (axieinfinity/steit at the pinned commit), read as text only. Nothing of it is built or run.
Model and proofs: `/verif/lean` (Lean 4.33.0, core library plus single Mathlib modules where noted).

## 1. How the code is modelled

* **Bytes, integers.** A byte is `BitVec 8`, `uN`/`iN` are `BitVec N`. The bit-level code of `impls/varint.rs` is copied
  operator for operator; the specification (LEB128 numbers, zigzag) is stated with `Nat`/`Int` arithmetic.
* **Build mode.** `Mode.debug` (arithmetic overflow panics) and `Mode.release` (wraps; shift amounts are masked). Every
  theorem quantifies over the mode unless it says otherwise.
* **Traits as dictionaries.** A Rust trait impl is a Lean structure of functions: `SerD α` for the serializing half, `Dict α`
  for `HasWireType + Default + Serialize + Deserialize + State + ReplayState`. A generic impl (`impl<T: Serialize> Serialize for
  Vec<T>`) is a function from dictionaries to dictionaries; the provided methods of the traits (`compute_size_nested`,
  `merge_nested`, ...) are functions on the dictionary. Derive-generated code is modelled by dictionaries for field lists
  (`FieldsD`) and variant lists (`VariantsD`).
* **All types at once.** `Ty` is an inductive type of Rust types (integers, bool, String, Bytes, Vec, arrays, tuples,
  Option, Box, HashMap, List, Map, derived structs and enums), `t.El` the Lean type of its values and `t.dict` its dictionary.
  A theorem over `Ty` therefore speaks about all nestings. Recursive user types are covered through their finite
  unrollings: `Model/Recursive.lean` has programs whose messages mention each other by name, and C64 proves that all unrollings deeper
  than the input is long (or the values are deep) do the same, whatever stands where they stop; so every theorem about `Ty` speaks
  about recursive messages too.
* **Size caches.** A size cache is a shared atomic cell. `compute_size` and `serialize_cached` are programs (`Prog`) whose
  atomic steps are loads and stores of cells addressed by the position of the object inside the serialized value.
  Sequential runs start from an arbitrary memory (stale caches); concurrent runs (`Model/Threads.lean`) interleave the steps of
  any number of programs, a relaxed load being free to return any value stored to its cell so far.
* **Readers.** A reader over a finite byte source is the list of remaining bytes; `nested` is `take`/`drop`. A decoding
  function returns `ok value rest` or `err value error`, the value being the (possibly partially updated) target, because
  Rust leaves it visible through `&mut self`. `Model/Reader.lean` has the readers as they are (a stack of `Reader`, `io::Take` and
  `Eof` on any `io::Read` that returns what it likes or fails) and C62 proves that the list of bytes is enough. What is used of
  iowrap and the standard library: `Eof::eof` asks for one byte and keeps it, `Eof::read` returns it first, `io::Take`, `read_exact`
  for one byte and `read_to_end` (with arbitrary buffer sizes).
* **Writers.** What is written is the list of bytes. `Model/Sink.lean` has every `serialize_cached` as it is, one `write_all` after the
  other to any `io::Write` that takes what it likes of what it is offered or fails (`write_all` is the loop of the standard library),
  and C63 proves that the list of bytes is enough.
* **Runtimes and loggers.** `Runtime` is a logger identity plus a path; each struct/enum/list/map value stores one, exactly
  like the code. A `World` maps logger identities to pause counter and recorded entries, and holds the arbitrary contents size
  caches happen to have. Mutators are small-step programs `Exec`: return or panic, one action on a locked logger, or one look at
  the size caches. Running one alone gives a function `World → result × World`; several of them interleave action by action
  (`Model/Interleave.lean`), because the code locks the logger for each action separately.
* **API calls.** `Ty.Op` is the type of calls on a value of type `t`: list and map methods, field and variant setters, `…_with`
  methods with arbitrary closures, and calls on objects reached through `&mut` access, at any depth (`Model/Ops.lean`).
  `Model/Attempt.lean` repeats them with loggers that refuse entries or panic, and tells what a call that panics leaves behind.
* **The C# client.** `Model/CSharp.lean` models `steit-csharp/src` (reader, `State.Replace`, collections, `StateReplayer`) and what the
  generated classes do, for every `Ty` at once: `t.Cs` is the type of the C# objects, `t.csDeserialize` and `t.csReplay` are the
  functions. C# loops carry fuel; C54 shows that it never runs out. Exceptions end the computation. `Model/CSharpEvents.lean` is the
  same client on objects that have a `Path`, with the events raised; the two are proved to agree. Not modelled: what event handlers do,
  handlers registered on single lists and maps (an event is recorded as if there was one), what an entry that throws leaves half
  done (`Model/CSharpLeft.lean` tells what the root holds when a replay throws between entries), and the UTF-8 replacement of .NET (a parameter).
* **The code generator.** `Model/FieldMeta.lean` goes from declarations (field types as written, paths resolved) to metadata and to the graph of
  types, `Model/Collect.lean` collects messages, `Model/CSharpGen.lean` writes them, call for call.
* **Generated classes, run.** `Model/Classes.lean` interprets the classes read off the generated text (`classesOf`: types of properties, what
  constructors make, the `switch`es of `GetWireType`, `GetNested` and `ReplaceAt`, which kind of state it is) with the library around them, looking
  up names of types as C# does. C69 proves that this is the client of `Model/CSharp.lean`. `Model/LogEntryFile.lean` and
  `Model/MaybeFile.lean` are the texts of the two generated classes the client ships, `steit-csharp/src/State/LogEntry.cs` and
  `steit-csharp/src/Builtins/Maybe.cs`. That the generator writes just these characters is proved (`C69_log_entry_file`, `C69_maybe_file`), and
  with it C69 of the one and its failure for the other. `Model/Replayer.lean` is `StateReplayer` reading entries by the text of the former
  (`C69_replays_as_shipped`). Bodies that are the same in all files (`Deserialize`,
  `MaybeNotify`, `UpdateAndNotify`, `GetNested` of enums, `ReplayListPush` and the like) are written down once, not read (that these are the lines in every generated file is
  proved, `C69_struct_bodies` and `C69_enum_bodies`; the first lines of constructors, `C69_struct_constructor` and `C69_enum_constructor`); so is the order in which C# looks names up. Types of
  values are not checked, paths and events are left out. Code that is not understood is stuck, and the theorems say that nothing gets stuck.
* **Programs as written.** `Model/AsWritten.lean`: declarations with attributes, from which both the macro's types (`Derive.derive`, C47) and the
  generator's declarations (C67) are computed. What rustc checks is a hypothesis (`Accepted` in `Spec/AsWritten.lean`); paths in types are resolved.
* **Derived code as text.** `Model/DeriveCode.lean`: what the macro writes for structs and enums, template by template, with identifiers. `compile` looks names up
  (patterns bind variables, inner ones hide outer ones) and fails where rustc would; what is left reaches fields by position. C72 proves that this is the
  derived code of `Model/Derive.lean`.
* **Bounds.** `Model/Bounds.lean`: headers of the `impl` blocks, and what the code in them asks of field types, trait by trait; `Holds` is Rust's
  trait resolution for the `impl`s of the library and the derived ones. C75 proves which declarations compile, and that C71's assumptions on types follow.
* **Generated files.** `Model/GenFiles.lean`: `generate` on a disk of which nothing is assumed but that one path is one file.
* **Specifications** are in `Verif/Spec` and do not use the model's helpers: `encode` (the wire format as a function from values
  to bytes), `At` (which runtime sits where), `Same`/`strip` (equal up to runtimes), `Part` (objects inside objects), `Fits`, `under`
  (log entries), `Merge` (interleavings), `Equal`, LEB128 and UTF-8 by arithmetic.

## 2. What is not modelled

* io errors of the underlying reader other than end of input, except in C62; io errors of
  the underlying writer, except in C63 (and of files, except in C66; `ErrorKind::Interrupted` in none; `flush` is never called); allocation failure
  (except the capacity overflow in `skip_field`), stack overflow.
* `Debug`, serde JSON, `Clone` (a clone is an equal value sharing the runtime), formatting of error messages
  (only the `io::ErrorKind` is kept).
* Memory orderings other than Relaxed: none is used by the code.
* A `Mutex` is one indivisible action. Poisoning is modelled for C60 only: the code between `lock` and unlock does not panic with
  the loggers of the repository other than `PanicLogger`. A logger records an entry wholly or not at all, except at the end of
  a connection (`Props/Broken.lean`, C60). The text `WriterLogger` prints is not modelled.
* Of the text the derive macro writes: paths, visibility, lifetimes, `where` clauses. `Model/Bounds.lean` has the `impl` headers with
  type parameters and bounds, `Model/DeriveCode.lean` has the bodies of methods with the names of fields and variables, `Model/DeriveParse.lean` which declarations the macro accepts.
* Hash map iteration order is arbitrary in Rust; a `HashMap` value is modelled as the list of its entries in some order and
  the theorems hold for each such list. The model keeps that order from one use of a value to the next, which Rust does not promise;
  C82 has values whose hash maps are reordered at any time. Where another theorem says that bytes are the same (`C81_relay`, `C81_chain`,
  `C73_passed_on`), read this for types without `HashMap`; with them it is the value that is the same, up to the order (C82).
* `f32`/`f64` and user-written `impl`s of the traits: steit has no float support; user impls are outside the repository.

## 3. Trusted base

Lean's kernel; the axioms `propext`, `Quot.sound`, `Classical.choice` (listed for every property theorem in `AXIOMS.txt`,
the output of `#print axioms`); the reading of the Rust/C# source recorded in the comments of the model
definitions (file and lines); std/IndexMap/iowrap behaviour as summarised in those comments. No axiom, `sorry`,
`native_decide` or `bv_decide` is used.

How the reading of the source was checked (`Verif/Conformance`; tests of the model, not counted as proofs):

* `RustTests.lean` repeats every assertion of the unit tests in `steit/src` on the model (about 160): all hold.
* `TestCrate.lean` makes the calls of `steit-derive/test-crate/src/lib.rs` on the model; the bytes logged are those `steit-csharp/tests/Test.cs`
  replays. One entry differs (`3, 12, 8, 0` there, `1, 12` by the code: default values are omitted); both decode to the same entry.
* `GeneratedFiles.lean` runs the model of the C# generator on the metadata of the types of the test crate; the texts are those of the
  files in `steit-csharp`, character by character. All 15 generated files of the repository were compared; nine are repeated in the module.

The project's tests only exercise these points, and none of the disagreements of section 5; the theorems in `Verif/Props` are
about all inputs. Section 5 says where the code's behaviour, so modelled, is not what its users should expect.

## 4. Plan per property

| id | what is modelled | how it is proved |
|---|---|---|
| C01 | bit-level varint writer and reader | induction on the number of 7-bit groups; `BitVec` to `Nat` arithmetic |
| C02 | `size_32`, `size_64` mask tests | each mask test is equivalent to a bound `< 2^k`; length of the encoding by the same bounds |
| C03 | same | corollary of the round trip with arbitrary suffix |
| C04 | zigzag encode/decode with arithmetic shift | closed form of encode and decode on `Int`; exact characterisation of the values that survive; negation with witnesses |
| C05 | reader on arbitrary bytes, both modes | induction on the input |
| C06 | bool reader | induction on the input |
| C07 | tag packing | `Nat` arithmetic of shift/or |
| C08-C10 | cache programs | Hoare-style predicate for programs under interference that only stores true sizes; structural induction on `Ty`; adequacy for all interleavings |
| C11-C13 | `merge` for all types | structural induction on `Ty`, one lemma per impl |
| C14-C17 | struct merger loop | induction on the list of wire fields |
| C18, C19 | readers on arbitrary input | structural induction on `Ty`, fuel = input length, progress lemma |
| C20 | `Take` at end of input | negation with witness; what a truncated payload decodes to |
| C21 | `from_utf8` as a table-driven validator | definition vs. specification as encodings of scalar values |
| C22 | array/tuple merge | induction on the items |
| C23, C29-C31 | log entries as an enum `Ty`, replay loop | instance of C12; induction on the entry list |
| C24, C25 | operations with stored runtimes, worlds, replay | simulation relation between source and replica; structural induction on `Ty`, induction on histories |
| C26 | replay as code free to use loggers (`Model/ReplayExec.lean`) never does | structural induction on `Ty` |
| C32 | replay on arbitrary bytes | structural induction on `Ty` |
| C27, C28, C43 | logger state machine | induction on call sequences |
| C33, C34 | list and map operations | refinement to lists / finite maps |
| C35-C38 | the defects | concrete witness histories (negation) and the positive theorem under the side condition |
| C39, C40 | variant setters, `handle_update` | case analysis plus C11 |
| C41 | threads sharing a logger | interleaving semantics of `Exec`; negation with witness schedule; code outside pause windows as blocks, merging of traces; commutation of patches to unrelated objects |
| C42 | derived eq/hash with flags | structural induction on `Ty` |
| C44, C45 | C# reader, generated classes | same shapes on the C# model, compared with the Rust model; `Shows` relates values and objects |
| C46 | `StateReplayer`, C# collections | `Means` gives each logged entry a meaning independent of who applies it; calls log entries that mean what they did (`Lemmas/Tell`), Rust replicas (`Lemmas/Follow`) and C# clients (`Lemmas/CSharpFollow`) do what entries mean; C24 is derived the same way |
| C54 | C# loops | every round consumes input; mutual induction on `Ty` |
| C55 | `Rev`: two types at once (fields and variants added, dropped or retyped, integers widened, length-prefixed parts that became `Bytes`); decoding law with separate source type | mutual induction on `Rev`; runs of wire fields, known and unknown |
| C56 | as C55, with `Means` (what entries say) between source and replica | mutual induction on `Rev`; steps of a log |
| C57 | a reader of the generated text (`classesOf`) in the specification | the writer leads the reader from state to state, line by line; then the tables are compared with `Fields` |
| C58 | objects with paths, events; `held` looks a value up by tags | every object equals its data put in place (`place`); `Announces` carried from inner to outer objects; mutual induction on `Ty` |
| C59 | the C# client of C45/C46 with the classes of another revision (`Rev`) | the induction of C45 and C46 over `Rev` instead of `Ty`; entries for unknown fields and variants change neither the client nor what it should see |
| C60 | calls with failing loggers (`Ty.attempt`), agreeing with `Ty.run` where they return | mutual induction on `Ty`; every failed call leaves a state reached by the entries recorded (`Means`), then as C24 and C46 |
| C61 | replay (C31) and client (C46) on the first `n` bytes of a log | cuts of a sequence of length-prefixed chunks; the loops of C31 and C54 on whole chunks and a rest |
| C62 | `replayR`, `t.mergeR`: the readers over any `io::Read` | agreement of every reading function with the one on bytes, by recursion over the type; what has been consumed from the source behind the byte held in advance |
| C63 | `t.writes`, `sendLog`: the writing functions over any `io::Write` | the program that collects what is written is the one of the model, by recursion over the type; `write_all` by induction on the bytes left |
| C64 | `unroll D S n i`: recursive programs unrolled | two implementations agreeing up to a level (`DictRel`), carried through every type constructor; a nested message costs a byte, so one level more; induction on the level |
| C65 | `deserialize`, `merge_nested`, replay on the first bytes of an encoding | `Remains` over types; a law per dictionary (`CutLaw`): what a cut leaves, and how to reach it, carried through every type constructor |
| C50, C51 | entries and calls for objects inside a state | `Part` as contexts; induction on the path; two-hole contexts for unrelated objects |
| C52 | equality and serialization | structural induction on `Ty` |
| C53 | `Maybe` | expansion as a derived enum; negation with witnesses |
| C47 | attribute parsing, `parse_fields`, `parse_variants`, `derive` | one lemma on table-driven attribute parsing; induction on field and variant lists; the result is a well-formed `Ty` |
| C48 | `visit_link` on type graphs, links of Rust types | depth bounded by the types not visited yet; reachability invariant of the traversal; negations: `Box` links, equal names |
| C66 | `generate` on disks that may fail, `BufWriter` | what one message does to its own file and no other; induction on the messages; C48 for which messages; negation: a full disk |
| C67 | declarations with field types as written, `field_type_meta`, `Inst` for instances of generic messages | mutual recursion over written types; type arguments are reached because Rust wants parameters used; with C48 and C66 for files; negations: hidden and special names |
| C68 | (no new model) `Spec/Members.lean` reads declarations off the text and states the C# rules on names | text is followed line by line as in C57; both directions of "clean iff names fit"; negations: names that clash |
| C69 | an interpreter of generated classes, `Model/Classes.lean`; `Models` relates declarations and `Ty` (recursive ones unrolled) | values of the client model as values of C#; what a class has to do (`Runs`) by recursion over `Ty`, with fuel for depth; generated classes do it by C57, C67 and C68; with C46 for the corollary; negation: generic enums |
| C70 | `csDeserialize` and generated classes on the first bytes of an encoding | `ShowsFirst` over types; loops read part by part (`ByParts`): each part is read whole or throws; with C69 for generated classes |
| C71 | programs as written (`Src`, with attributes): `declared` for the generator, `unrolled` for the macro's types, both from the same text | attribute lemmas of C47 for both sides; `Models` by induction on depth, with a bound on how deep default values go (finitely many instances); with C69 from declarations to the client |
| C72 | templates of `struct.rs`, `enum.rs`, `field.rs` with names (`structCode`, `enumCode`, …) | names are looked up to positions (`…_compile`), under `Free` and different names; statements in order are `FieldsD` by induction on fields; the converse by inverting `compile` |
| C73 | (no new model) `Spec/Relay.lean`: keys on a path, all values inside a value | `KeepLaw`: decoding and replaying keep `Carried`, by recursion over types, for every input; with C11, C45 and the size of C74 |
| C74 | (no new model) `Spec/Weight.lean`: size of a value, size of a declaration | `GrowLaw`: what merging adds is bounded by the bytes it consumed, by recursion over types; `encode_le` by recursion over values |
| C75 | impl blocks with their bounds and what their code asks of types, `Model/Bounds.lean`; trait resolution as an inductive relation `Holds` | substitution of type arguments in derivations (`holds_subst`); supertraits by induction on derivations; `Compiles` iff `Good` block by block; negations: three attributes that need others |
| C76 | (no new model) `Spec/States.lean`: processes with several states | calls use the logger of their object only (`only_run`), say what they did (`tells`), replicas and clients follow (`follows_steps`, `csReplay_steps`); entries for absent items and keys through C50; negations: witnesses |
| C77 | (no new model) `Spec/Drift.lean`: calls elsewhere | induction over the calls; `part_pair` separates the two objects, `syncs` and `applies_part` replay each call, `part_same` finds the replica's object; clients: entries about an object lifted to the state around it (`steps_part`), then `csReplay_steps`; negations: witnesses |
| C78 | (no new model) `Spec/CsWeight.lean`: size of a client's objects, size of a declaration | `FeedsTy`: what is read is paid for by the bytes consumed, by recursion over types and loops; `Up` for log entries at any path; with C61 for replay that an exception ends |
| C79 | (no new model) `Spec/Again.lean`: logs of updates, logs whose entries are repeated, clients' objects up to the order of dictionaries | `redoTy`/`redoTyC`: running a list of writes on what it has led to changes nothing, by recursion over types (writes to one field, item or key are separated from the others); `againTy`: one entry twice; `AlikeCs`: replay respects `Alike` |
| C80 | (no new model) `Spec/Agreement.lean`: replaying one message after another, noting what each reported | `blindTy`: merging and handling do not look at runtimes, nor at the build mode unless the debug build panics (`Twin`: the same data, part by part; by recursion over types); `twin_of_same`: `Same` values whose objects know their addresses are twins |
| C81 | `Model/Opaque.lean`: `Bytes::from_value`, `from_raw`, `into_raw`, `&str`; `Spec/Opaque.lean`: `Veil`, a type with some of its parts hidden | mutual induction on `Veil`: the encoding does not change when parts are hidden; then C11 for the relay |
| C82 | (no new model) `Spec/Order.lean`: `Shuffle`, a value with its hash maps in another order | `kinTy`: merging and handling commute with reordering, by recursion over types (`Kin`, with `hashInsert_kin` for the insertion); `equal_of_shuffle` and `C24`'s induction for histories |
| C83 | (no new model) `Spec/Limit.lean`: `encode32`, the encoding with lengths modulo 2^32; `summed`, sizes with only the lengths of strings and `Bytes` cut | `wrapLaw` (release, no bound on lengths), `limitLaw` and `endsLaw` (debug: sizes are exact or panic, writing does not panic after that), `followsLaw` (debug does what release does unless it panics), by recursion over types; reading laws for up to 2^63 bytes (`roundWide`) |
| C84 | (no new model) `Spec/Record.lean`: `Records`, the exact entries of a call; `levels`, `payloads` | `recs` (mutual over types, like `tells`), `records_brief`, `C84_history` by induction over calls |
| C85 | (no new model) `Spec/Compact.lean`: `Within`, `Aside`, `Erases`, `without` | `part_aside` (an entry beside a part does the same whatever the part is), `got_erases`, `applies_split`/`applies_join` by induction over the log; for clients `Spec/CompactCs.lean` (`Place`, `NoVariant`), `place_within`, `place_aside`, `place_erases`, `csApplyAll_split`/`csApplyAll_join` up to `Alike`, and `means_noVariant` (no logged update is addressed to a variant); for logs alone (`Omits`, `Compacted`) `found_entry`/`known_entry` (an entry that is accepted shows that its object exists, or lies in a `no_state` field), `applies_compacted`, and for clients `says_ty` (an entry of a history that a replica accepts says the same about the replica) |
| C86 | `Spec/Peers.lean`: `Owned`, `move`, `MovesOk` (no new model: programs are `Ty.run` and `replay` on states of their own) | `commutes_owned` (entries of different programs can change places); `Commutes.merged`, `Commutes.each`, `Commutes.same_parts` by induction over logs; the invariant `Together` by induction over moves, with `says_ty` (what one program's call said is said on another's state) |
| C87 | `Spec/PeersKeys.lean`: `OwnedAt`, `HasPlaces` (no new model) | `Jumble` (the same data with the entries of maps in any order) is kept by reading and replaying, by induction over types (`jumbleTy`), and not seen by `==` and by C# clients; `map_diamond` (entries about different keys change places up to `Jumble`), `commutes_placed`; then the lemmas of C86, which are for any relation |
| C88 | `Spec/PeersJoin.lean`: `event` (a move, or `restart`: snapshot, `deserialize`, `set_runtime`), `EventsOk` (no new model) | the invariant `Together` is kept by restarts (`together_restart`, with C11), logs only grow; `together_rest`: the entries missing in a snapshot, put behind those that made it, are a log of what the other program knows |
| C89 | `Spec/Bodies.lean`: `constantLines`, `variantLinesOf`, `newLines`, `number?` (no new model) | the lines of the file are read off the writer calls (`Wrote`), a loop over variants is one block of lines (`infix_block`); constructor and `ReplaceAt` by C57 |
| C90 | `Spec/Opening.lean`: `libraryNamespaces`, `Framed` (no new model) | the opening stays a prefix of the lines through all writer calls (`class_suffix`, `enum_suffix`); insertion sort permutes and sorts, sorted permutations are equal |
| C91 | `Spec/Clearing.lean`: `clearOne`, `clearEvery`, `Clears`, `ClearsEnum` (no new model) | lines read off the writer calls, as for C89 |
| C49 | writer, C# generator call for call, case conversion | Hoare-style predicate on writers (open brackets, level) carried through the generator; induction on call sequences / characters |

## 5. Disagreements between the code and its expected behaviour (found while modelling)

1. Signed integers outside [-2^(N-2), 2^(N-2)) do not survive a round trip (C04).
2. Debug builds panic on overlong varints, and on skipping an unknown varint field of three or more bytes (C05, C14, C18).
3. Skipping a sized field declaring >= 2^63 bytes panics in `Vec::with_capacity` (C14, C18).
4. Truncated length-prefixed payloads are accepted (C20).
5. `Map::remove` of an absent key logs an entry on which replay fails (C35).
6. `Map::insert` does not attach the value to the map's runtime (C36).
7. `List::swap_remove` stores a wrong path in moved enum items (C37).
8. Whole-value updates are not atomic (C30).
9. Replay can insert map keys outside the key type; iteration then panics (C32).
10. A concurrent `*_with` call makes a shared logger drop other threads' entries (C41).
11. Rust and C# disagree on large signed values (C44).
12. `collect_meta` misses messages reachable only through a `Box<T>` that is not inside a `T`, and all but the first of messages with the same name (C48).
13. `Maybe::some`/`Maybe::none` store a runtime without the variant tag; replay and setters on such a value panic or log the update
    of the container (C53).
14. A boxed enum at the root is taken for a non-root by `replay`, because `Box` does not forward `is_root`, and replay is refused
    (C31).
15. Even plain `List::push` opens a pause window; a panic inside a closure leaves the logger paused for good (C28, C41).
16. Generated C# does not compile for some accepted declarations: field names that differ in underscores before digits or doubled
    underscores get the same property, a type named like a C# keyword in lower case becomes a variable of that name, a `Map` behind a
    type alias becomes `StateMap<>` (C49). Not proved, seen while modelling: the `New…` methods of a generic enum are declared with the
    name of the enum without its type parameters.
    A field of type `Box<u32>` is initialised by `new UInt32(path)` (C49).
17. The generated C# code takes a field whose type is a type parameter for a varint unless it is an `IState`; strings there are
    dropped (C45).
18. C# decoding of an `Option` of a state at the root throws a `NullReferenceException`; lengths of 2^31 and more are negative in
    C#; unknown variants become the default variant silently (C45).
19. On varints of more than ten bytes C# shifts modulo 64 (C44).
20. A log entry of an unknown kind makes the C# client replace its whole state by an empty one (Rust: an error); entries for fields
    the client does not have are ignored (Rust: an error); removing an absent key, harmless on the source, throws in C# (C46).
21. Readers with narrower integers than the writer truncate silently; no error is reported (C55).
22. Logs are not forward compatible between Rust programs: one entry for a field the replica does not have stops the replay (data is
    forward compatible, C55). Entries for fields the replica has marked `no_state` are accepted and ignored, so that it silently
    differs from the source (C56).
23. The C# client changes silently when the root is replaced. The event a generated enum declares for changes of its variant is never
    raised by logs Rust writes: a change of variant is logged as an update of the field or element holding the enum, so that only
    handlers of that container are called (C58).
24. C# clients of another revision (C59): entries for fields and variants the client does not know are ignored, so the client keeps
    following where a Rust replica of the same revision stops. But if a field changed its wire type, the client takes the bytes logged for
    the old type for a value of the new one (a client reading a snapshot skips them); if a `List` became a `Vec`, the first push throws;
    arrays the writer does not have are empty instead of filled with defaults.
25. A `swap_remove` that panics because only the first of its two entries could be recorded leaves the list as it was and a pop in
    the log: replicas have one item less. Setters of fields of another variant are two steps; failing in the second, the variant stays
    switched (C60).
26. The Rust replayer takes a cut entry for an entry if what is left of its payload parses (item 4: nested readers do not check their
    length): a log cut two bytes into an update resets the whole replica without an error; a cut in the path addresses an enclosing object;
    a cut in the value stores part of it. C# clients report every cut (C61). Exactly what a cut value or log entry can be taken for is C65; for C# clients and values, C70.
27. `Reader::as_mut_read` is public and, called after `eof`, gives a reader that skips the byte `eof` has asked for; the outer reader
    returns that byte later. The library itself reads the length of a nested value between the two (C62). A connection that *fails*
    leaves a replica after whole entries, one that *ends* early does not (item 26).
28. Nothing limits how deep the messages in an input are nested (only its length does): for every depth there is an input of 11 bytes
    per level that decodes to a recursive message nested that deep (C64). The code recurses at each level; the stack, which the model
    does not have, is limited, so that decoding input from outside into a recursive type can end the process.
29. `generate` drops its `BufWriter` without flushing, and dropping ignores errors: `Ok` does not mean that the files are complete. For
    sources shorter than the buffer (8 KiB) no failing write is ever reported, and files that were there before are lost (C66).
30. The classes of variants are nested in the class of their enum and hide messages of the same name: `enum Shape { Circle(Circle) }` gives the
    variant a property of its own type. A generic message called `Box` or `StateMap` in C# is printed without (some of) its arguments (C67).
31. The C# generator does not keep the names it makes apart: a field `path`, a field named as its struct (`struct Name { name: String }`) or
    as a type parameter (`struct Pair<A, B> { a: A, b: B }`), fields `x_1` and `x1`, `x` and `on_x_update`, variants `Tag`, or `A` and `NewA`,
    all give files that C# rejects (C68 says exactly when).
32. Static methods in the class of a generic enum (`public static Maybe NewSome(...) { return new Maybe(path, 1); }` in `class Maybe<T>`) lack the
    type arguments, so that the class does not compile (C69). Everything else in that class has them. `steit-csharp/src/Builtins/Maybe.cs` in the repository is such
    a class; the C# project includes it.
33. In the arms derived for an enum, names of fields are variables next to those of the templates. A field of a variant called `size`, `writer`, `reader`, `field_number`,
    `wire_type`, `other` or `state` (with `State` also `runtime`, `self_runtime`, `path`, `kind`, `key`, `tag`), or by a raw keyword such as `r#type`, gives code that
    does not compile. `other_x` next to `x` does compile and compares the wrong fields: `==` reads `other_x` from the other value, where it is `x`, and a
    value `{ x: 1, other_x: 2 }` is not equal to itself (C72). With setters, fields `x` and `x_with`, or variants `A` with a field `b_c` and `AB` with `c`, give
    two methods of one name. C72 says exactly which names work; struct fields may be called anything but the fields that are added and each other.
34. Decoding checks map keys (`try_from_field_number`), replaying does not: a log entry naming the key 2^29 in a `Map<u32, _>` is accepted, and `to_bytes` of the replica panics
    from then on (C73; item on C32 has the iterator). Nothing Rust code logs does this; a log from elsewhere can.
35. `#[steit_derive(State)]` on a struct with a type parameter does not compile unless `T: State` is written (C75): the block of `Deserialize` gets `T: Deserialize`
    (`impl_for` in struct.rs), its supertrait `Default` is implemented for `T: State` only (`trait_bounds`). On enums it is not needed, as in the tests
    (`Maybe<T>`, `Animal<A, B, C>`): enum.rs uses `trait_bounds` for `Deserialize` too. `#[steit_derive(Default)]` without `Deserialize` or `derive_ctors`, and
    `derive_setters` on an enum without either, give code that calls constructors that are not there.
36. `Accepted` (C71) asks less of types than Rust does: its example has `Pair<Item, Option<Shape>>` as the items of a map, where `Pair` derives `State` and
    `Option<_>` is no state, so that Rust refuses it (`exSrc_not_rust`). C71 is the stronger for it. `C75_accepted` shows that what compiles is covered, and
    `nodeSrc_accepted` is a generic and recursive program for which all of it holds.
37. What `pop`, `swap_remove`, `Map::remove` and `Map::insert` return keeps the runtime it had, and so does a clone: calls on it are logged at the old address
    (C76). Replicas then stop for good (`InvalidData`: the item or key is not there), or, after `swap_remove`, change the item that took its place; an enum removed
    from a map comes back in replicas when a setter switches its variant, since `Map::handle` inserts on an update of an absent key. `set_runtime` to a
    new runtime, `push` and setters make the object safe to use; `Map::insert` does not (C36).
38. `get_mut`, `iter_mut` and `IndexMut` of `List` and `Map` allow assignment without a log entry (C77). The replica then differs in that object only, and calls
    elsewhere do not spread the difference; but calls on the object or inside it lead the replica to other contents without error, or stop it (`InvalidData`).
    An assigned new object has the default runtime, so calls on it are not logged in the state's log at all. `&mut` access itself is not modelled as a function:
    assignment is `put` of `Spec/Part.lean`.
39. Nothing in a log says which entries a replica has already seen. Updates may be repeated (C79); a push or pop that arrives twice is applied twice without error, a
    removal that arrives twice ends the replay. A snapshot taken while the logger still holds entries contains their effect, so that replaying them on it does
    the same. Even a log of updates may be refused the second time by Rust replicas, if an enum has changed its variant since (`C79_redo_refused`).
40. Debug and release builds are different readers: superfluous bytes of a number make a debug build panic (shift overflow) where a release build may read on and
    accept the message (`C80_modes_false`). Wherever the debug build does not panic the two do the same, errors included (C80).
41. `Bytes` is a stand-in for length-prefixed values only: `Bytes::from_value(&300u32)` compiles, but in a field it is length-prefixed and a reader that expects the
    number skips it (`C81_false_for_varints`). A field that occurs twice in a message is merged; for `String` this means replaced, for `Bytes` appended, so a program to
    which a string is opaque passes on the two strings as one (`C81_false_repeated_string`). Messages the library itself writes do not repeat fields.
42. Equal values with a `HashMap` inside need not have equal bytes (`C82_false_bytes`): the order of the entries is that of the iterator. Comparing or hashing
    encodings (to see whether two replicas agree, say) is not sound for such types. `Map` is an `IndexMap` and does not have the problem.
43. Sizes are `u32` and nothing checks that they fit. `len as u32` (`steit/src/types/bytes.rs:47`, `steit/src/impls/string.rs:14`) drops the upper bits in both builds, so
    a `Bytes` of exactly 4 GiB is left out as if it were empty (`C83_false_lost`), and one slightly above is written with a short length, whereupon the reader takes
    the rest of the content for further fields of the message (`C83_false_injection`: the content of one field sets another). Sums of sizes wrap in release builds
    (`C83_false_sum`) and panic in debug builds (`C83_debug_writes`).
44. Entries for different keys of one map do not commute if the keys are new (`C85_order_false`): `Map` is an `IndexMap` (`steit/src/types/map/map.rs`), so the order of
    arrival is the order of iteration and of the bytes. And an insertion that is later removed cannot be dropped from a log by itself (`C85_absent_false`): the removal
    of a missing key is refused, not ignored.
45. An update addressed to a variant of an enum, `[…, variant]`, is refused by a Rust replica and makes a C# client change the variant (`C85_client_variant_false`,
    `csharp.rs:526-536`). No source logs one (`means_noVariant`).
46. Programs that change the same object and replay each other's logs end with different states, and no call or replay fails: two that push to one list each have their
    own item first (`C86_same_object_false`); one that replaces a list while another pushes to it keeps the item the other loses (`C86_replaced_false`). An entry says
    where it applies but not to which state (`log/entry.rs`), so nothing can notice.
47. Programs that insert different keys into one map and replay each other's logs have equal states whose maps iterate, and are written, in different orders for good
    (`C87_order_false`): `Map` is an `IndexMap` (`types/map/map.rs`) and a replay inserts when it comes. Programs that insert the same key each end with the value of the
    other (`C87_same_key_false`).
48. A log does not say how much of it a state contains, and neither does a snapshot: a program that restores an older snapshot than its log goes on with its own entries
    missing (`C88_unread_false`), and a replica that is sent entries that are in its snapshot accepts a `push` again (`C88_again_false`). `Logger` and `ReplayReader`
    have no sequence numbers (`log/logger.rs`, `state.rs`); the positions have to be kept beside the data.

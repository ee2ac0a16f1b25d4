# Formal model of go-sawmill in Lean 4

Build: `lake build` in `lean/`. Properties: `properties.jsonl`. Which theorem proves which property: `MANIFEST.json`. Axioms of each of these theorems: `AXIOMS.md`. Wrong programs tried against the theorems: `seeded/LOG.jsonl`.
(`tools/` holds the scripts that write the first three files.)

## Layout (lean/Verif)

* `Base/`  – byte strings, sorted association maps (Go maps), decimal numerals.
* `Model/` – the model, function by function, each definition citing file and lines in /repo.
* `Spec/`  – small specifications the theorems are stated against. They do not use the code of the model (a few share its data types).
* `Lemmas/` – helper lemmas.
* `Props/` – the property theorems (one file per area), with a non-vacuity example or a counterexample theorem beside each.

## Trusted base

1. Lean 4.33.0's kernel. No `native_decide`, no `bv_decide`, no own axioms, nothing left unproved. Evaluation of closed terms is by `rfl`, `decide` or `decide +kernel`: the kernel's reduction.
2. The axioms `propext`, `Quot.sound`, `Classical.choice`, which are Lean's standard ones; `AXIOMS.md` lists them per theorem. Nothing else occurs.
3. That the definitions in `Model/` say what the Go code says. They were written by reading the code; each cites its lines. Nothing was run. The simplifications are listed below and at the head of each file.
4. That the statements in `Props/`, read with `Spec/`, say what `properties.jsonl` says.

Validation of the model (not part of the base, and no claim rests on it): Props/RepoTests.lean runs the repository's own tests on the model, with the repository's inputs and expected outputs: both pipelines of pkg/pipeline/testdata with all their events, the tests of pkg/pipeline/pipeline_test.go and
config_test.go, those of pkg/event (keys, paths, Put, Get, Delete, printing, JSON, times), `TestToEvent` of mapinterface, `TestReflectValue` and `TestFromToEvent` of protobuf. Not run: registry_test.go (its processor panics by design; C32 and C33 cover registration), benchmarks, and
generate_test.go (it needs a Go toolchain; tools/gen_check.lean.txt compares the generator's model with the generated files in the repository).

Not trusted: lemmas, examples, scripts, mutation tests.

## Modelling decisions

* Go `string`/`[]byte` = `List UInt8` (no encoding assumption). `int64`, `uint64`, `float64` = `BitVec 64` or bounded integers (floats by their IEEE bits;
  no float arithmetic happens in the code). `int` is 64 bits; wrap-around is modelled where the protobuf decoder adds lengths, and in the time arithmetic.
* Go maps = association lists sorted by key (a canonical form, so map equality is equality). Iteration order is *not* the list order:
  wherever the code ranges over a map and order could matter, the theorem quantifies over all permutations (`order` in C46/C47, `SameMessage` in C40, C41, C55, `Mirrors` in C30).
* `*Value` and maps live in an explicit heap (`Model/Heap.lean`): aliasing, nil pointers, nil maps and cycles are all representable.
  The API functions `Get/Put/TryPut/Delete` are modelled on that heap statement by statement, with panics as outcomes (`Res`: `ok`/`panic`).
  `Spec/Tree.lean` is the plain nested-map specification. The heap code refines it on owned heaps (`Lemmas/HeapRep`, `HeapOps`, `HeapApi`).
* Slices in the event heap: a list; nil and empty slices are distinguished; two slice headers never share a backing array. Where backing arrays do matter (decoding JSON into a used value, C64) they are modelled with capacity.
* Pipeline engine: generic in the world state and in the behaviour of processors (a program of interface calls that returns an optional error, or panics).
* Concurrency is modelled several times (the registry by itself: C103): C31 interleaves goroutines after every counter increment and interface call; C65 after every single memory access, in one shared heap, and proves that no two conflicting accesses are ever both next (no data race). C65 assumes sequential
  consistency, which Go guarantees for race-free programs.
* Recursion that need not terminate in Go (cyclic values) is given fuel, and out-of-fuel is an outcome of its own. Theorems say for which inputs it occurs for every amount of fuel (then the Go program overflows its stack), or that it never occurs.

### Code outside the repository

| Code | Treatment |
|---|---|
| encoding/json (Go 1.17) | modelled on bytes: scanner, decoder, encoder, escapes, UTF-8, depth limit 10000 |
| strconv float formatting and parsing | parameter with laws (`JEnv.Lawful`), shown satisfiable (`bitsEnv_lawful`) |
| strings.ToLower/ToUpper | modelled on bytes (`Model/Text`, C92), with the Unicode tables beyond ASCII as a parameter; in all other claims an arbitrary function |
| strings.TrimSpace, bufio.Scanner/ScanLines, json.Encoder | modelled |
| time.Unix, UnixNano, Format, Go 1.17 algorithms | modelled |
| reflect | modelled by descriptors holding what the code asks of a type or value |
| errors.Is | modelled on error trees |
| go-ucfg | parameter: any function that fills the option struct or fails |
| prometheus client | counters as natural numbers, collectors identified by component ID and kind |
| flag | modelled (parsing of string flags) |
| gopkg.in/yaml | the decoder from nodes into configurations is modelled (`Model/Yaml`, C93; with merge keys `Model/YamlMerge`, C94), from memory of its source; the parser is a parameter, and in all other claims so is the decoder |
| zap, pprof, net/http, syscall/js, cgo | not modelled |

## Modelled and not modelled, by file

| File | Modelled | Not modelled |
|---|---|---|
| pkg/event/event.go | all | – |
| pkg/event/value.go | constructors, `NullValue`, MarshalJSON, UnmarshalJSON (fresh and used targets), `Format`, `ValueType.String` | text of floats when printed |
| pkg/event/time.go | all | – |
| pkg/eventutil/{event,reflect,structtag}.go | all, with the texts of errors | `reflect.Type.String` (names of types are part of the description of a value) |
| pkg/serialization/mapinterface | all, with the texts of errors | texts of panics |
| pkg/serialization/protobuf/protobuf.go | all | – |
| pkg/serialization/protobuf/event.pb.go | messages, Size, Marshal, MarshalTo, MarshalToSizedBuffer, Unmarshal, skip, varints, unknown fields, getters, `XXX_Marshal` | `String`, registration, descriptors, `XXX_Merge` |
| pkg/pipeline/{pipeline,processor,event,config}.go | all, including New, Process, Metrics, JSON of configurations, texts of errors | – |
| pkg/processor/registry/registry.go | all, with the texts of errors; `strconv.Quote` | which characters from U+0080 on are printable (parameter); go-ucfg (parameter) |
| pkg/processor/error.go, api.go | all | – |
| pkg/processor/{append,lowercase,uppercase,set,remove,community_id} | options, constructors, `Config`, `Process`, `String`, texts of errors | unused options of community_id (in `Process`) |
| pkg/metrics/metrics.go | Register, Unregister, what a scrape shows | HTTP, the process and Go collectors |
| cmd/sawmill/sawmill.go | main, flags, loadPipeline, processInput, building the pipeline, when profiles are written, the log | the YAML parser (a parameter), the contents of profiles, the metrics listener, signals (SIGPIPE) |
| examples/c/cshared/main.go | Load, Process as sessions, the texts returned | memory management of C strings |
| examples/wasm/wasm.go | the exported function, with its texts | conversions of syscall/js |
| pkg/config/config.go | all | – |
| internal/proctemplate, docs/generate, pkg/processor/generate | `Model/Gen`: the template functions, both templates, both main loops; `Model/Schema`: reading processors.yml | the YAML parser, text/template itself, gofmt, go/parser, go-wordwrap, file system errors, the dead code in schema.go |
| tools/tools.go, webserver.go, tests | – | no behaviour of the library |

Notes on single models. Wire: Go's stack depth is not modelled; field numbers are truncated to int32 as in the code; in map entries the lengths of key and value are checked against the end of the whole buffer and not against the end of the entry, as in the code
(so is a key that runs over the end of its entry). Time: one `time.Time` without monotonic reading, UTC. Reflect: finite values only. JSON: `compact` only as validity check. CLI: in `Model/Cli` the scanner runs before the first line is processed; `Model/Stream` is the loop as it is. Config JSON: decoding is into a new value.
Mem: reading a `Value` is one access, `v.Array = append(..)` one writing access. Goro: reading the entries of a map for encoding is one access; goroutines do not assign to fields of a `Value`; they hand events over only as in Pool (whole messages, channels with capacity). Metrics: no hash collisions.

## Properties that are false as one would naively state them

The policy: `properties.jsonl` states what is true of the code, precisely; the naive statement is refuted by a theorem named in the manifest.

* Delete of a nested key removes the whole top-level entry, siblings included (C08, `delete_removes_siblings`).
* A JSON `null` is a nil `*Value`; Get, Put and Delete below it panic (C12), so do protobuf conversion (C39) and nil object maps.
* `set` with an array value stores the configured pointer: events share it, later `append`s leak from one event to the next (C15, `history_leaks`) and race between goroutines (C65, `leaky_config_races`).
* `copy_from` shares arrays and objects, and makes a cyclic event when the source is above the target (C16, C17).
* Drop has a value receiver and never drops (C26); Cancel, `if` and `id` have no effect (C27, C53).
* Process returns no event on an error but the event keeps the changes made so far (C54).
* `errors` counts errors that the processor's own handlers recovered (C25); Metrics leaves out the processors of the global on_failure (C28); a second pipeline with the same ID is silently not exported, and unregistering it removes the first one's counters (C63).
* `remove` and `community_id` do nothing (C36); `ignore_failure` exists only in the options of set and community_id (C59).
* The registry accepts constructors that always panic (C33). It has no lock: registering while another goroutine uses it is a data race, and a name can be registered twice (C103).
* The wire format loses nil arrays (C40); marshalling panics on nil items (C41); converting decoded messages may panic (C44); top-level keys are escaped, empty events are lost (C39).
* A short protobuf message can decode to exponentially many values, since the contents of map entries may reach beyond their ends (C101, `bomb_goes_off`).
* A pipeline of 2n `set` processors with `copy_from` can make an event whose JSON has 2^n bytes (C102, `copies_of_copies`).
* JSON loses number types, invalid UTF-8, and names that collide after replacement (C49); encoding a cyclic event does not terminate (C49); decoding into a used value merges (C64).
* The C library crashes on Process before Load or after a refused Load, and on `null` (C60).
* The command line program hides write errors, and stops at a line of 64 KiB or more (C51).

## Plan per property

| Property | Model | Proof |
|---|---|---|
| C01–C08, C11–C14 | heap model of event.go + tree spec | refinement heap→tree by induction on the path with footprints; laws of the tree spec by induction |
| C09, C10 | byte automaton of keyToPath, EscapeKey | induction over the byte list |
| C15–C17 | processors on the heap model | simulation between heaps; witnesses for the negations |
| C18–C27, C53, C54 | engine model generic in the world | structural induction over processor trees and lists |
| C28–C30 | construction of pipelines from configs | induction over configs; string prefix arguments |
| C31 | interleaving small-step machine over the engine | commutation/invariant over schedules |
| C32, C33 | registry model over type descriptors | induction over histories |
| C34–C38 | processors over the heap + tree spec | from the refinement theorem |
| C39, C44 | conversion functions | induction over values |
| C40–C43, C45, C55 | wire codec, backwards writer, decoder with panics and int wrap | induction, well-founded recursion |
| C46, C47 | Go dynamic values (reflect) | induction |
| C48, C56 | time arithmetic over Int64; the calendar | omega; induction over days |
| C49, C50, C57 | JSON on bytes, grammar as a specification | induction over texts and values |
| C51, C62 | scanner, line loop, whole program | induction over lines |
| C52 | option config JSON | map lemmas, JSON lemmas |
| C58, C59 | pipelines of the real processors as functions on nested maps; configurations as such functions | structural induction, simulation, C30 |
| C60, C61 | the example programs as sessions | simulation with an abstract session |
| C63 | metrics registry | induction over histories from the latest call backwards |
| C64 | decoding into trees with slice capacities | induction over documents and histories |
| C65 | programs of memory accesses, interleaved | invariant of ownership (`Inv`), refinement to the uninterrupted run |
| C66 | histories and the nested-map specification | commuting of independent operations, then induction on the reordering |
| C67 | engine and processors on a nil event | mutual induction over processors and on_failure lists, against `Spec.Pipe.onNil` |
| C68 | `Spec.leaves`, histories of `Put` | mutual induction over trees for one order, C66 for the others |
| C69 | the grammar of the wire format as inductive relations over byte strings (`Spec/WireText`), `unmarshal` | soundness by induction on fuel, completeness by mutual induction on derivations |
| C70 | a program as a list of calls over all packages (`Model/Client`), its meaning on bare contents (`Spec/Client`) | simulation: every event owns its memory, the memory of different events is disjoint, configured values and NullValue are never written |
| C71 | `Format` on the heap (`Model/Format`), the text of a tree (`Spec/Format`) | mutual induction over trees; explicit cycle; counterexample for containers |
| C72 | `EventValue.Unpack` and copying the struct into a processor (`Model/Unpack`) | C46 (`reflectValue_outcome`), then the root cell is moved; C12 for the processor |
| C73 | programs as trees of calls with continuations; each call as a program of single accesses (`Model/Goro`, on top of `Model/Mem`) | refinement to the functions of the other models (`goroutine_refines`); step-by-step simulation of each goroutine with its run alone, with a zone that is only read (`Lemmas/MemSim`, `MemRun`, `GoroSim`); invariant over schedules |
| C74 | the same programs, two memories related one to one | the same simulation, without a zone (`memSim_solo`), in both directions |
| C75 | reading and writing fields of each processor (`Spec/Commute`), on top of the pure pipeline of C58 | each processor as a sequence of calls; exchanging calls (C66) by induction on both sequences, then on the reordering; transferred to `Process` by C58 |
| C76 | messages that move between channels and workers (`Model/Pool`), with the step-by-step calls of C73 | receives and sends do not show in the state with one goroutine per message, so C73 applies; progress by looking at the last stage that holds a message |
| C77 | the generator as a relation (any order of maps and imports, any sorting), the text of the template byte for byte (`Model/Gen`); a scanner for Go tokens as specification (`Spec/Gen`) | the scanner is a fold, so the file is read piece by piece; a comment's lines begin with `//` because white space has no slash; idempotence through the functions that the tokens declare |
| C78 | the documentation generator as a relation, the text byte for byte (`Model/Gen`); the lines of the text as specification (`Spec/GenDocs`) | regrouping the text into lines; sorted permutations are unique |
| C79 | the heap model of events, with the recursion of the converters and printers bounded by an arbitrary number; endless ways down as specification (`Spec/Cycle`) | `Put` changes one entry of one map, and the way to it, cut off where it first meets that entry, is still there afterwards (`Props/CycleAny`, for any memory); induction on the bound; accessibility of the child relation for the converse |
| C80 | `Model/Main`: flag parsing as in Go's package flag, `main` with its deferred calls, files by name; the decoder of YAML and the outcomes of creating and writing files are parameters | the parser against a relation of spelled-out settings (`Spec/Main`), both directions, by induction; `main` by cases, over C51 for `processInput` |
| C81 | `Model/Reflect` (C46, C47); what changes on the trip is `Val.tripped` (`Spec/GoJson`) | `FromEvent` by C46's specification, `ToEvent` by C47's; induction over the contents for the composition |
| C82 | `Model/GoJson`: encoding/json on `map[string]interface{}`, both directions, time.Time.MarshalJSON | induction over the contents: the encoder on Go values is the encoder of C49 on contents with nil lists filled; the decoder gives the Go values of what C50 decodes; then C81 |
| C83 | `Model/PipelineNew` with `Model/NewText` (texts of errors, `errors.Unwrap`); `Spec/NewErrors`: the entries in reading order with their places, and what is wrong with one entry | `New` without its value is a left-to-right check of the list of entries (mutual induction over the nested configuration); induction over the list; places by the unique-index argument of C29 |
| C84 | `Model/ConfigString`: `ConfigString` and encoding/json without HTML escaping on the `Config` structs and on `config.EventValue` (no methods, so that the whole struct is shown); `Spec/ConfigString`: documents that show an option | each encoder is related to a document (as in C48); joined members; `document_unique` and the uniqueness of repaired texts, numbers and times for what the text determines |
| C85 | `Model/Slices`: memory with slices (backing array, length, capacity), `append` in place or into a new backing array of any size, under the programs of `Model/Mem` | bisimulation between the memory with slices and the memory with lists, invariant: slices that share a backing array have no room; stability of elements by a stronger invariant; the converse by one or two appends |
| C86 | `Err.text`, `PutErr.toErr` with `pathString`; the specification of the processors carries the text of each error; `Spec/ErrTexts`: the texts a configuration allows | case analysis of `put`; the refinement of C58 carries the text; mutual induction over processors and their on_failure processors; the path by cutting at slashes |
| C87 | `goQuote` (strconv.Quote), `RegErr.text`; specification: the grammar of Go string literals (`GoLit`) and, independently of the code, the list of objections to a constructor | induction over the string; two literals with a common beginning agree (`goLit_prefix`); case analysis of `validateConfig`; C83 for New |
| C88 | `RErr`, `RErr.text` (Model/ReflectErr); specification: `Culprit`, the first place of an unsupported type with the names on the way | the loops are followed to the culprit (`culprit_reported`); in the other direction the induction of C47 |
| C89 | `Model/ProgramTexts`: the strings returned by the examples, the log and `log.Fatal` of the CLI; specification: `Complaint.line`, JSON texts of `Rfc` | the first byte of every error text (from `Spec.Pipe.texts`) begins no JSON text; prefixes differ; a line of the log determines its number, kind and text; `process_says_any` (errors say what the configuration allows in any memory) |
| C90 | `Model/Stream`: the loop of `processInput` and `Scanner.Scan` as a machine that takes one step per line or `Read`; specification: `processInput` on the whole lines received | the steps add up to `processInput` (`stream_ends`, induction on the fuel of `Scanner.tokens`); invariant of the reached states: the bytes delivered are the lines handled followed by the buffer |
| C91 | `Model/PbGet`: the getters, `XXX_Marshal`, `Marshal` of the parts; specification: `Val.readings` along a path of names and indices | `protoOf` commutes with steps; readings are invariant under `SameMessage`; the readings along all paths determine a tree (induction on the tree); the lemmas of C40 on writing backwards at any offset |
| C92 | `Model/Text`: strings.ToLower, ToUpper and Map with their fast paths; specification: the characters of a text (`Repaired`), tables of the 26 letters | induction over the decomposition of the text into characters and invalid bytes, for both loops of Map; the fast path by computation on all 128 ASCII bytes; events through `convert_spec` |
| C93 | `Model/Yaml`: yaml.v3's decoder for the types of config.go; specification: relations between nodes and configurations | equivalence by mutual induction; order by collecting entries; JSON by relating the two specifications; `New` by a relation between configurations |
| C94 | `Model/YamlMerge`: the decoder again, with `mapping`, `mappingStruct`, `merge` and `mergedFields` of yaml.v3 | the entries that are decoded against a lookup by name (`Spec/YamlMerge`: nodeEntry) by mutual induction over what is merged; then, by induction on depth, the decoded value against that of the expanded document, decoded as in C93 |
| C95 | `Model/Schema`: the decoder of `Model/YamlMerge` for the types of schema.go with KnownFields; `main` of both generators from the bytes of the file | each field against what is under its name in the expanded document (`Spec/Schema`), by induction over the entries; the maps up to the order of their entries, which the generators do not see |
| C96 | `Model/Pipeline`, `Model/PipelineNew` as for C16–C27; `Spec/Divide` says which configurations differ in names only, and what running two pipelines in turn is | the trees `New` builds from them are related node by node (`Node.Twin`); a simulation through `Process` that leaves out counters and the cancelled flag; a counterexample for global on_failure processors |
| C97 | the pipeline as a function on contents (`Spec/Pure`, C58) and independence (`Spec/Commute`, C75); `Spec/Twice` says which processors may be repeated | storing twice is storing once; what a processor has nothing to do to, others that use other fields leave that way (by the commutation of C75); induction over nested processors; lifted to `Process` by C58 |
| C98 | values with several fields filled in, or of an unknown type, on the heap model; `Spec/HandMade` clears the fields that the type does not name | induction over the depth of encoding, printing and conversion; a simulation between the two memories for the operations and pipelines (`pipelineProcess_sim`, C36); counterexample for the Object field |
| C99 | the pipeline as a sequence of calls on contents (`Act`, C75), client calls as in C13 | a call elsewhere commutes with every call of the pipeline, in both directions, panics included (`swap_calls`, C66); induction over both sequences; lifted to the heap by C58 and C13 |
| C100 | the conversions of C39 (bytes included) and C81, one after the other in any mixture (`Trips`, Spec/Hops) | induction over the number of trips; escaping n times is stuffing n backslashes; a count of the bytes of the names as the measure that grows |
| C101 | the decoder of event.pb.go (C69); values are counted by `PWrapper.values` (Spec/Bomb) | a derivation in the grammar of C69 for the nested message, by induction over its depth; the upper bound by mutual induction over derivations; a second grammar (Spec/WireStrict) in which entries keep to their ends, with the linear bound by induction, and that Marshal writes it by induction over the message |
| C102 | the memory of event.go, the processors, the pipeline engine, the tool and the JSON decoder; sizes are counted in Spec/Cost | per call by cases, for pipelines by mutual induction over nodes, for JSON by mutual induction over documents and the grammar of C49; the pipeline of copies by an explicit memory for every n |
| C103 | `Model/RegistryConc`: goroutines as programs of calls, steps are single accesses to the registry's map; `New` as such a program | invariant over schedules (registry unchanged, what is left to do gives the same result alone); `New` by induction over the configuration; witness schedules for the races |
| C104 | the heap model of event.go, eventutil, the processors, the engine, the JSON decoder, protobuf conversion, C library and tool | invariant (no nils; values stay values, maps stay maps) kept by each call; engine by mutual induction over nodes; JSON by mutual induction over documents |
| C105 | the protobuf decoder and encoder of C40-C43, the JSON encoder and decoder of C49 and C50 | every read of a truncated input agrees with the read of the whole or is `unexpected EOF` (varint, length, slice, `skipEvent`, case), then induction over the loop over fields; the JSON parser reads an object regardless of what follows it |
| C106 | `Model/Crash.lean`: the memory-access programs of `Model/Mem.lean` run until they return or panic, keeping memory and counters; `eventutil.Append` as such a program; the engine's steps likewise, over histories | every panic of a program comes before its first write to an object that existed (by induction over the path; after `Put` has made its first map nothing can panic; where `Get` found a value `Put` does not panic); engine: continuation lemma by mutual induction over nested processors, with the open invocations as a path in the tree |
| C107 | relation `SameJson` on contents (`Spec/SameJson.lean`); the encoder of `Model/Json.lean` | same text ⇒ related: by induction over contents; the text of a value is followed by a byte that cannot continue it, so texts split uniquely (the parser of C50), names by a prefix-free code of characters and invalid bytes; related ⇒ same text: induction, numbers by uniqueness of decimals, timestamps by their text needing no escape |
| C108 | `filledFields`, `Narrow`, `MayWrite` (`Spec/SameProto.lean`); conversion (`Model/Convert.lean`) and encoder (`Model/WireMsg.lean`) | a reading of messages that ignores order is invariant under reordering and gives the filled contents of an event's message (mutual inductions); injectivity of `Marshal` (C40); a map with two fields can be swapped, and one with fewer cannot |
| C109 | `LastAt`, `JsonAt`, `NullBefore` (`Spec/JsonGet.lean`); `apiGet` (`Model/Heap.lean`), the JSON decoder and encoder (`Model/Json.lean`) | induction on the path, over the decoded document (C50) and over `Says` (C49); reading through shared pointers by `getLoop_reads` |
| C110 | `TextBefore`, `CutOff` (`Spec/TimeOrder.lean`); `timeMarshalJSON` (`Model/Time.lean`) | numerals of one width are ordered like their numbers, dates like their day numbers (the calendar of C56); the fraction by induction on its nine digits |
| C111 | `DeepEqual`, `Val.shown`, `Val.NoNaN` (`Spec/SameGoMap.lean`); `mapFromEvent` (`Model/Reflect.lean`) | C46 says what map it is; induction on the contents: sorted lists of names, one inside the other and as long, are equal; timestamps are told apart because the nanoseconds of a `time.Time` are those of the timestamp (C48) |
| C112 | `put`, `delete`, `get` on any memory (`Model/Heap.lean`); `ChangedAt`, `Asks`, `MapIn`, `Chain` (`Spec/Changed.lean`) | induction on the key's names: the loop of `put` writes one existing map and otherwise only maps it has just made; reading goes the same way in both memories until it comes by the entry |
| C113 | heap model as for C112; `NoCommon`, `Works` (`Spec/NoCommon.lean`) | induction on the history: each call changes at most one entry of a map of the first event (C112), and from there one gets only to new maps, to its own and to those of the value put |
| C114 | heap model and `Builtin.step`; `StepChange` (`Spec/StepChange.lean`) | case analysis of each processor over C112: its calls of Get and TryPut change at most one entry, `appendTo` one list |
| C115 | as C113, with the engine and the processors; `ValueApart`, `Longer` (`Spec/ProcessBeside.lean`) | invariant: from the maps of the event and of the configured values one gets to no map of the second event; every call of a processor keeps it (C112), and so does the engine (simulation of `Reuse`) |
| C116 | as C115 | the invariant of C115 for an arbitrary set of maps that cannot be reached, applied to every single one |
| C117 | heap model, `utilAppend`; `SameBut`, `appendItems`, `withItems`, `before` (`Spec/AppendShared.lean`) | after the list has grown, every path leads where it did (the maps have the same entries, the values the same objects), so Put writes the pointer that is there; for a new list C112 and C01 |
| C118 | heap model, `apiPut`, `apiDelete`, `apiGet`, `utilAppend`, `Pipeline.process` with `builtinCall`; `WorksToo` (`Spec/WorksToo.lean`) | induction over the sequence; for each call, what is reached from the event and the invariant of C114/C115 (no map of the other event becomes reachable; only lists grow) |
| C119 | as C118; `ByTurns`, `ManyTurns`, `Undisturbed` (`Spec/ByTurns.lean`) | induction over the turns with the invariant of C118, which is symmetric in the two events; for many, what a third and a fourth event reach stays the same |

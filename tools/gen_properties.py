#!/usr/bin/env python3
"""Writes /verif/properties.jsonl (kept as a script so the list stays reviewable)."""
import json, os
P = []
def p(id, title, statement, quantifier, why, *anchors):
    P.append(dict(id=id, title=title, statement=statement, quantifier=quantifier,
                  why_tests_cant=why, anchors=list(anchors)))

EV="pkg/event/event.go"; VA="pkg/event/value.go"; PL="pkg/pipeline/pipeline.go"; PP="pkg/pipeline/processor.go"
PB="pkg/serialization/protobuf/protobuf.go"; WB="pkg/serialization/protobuf/event.pb.go"; MI="pkg/serialization/mapinterface/mapinterface.go"
RF="pkg/eventutil/reflect.go"

p("C01","Get after Put","When Event.Put(k, v) returns a nil error and v is not nil, Get(k) on the same event then returns exactly v.",
  "every event in which no object contains itself (any size, depth and sharing of values), and every event that does contain itself with the keys that do not ask one and the same object twice for the same name; every key string, every non-nil value",
  "keys and events are unbounded; the path walk creates and descends through maps of any depth",
  f"{EV}:Event.Put",f"{EV}:Event.put",f"{EV}:Event.Get")
p("C02","Put touches nothing but its key","After a successful Put(k, v), Get(k') is what it was before for every k' whose path neither extends nor is a prefix of the path of k.",
  "every tree event, every pair of unrelated keys, every value (also one that is part of the event already)",
  "needs a frame argument over all other keys of an arbitrary event",
  f"{EV}:Event.put",f"{EV}:Event.get")
p("C03","Failed Put is atomic","A Put or TryPut that returns an error leaves every key of the event exactly as it was (no half-created intermediate objects).",
  "every event, key, value", "the failing component can be at any depth of any event",
  f"{EV}:Event.put")
p("C04","Exactly when Put fails","Put with a non-nil value fails with ErrEmptyKey exactly when the key names no component, with ErrTargetKeyNotObject exactly when some proper prefix of the key holds a non-object, and succeeds otherwise returning as old the value Get returned before.",
  "every memory with whatever sharing and cycles, every event in it without nil values or nil maps on the way (C12), every key and non-nil value (also one that is part of the event already)", "the boundary between success and failure ranges over all events and depths",
  f"{EV}:Event.put")
p("C05","TryPut never overwrites","TryPut(k, v), for a non-nil v and a key with at least one component, fails with ErrKeyExists and returns the existing value exactly when Get(k) is non-nil, changing nothing; in all other cases it behaves as Put(k, v).",
  "every event, key, value","all events and keys", f"{EV}:Event.TryPut", f"{EV}:Event.put")
p("C06","Put of nil is a no-op","Put(k, nil) with a non-empty key returns (nil, nil) and leaves the event unchanged, whatever the event holds.",
  "every event and non-empty key","all events", f"{EV}:Event.put")
p("C07","Delete returns and removes","Delete(k) returns exactly what Get(k) returned and Get(k) is nil afterwards (it panics exactly if Get(k) does). A key that names nothing deletes nothing.",
  "every event whatsoever (shared or cyclic too) and every key","all events and keys", f"{EV}:Event.Delete", f"{EV}:Event.delete")
p("C08","What Delete removes","Delete(k) for a key of one name leaves every unrelated key unchanged. For a longer key that holds a value it removes the whole top-level entry the key starts with, so siblings are lost too (a user would not expect this), and leaves every key starting with another name unchanged.",
  "every event of finite contents, whatever its parts share, and every pair of keys","frame over all other keys; the unit test only looks at the returned value",
  f"{EV}:Event.delete")
p("C09","Every escaped path is addressable","For every list of non-empty, backslash-free names, joining the names escaped with EscapeKey by dots gives a key that Put/Get/Delete resolve to exactly that list of names.",
  "every list of names over all byte strings","unbounded strings; the parser is a byte automaton with an escape flag",
  f"{EV}:keyToPath","pkg/eventutil/event.go:EscapeKey")
p("C10","Shape of key components","Whatever the key, the names it resolves to are non-empty and contain no backslash, and redundant dots (leading, trailing, doubled) do not change what the key resolves to.",
  "every byte string used as a key","all byte strings", f"{EV}:keyToPath")
p("C11","Root read","Get(\".\") returns nil exactly when the event has no fields, and otherwise an object holding exactly the event's fields.",
  "every event and every key that names no component","all events", f"{EV}:Event.get")
p("C12","When the event API panics","Get and Delete panic exactly when a name of the key other than the last one is there and holds a nil value (which JSON null decodes to); Put and TryPut of a non-nil value panic exactly then and when such a name holds an object with a nil map (which Object(nil) builds). So on an event without nil values and nil maps they always return.",
  "every memory with whatever sharing and cycles, every event, key and value",
  "nil pointers and nil maps can sit at any depth", f"{EV}:Event.put", f"{EV}:Event.get", f"{EV}:Event.UnmarshalJSON", f"{VA}:Object")
p("C13","Any API history behaves like a nested map","For every sequence of Put/TryPut/Get/Delete calls with freshly built values on a new event, every returned value and error and the final contents are those of the simple nested-map specification.",
  "every finite sequence of API calls, any keys and values","histories are unbounded and the implementation works on shared mutable maps",
  f"{EV}:Event")
p("C14","Events do not interfere","API calls on one event never change what another event with separately built values contains: in any interleaved history on several events, what the calls on one event return and what it finally contains is the same as if only these calls had been made.",
  "every pair of events, every history on one of them","depends on heap aliasing for every history", f"{EV}:Event.put")
p("C15","Pipelines keep no state between events, if configured values are leaves","When no set processor is configured with an array or object value, processing an event with given contents returns the same error (or none), the same event-or-nothing and the same resulting contents whatever events the same pipeline processed before. (Without the proviso this is false: the configured array itself is put into the event, and a later append changes the configuration.)",
  "every pipeline of the registered processors with leaf configuration values, every history of events, every event",
  "depends on the history of the pipeline and on aliasing between processor configuration and events",
  "pkg/processor/set/process.go:Set.Process","pkg/processor/append/process.go:Append.Process","pkg/pipeline/pipeline.go:Pipeline.Process")
p("C16","set copy_from copies leaves and shares arrays and objects","After set copied field a to field b: if the value is a leaf, later changes to a do not show in b; if it is an array or object both fields hold the same pointer, so that appending to one changes the other (the naive expectation of an independent copy is false).",
  "every event that owns its contents, every pair of fields neither of which is above the other, every value","aliasing for all values and later operations",
  "pkg/processor/set/process.go:Set.Process")
p("C17","set copy_from keeps events finite exactly when the source is not above the target","If the copy_from path is not a proper prefix of the target path, set leaves a finite event (the contents with a copy stored). If it is, set either fails without effect or succeeds and the event contains itself, so it has no finite contents and cannot be serialized.",
  "every event that owns its contents and every set configuration","unbounded events; the failure is a cycle in the heap",
  "pkg/processor/set/process.go:Set.Process",f"{EV}:Event.get")
p("C18","Processors run in order and stop at the first failure","A pipeline runs its processors in configuration order on the same event; after the first one that returns an error none of the later ones runs.",
  "every pipeline, every behaviour of its processors, every event","processor lists and behaviours are arbitrary",
  f"{PL}:Pipeline.process")
p("C19","Process returns an event or an error, never both","Pipeline.Process returns either the very event it was given and a nil error, or no event and a non-nil error.",
  "every pipeline, processor behaviour and event","all behaviours", f"{PL}:Pipeline.Process")
p("C20","Global on_failure","The pipeline's on_failure processors run exactly when a processor failed; if they all succeed Process succeeds, otherwise Process returns the error of the first on_failure processor that failed and later ones do not run.",
  "every pipeline, behaviour and event","all behaviours and lengths", f"{PL}:Pipeline.process")
p("C21","ignore_failure","A processor with ignore_failure never makes its pipeline fail, whatever its own result and that of its on_failure processors.",
  "every processor tree and behaviour","all trees of nested handlers", f"{PP}:pipelineProcessor.Process")
p("C22","ignore_missing","With ignore_missing, an error that is (or wraps, at any depth) a missing-key error is swallowed: the step succeeds and its on_failure handlers do not run; any other error is handled as if ignore_missing were off.",
  "every processor, error chain and event","error chains are unbounded", f"{PP}:pipelineProcessor.Process","pkg/processor/error.go:ErrorKeyMissing.Is")
p("C23","Local on_failure","When a processor fails (and the error is not swallowed by ignore_missing) its on_failure processors run in order on the same event until one fails; the step succeeds if all succeed, otherwise it yields that handler's error; with no handlers it yields its own error.",
  "every processor tree and behaviour","arbitrary nesting", f"{PP}:pipelineProcessor.Process")
p("C24","Counter conservation","For every processor, at every point between Process calls, events received = events sent + errors + discarded, and received counts exactly the times it ran.",
  "every history of events through every pipeline","unbounded histories over nested handlers", f"{PP}:pipelineProcessor.Process")
p("C25","What the errors counter counts","The errors counter of a processor counts exactly the invocations that return an error and those whose error was recovered by the processor's own on_failure handlers (a user might expect those not to count); failures swallowed by ignore_missing or ignore_failure are not counted.",
  "every history","unbounded histories", f"{PP}:pipelineProcessor.Process")
p("C26","Drop has no effect","Calling Drop on an event during processing changes nothing observable: the result of Process, the event, the counters (discarded stays 0) and which processors run are the same as without the call. A user expects the event to be discarded.",
  "every pipeline and every behaviour of its processors, calling Drop any number of times anywhere","all pipelines", "pkg/pipeline/event.go:pipelineEvent.Drop", f"{PL}:Pipeline.Process")
p("C27","Cancel has no effect","Calling Cancel on an event during processing changes nothing observable: later processors still run and results and counters are those of the same run without the call. A user expects the pipeline to stop.",
  "every pipeline and every behaviour of its processors, calling Cancel any number of times anywhere","all pipelines", "pkg/pipeline/event.go:pipelineEvent.Cancel", f"{PL}:Pipeline.process")
p("C28","What Metrics covers","Pipeline.Metrics returns the four counters of every processor of the main tree (nested on_failure handlers included), each exactly once, and of nothing else: the processors of the pipeline-wide on_failure list are missing.",
  "every pipeline configuration","arbitrarily nested configurations", f"{PL}:Pipeline.Metrics", f"{PL}:Pipeline.visitProcessors")
p("C29","Component IDs are unique","All processors of a pipeline (nested on_failure handlers and global on_failure included) get pairwise distinct component IDs, so their metrics can all be registered.",
  "every pipeline configuration and all processor type names","string reasoning over arbitrary nesting, indexes and names", f"{PP}:newPipelineProcessor", f"{PP}:newPipelineProcessors")
p("C30","New accepts exactly the valid configurations","pipeline.New succeeds exactly when the ID is non-empty and every processor entry, at every nesting level, names exactly one processor that the registry can build; the result mirrors the configuration (same order, same nesting, same types).",
  "every configuration and registry","arbitrary nesting", f"{PL}:New", f"{PP}:newPipelineProcessors", "pkg/pipeline/config.go:ProcessorConfig.getProcessor")
p("C31","Concurrent use","Processing different events concurrently through one pipeline whose processors act only on the event they are given gives each event the result it would get alone, every interleaving terminates, and the counters end up as after any sequential order.",
  "every number of goroutines, every interleaving","schedules are unbounded", f"{PL}:Pipeline.Process", f"{PP}:pipelineProcessor.Process")
p("C32","Registry behaves as a write-once map","Register adds a name exactly when the name is new and the constructor is valid, never changes an existing entry, and NewProcessor finds exactly the registered names, for every history.",
  "every history of Register/NewProcessor calls","unbounded histories", "pkg/processor/registry/registry.go:Registry")
p("C33","Registry accepts exactly well-shaped constructors","Register accepts a value exactly when it is a one-argument function from a struct to (pointer implementing Processor, type implementing error). NewProcessor never panics on the result types when the error result is of a kind that can be nil; a constructor whose error result is of another kind is accepted and then makes every NewProcessor call panic.",
  "every Go value described by its type shape","all type shapes", "pkg/processor/registry/registry.go:validateConfig")
p("C34","lowercase/uppercase","On a string field they store the converted string in target_field (or in the field itself when target_field is empty) and change nothing else; a missing field gives a missing-key error and any other value (arrays included, although the documentation says arrays are converted) an error that is not a missing-key error, and the event is unchanged. If the target cannot be stored (C04) the error is that of Put and the event is unchanged.",
  "every event that owns its contents (no object or array is in two places), every configuration, string and conversion function","all events and configs", "pkg/processor/lowercase/process.go:Lowercase.Process","pkg/processor/uppercase/process.go:Uppercase.Process")
p("C35","append","append adds the configured value at the end of the array at field, whether or not it is there already and whatever allow_duplicates says; a missing field is created as an array with that one value (if the event can hold it, and success is reported even if not); a string field is left unchanged although success is reported; any other value is an error and nothing changes.",
  "every event that owns its contents (no object or array is in two places), every configuration","all events", "pkg/processor/append/process.go:Append.Process","pkg/processor/append/append.go:Append")
p("C36","remove and community_id do nothing","The remove and community_id processors succeed on every event and leave it as it was, whatever fields they are configured with (their Process methods are unimplemented).",
  "every event, configuration and key looked at afterwards","all events", "pkg/processor/remove/remove.go:Remove.Process","pkg/processor/community_id/community_id.go:CommunityID.Process")
p("C37","set","set stores the configured value in target_field, or, when the configured value is null or absent, the value found at copy_from; a missing copy_from field is a missing-key error and leaves the event unchanged; with neither a non-null value nor copy_from it succeeds without effect. Whenever something is stored this fails as Put does, with the event unchanged, if target_field names nothing or leads through a value that is no object.",
  "every event that owns its contents, every configuration whose value shares nothing with the event (else see C58, C65), and for copy_from every target that is not below it (else see C79)","all events", "pkg/processor/set/process.go:Set.Process")
p("C38","eventutil.Append","Append(evt, k, item) leaves at k the array of the previous elements (or the previous non-array value as single element, or nothing) followed by item, or by item's elements when item is an array; nil items change nothing; other keys are unchanged.",
  "every event that owns its contents (no object or array is in two places), every key and every item that shares nothing with the event","all events and items", "pkg/eventutil/event.go:Append")
p("C39","Protobuf conversion round trip","For an event with at least one field, no nil values, and top-level names that are non-empty and without backslash, FromEvent, Marshal, Unmarshal and ToLogEvent succeed and give a new event in fresh memory with the same top-level names and the same values, whatever order maps are iterated in, except that the names inside objects come back through EscapeKey (a nested name with a dot gains a backslash) and nil slices and maps come back empty; without those the event is exactly the same. An empty event comes back as a nil event, a nil value makes ToLogEvent or Marshal panic, and FromEvent of an event that contains itself does not terminate.",
  "every event (any depth and sharing), every map iteration order","all events, nesting, key bytes and iteration orders", f"{PB}:FromEvent", f"{PB}:ToLogEvent", f"{WB}:MessageWrapper.Marshal", f"{WB}:MessageWrapper.Unmarshal")
p("C40","Protobuf wire round trip","For every well-formed message m (no nil pointer as an array item or inside a set oneof; well-formed unknown fields with foreign numbers may be present in every message at any depth), Marshal returns bytes, Unmarshal of these bytes succeeds and yields m, and this whatever order Go iterates the maps in; so different messages have different bytes. Messages outside that domain are not preserved: an array value with a nil *ValueArray decodes as a value of no kind.",
  "every well-formed message (all value kinds, any nesting) below 2^63-8 bytes, every map iteration order at every level","unbounded messages and iteration orders", f"{WB}:MessageWrapper.Marshal", f"{WB}:MessageWrapper.Unmarshal")
p("C41","Size is exact and Marshal panics only on nil items","Marshal returns exactly Size() bytes, the protobuf encoding of the message, so the backwards writer never leaves the buffer nor leaves a gap; Size() does not depend on map iteration order; Marshal panics exactly when some array in the message has a nil item (Size() accepts that message).",
  "every message","arithmetic over all messages", f"{WB}:Value.Size", f"{WB}:Value.MarshalToSizedBuffer", f"{WB}:sovEvent", f"{WB}:encodeVarintEvent")
p("C42","Unmarshal is total","Unmarshal of arbitrary bytes, into a new message or into one that holds the result of an earlier Unmarshal, terminates with a message or an error; it never reads out of bounds or panics (Go's stack limit aside: the nesting depth is not limited by the code).",
  "every byte string shorter than 2^63-8 bytes","all byte strings; integer overflow of lengths", f"{WB}:Value.Unmarshal", f"{WB}:ValueObject.Unmarshal", f"{WB}:skipEvent")
p("C43","Unknown fields survive","Well-formed fields of any wire type (groups included) with numbers the message does not know, appended to any accepted bytes, are accepted, kept verbatim by Unmarshal and written back by Marshal behind the rest.",
  "every accepted byte string and every sequence of unknown fields","all byte strings", f"{WB}:MessageWrapper.Unmarshal", f"{WB}:Log.Unmarshal", f"{WB}:skipEvent")
p("C44","Which decoded messages convert","ToLogEvent returns nil exactly when the log or its object is missing; it panics exactly when some value in the message, at any depth, is missing or has no kind (Unmarshal accepts such bytes); otherwise it returns a new event owning fresh memory, existing memory unchanged, that holds every field of the message under its name (backslashes in top-level names are dropped, and with them fields whose name has nothing else).",
  "every message, hence every byte string that Unmarshal accepts","all inputs", f"{PB}:ToLogEvent", f"{PB}:toEventValue")
p("C45","Varint codec","Every uint64 is written in exactly sovEvent(v) (1 to 10) bytes and read back unchanged, with any bytes following.",
  "every uint64, every suffix","2^64 values", f"{WB}:encodeVarintEvent", f"{WB}:sovEvent")
p("C46","map[string]interface{} round trip","For a non-empty map whose names are non-empty and free of backslashes, holding values of the types FromEvent returns (nil, bool, int64, uint64, float64, string, UTC times within an int64 of nanoseconds, []interface{} and map[string]interface{} of those, without dots in the names of inner maps), FromEvent(ToEvent(m)) is m, whatever the map iteration order; for any other convertible values it is m with each value replaced by the one its event value stands for. ToEvent builds only new memory. An empty map comes back nil, dots in names of inner maps come back escaped, backslashes in names are lost, and an entry whose name is empty or all backslashes is silently lost.",
  "every map of Go values and every iteration order","arbitrary nesting and keys", f"{MI}:ToEvent", f"{MI}:FromEvent")
p("C47","ToEvent error contract","ReflectValue and ToEvent succeed exactly when the data holds nothing unsupported (channels, functions, complex numbers, unsafe pointers, a uintptr or interface variable in a pointer or struct field) and nothing that panics (a nil error in a field, an Error or String method that panics); they return an error only if something unsupported is inside, and panic only if something that panics is inside. Unexported, excluded and omitted fields do not count.",
  "every finite Go value tree","arbitrary nesting", f"{RF}:interfaceToValue", f"{RF}:reflectToValue", f"{MI}:ToEvent")
p("C48","Timestamps keep their nanoseconds","A timestamp value converted to time.Time and back gives the same Unix nanoseconds, without overflow on the way; a time.Time converted to a timestamp and back is the same exactly when its nanoseconds since 1970 fit an int64.",
  "every int64; every time.Time","2^64 values, sign and carry cases", "pkg/event/time.go:Time.GoTime", f"{RF}:interfaceToValue")
p("C49","JSON round trip","Encoding an event as JSON fails exactly if it contains a NaN or infinite float or nests deeper than 10000; otherwise decoding the result gives an event with the same fields except that integers come back as floats, timestamps as strings of their RFC 3339 text, nulls, nil slices and nil maps as nil pointers, and bytes that are not valid UTF-8 as U+FFFD (names that become equal that way merge, the last one wins). The decoded event equals the original exactly if that holds only nil, booleans, floats, valid strings, arrays and objects; in particular a decoded event survives every further trip unchanged. An event that contains itself cannot be encoded (the recursion does not end).",
  "every finite acyclic event and every heap it is decoded into; the exception for cyclic events","all events", f"{VA}:Value.MarshalJSON", f"{VA}:Value.UnmarshalJSON", f"{EV}:Event.UnmarshalJSON")
p("C50","JSON decoding: what is accepted and what it yields","Decoding accepts exactly the texts of the JSON grammar (RFC 8259) that are null or an object nested at most 10000 deep whose numbers fit a float64; the event gets the fields of the text (of equal names the last), in fresh memory; its values hold only strings, finite floats, booleans, arrays, objects and nil pointers at every depth - never integers, timestamps or null values - and all its strings and names are valid UTF-8.",
  "every byte string","all documents", f"{VA}:Value.UnmarshalJSON", f"{EV}:Event.UnmarshalJSON")
p("C51","CLI line handling","The CLI treats every line as if it were alone: whatever comes before or after it and however the input is split into reads, the event it makes carries the 1-based line number and the trimmed line, and what is written for it is the JSON of the processed event and a line feed, in input order. Blank lines are counted and skipped; a line that fails is logged and does not affect the others; written, logged and blank lines add up to the lines of the input. Up to a hundred reads in a row that deliver nothing make no difference; 101 end the input like an error of the reader. A reader error is reported after the partial last line has been processed; 65536 bytes without a line feed end the run and the rest of the input is lost. A failing writer takes a prefix of the output, and (contrary to expectation) the run still ends without an error.",
  "every input, split into reads, reader failure, writer failure, pipeline of the built-in processors whose configured values are leaves","unbounded inputs; all splits into reads; all failure points", "cmd/sawmill/sawmill.go:processInput")
p("C52","Configurations as JSON","The JSON of a ProcessorOptionConfig is one object with id, if and on_failure (unless empty) and the processor's own options, which replace the others if they have the same name; it is an error exactly for infinities, NaNs and nesting deeper than 10000. A document is accepted exactly if it stands for options (names of fields without regard to case, other entries by exact name, numbers in range), with that result; if several names of one object stand for the same field then a later text replaces an earlier one, but the elements of a later list are merged into the elements at the same places of all earlier lists (a place keeps what it has while a shorter list is there; null and [] clear all places); options and whole configurations that JSON can represent, and without option names like id, if and on_failure, come back equal from marshalling and unmarshalling, at every nesting, so New gives the same pipeline. A user expects this of all configurations: an option named id replaces the ID, an option named ID comes back as the ID too, on_failure lists under two spellings are merged as said, and the configuration null is accepted and then crashes New.",
  "every option config, every configuration and every byte string, at any nesting","arbitrary keys, nesting and texts", "pkg/pipeline/config.go:ProcessorOptionConfig.UnmarshalJSON","pkg/pipeline/config.go:ProcessorOptionConfig.MarshalJSON","pkg/pipeline/config.go:Config",f"{PL}:New")
p("C53","if conditions have no effect","Changing the if conditions of a pipeline changes nothing observable: conditions are never evaluated and a processor whose condition does not hold still runs. A user expects it to be skipped.",
  "every pipeline, event and replacement of conditions at any nesting level","all pipelines", f"{PP}:pipelineProcessor.Process")
p("C54","A failed Process keeps the changes made so far","When Process returns an error the event passed in keeps every change that processors made to it before the failure; it is not rolled back (and a run with such a change exists).",
  "every pipeline and event","all pipelines", f"{PL}:Pipeline.Process")
p("C55","Decoded messages survive a hop","If Unmarshal accepted some bytes, then Marshal of the result returns bytes that Unmarshal decodes to the same result again, even when the original bytes were written by another encoder (repeated fields, merged objects, unknown fields, overlong varints).",
  "every accepted byte string (shorter than 2^63-8, as is the new encoding)","all byte strings", f"{WB}:MessageWrapper.Marshal", f"{WB}:MessageWrapper.Unmarshal")
p("C56","The text of a timestamp denotes it","The JSON of a timestamp is a quoted RFC 3339 text which, read by the rules of the Gregorian calendar, is exactly that number of nanoseconds since 1970; so different timestamps have different texts, and different strings.",
  "every int64","2^64 values: leap years, month ends, negative times, trailing zeros", "pkg/event/time.go:Time.MarshalJSON", "pkg/event/time.go:Time.String")
p("C57","An encoded event is one tidy line","The JSON of an event is valid UTF-8 without control characters (so without line breaks), and without <, >, & and U+2028/2029, whatever names and strings the event contains; so events written one per line can always be told apart again, and the CLI's request not to escape HTML has no effect.",
  "every event, well-formed or not","all names and strings, valid UTF-8 or not", f"{EV}:Event.MarshalJSON", f"{VA}:Value.MarshalJSON", "cmd/sawmill/sawmill.go:processInput")
p("C58","A pipeline computes a function of the contents","What Process of a pipeline of the repository's processors does to an event - whether it panics, whether it fails and how, and the contents that it leaves - depends only on the contents of the event (and the configuration): not on how the event is laid out in memory, on other events, on counters or on earlier calls. Nothing outside the event is changed. The function is the composition of what the single processors do, with errors dropped or handed to on_failure as configured. Exception: once copy_from has met an array or object, two fields share it and contents alone do not decide what later processors do.",
  "every pipeline (nested on_failure to any depth), event, memory and counters","all pipelines and events", f"{PL}:Pipeline.Process", f"{PP}:pipelineProcessor.Process", "pkg/processor/set/process.go", "pkg/processor/lowercase/process.go", "pkg/processor/append/process.go")
p("C59","A configuration means what New builds","With the processors that a program registers, pipeline.New accepts a configuration exactly if it has an id, every entry names exactly one registered processor and its options can be filled in; it never panics; and the pipeline returned does what the configuration asks for, in its order. ignore_failure is honoured only for set and community_id: the other processors have no such option, and their failures (other than a missing key) always fail the pipeline unless on_failure processors handle them.",
  "every configuration, nested on_failure to any depth, and every way of filling in options","all configurations", f"{PL}:New", f"{PP}:newPipelineProcessor", "pkg/processor/registry/registry.go:NewProcessor", "cmd/sawmill/sawmill.go")
p("C60","A session with the C library","For every sequence of calls of Load and Process of the C library: a text that is not JSON of a configuration gives 1 and keeps what is loaded; a configuration that is refused gives 1 and unloads what was loaded; null crashes; else the answer is 0. Process answers with the JSON of what the loaded pipeline makes of the event, or an error text; with nothing loaded it crashes for every event (but not for a text that is not an event). The answers are determined by these texts alone, and an event in an answer contains no zero byte, so a C caller sees all of it.",
  "every sequence of calls","all histories of calls", "examples/c/cshared/main.go:Load", "examples/c/cshared/main.go:Process")
p("C61","The WebAssembly demo reports the first thing that is wrong","pipeline_execute reports, in this order: a wrong number of arguments, a configuration that is not JSON, one that is refused, an event that is not JSON, a failure of the pipeline. Else it returns the object that the JSON of the processed event denotes (equal to its fields except for what JSON cannot express). It crashes exactly for a null configuration, a null event (when there is a processor), a panic of the pipeline, and an event that cannot be encoded.",
  "every list of arguments","all texts", "examples/wasm/wasm.go:process", "examples/wasm/wasm.go:toObject")
p("C62","What the command line program does with a line","With a configuration that it accepts, what the program does with line number i is what the configuration makes of an event with the two fields @metadata.line_number = i and event.original = the line without surrounding white space: the JSON of the result, the logged error, or the crash.",
  "every configuration and every line of every input for which no copy_from meets an array or an object (see C58)","all configurations and inputs", "cmd/sawmill/sawmill.go:processInput", "cmd/sawmill/sawmill.go")
p("C63","Exported metrics","After any sequence of registering and unregistering the metrics of pipelines, a scrape shows each component ID and kind of counter at most once, with the current value of the counter of one pipeline: the first that registered that name since it was last unregistered by anybody. Names whose component ID is not valid UTF-8 are not shown. So a pipeline registered alone shows exactly the four counters of each of its processors, at every nesting; but of two pipelines with the same ID the second is silently not shown, and unregistering it removes those of the first (contrary to expectation).",
  "every sequence of Register and Unregister calls for any pipelines, and all counter values","all histories of calls", "pkg/metrics/metrics.go:Register", "pkg/metrics/metrics.go:Unregister", f"{PL}:Pipeline.Metrics")
p("C64","Decoding JSON into something that is in use","json.Unmarshal into an event replaces its contents: after any sequence of texts the event has the contents of the last accepted one, and a refused text changes nothing. Into a Value it does not (contrary to expectation): after any sequence of accepted documents a Value shows, if the last is an object, the entries of all objects ever decoded into it, even with other types in between; if it is an array, each element in the same way merges everything decoded at that position since the last empty array or null there, also positions that a shorter array had hidden in between. So exactly the documents without an object come out as they are whatever the Value held. A refused document changes neither type nor plain fields, but can leave part of an array or object behind. The fields for texts, booleans and floats keep what the last document of that kind had, whatever the type is now, and those for integers and timestamps are never set.",
  "every sequence of texts and documents, and every previous state of the value","all histories, any nesting", f"{VA}:Value.UnmarshalJSON", f"{EV}:Event.UnmarshalJSON")
p("C65","Goroutines that share one memory","Goroutines that call Process on one pipeline, each with an event of its own (events that share nothing but leaf values), when the configured set values are leaves: whatever the scheduler does between single memory accesses (a map lookup or store, a read of a Value, an allocation, an append, a counter increment), nothing crashes that does not crash alone, no two goroutines access the same map or Value with one of them writing (no data race), the number of steps is fixed and every goroutine gets to its end, each returns what it returns alone and leaves its event with the contents it has then, and the counters end as if the events were processed one after another. With an array as configured set value, or with the same event in two goroutines, there are schedules that race.",
  "every pipeline of the repository's processors, every number of goroutines, every memory, and every interleaving of single memory accesses","schedules at the granularity of memory accesses are astronomically many; the race detector sees one", f"{PL}:Pipeline.Process", f"{EV}:Event.Put,Event.Get", "pkg/processor/set/process.go:Process", "pkg/processor/append/process.go:Process")
p("C66","Independent calls can be made in any order","Two histories of Put, TryPut, Get and Delete on any number of events that differ only in the order of independent calls - calls on different events, two Gets, or calls whose keys are in different places, neither path beginning with the other (a Delete counts as its whole top-level entry) - leave the same contents in every event, and every call returns the same in both. A call at or below a key leaves no trace if the next call is a Put of a value at that key.",
  "every number of events, every history, every reordering by exchanging independent neighbours","all histories and permutations", f"{EV}:Event.Put", f"{EV}:Event.TryPut", f"{EV}:Event.Get", f"{EV}:Event.Delete")
p("C67","A nil event","Process of a nil *Event (what the text null decodes to) panics as soon as a processor looks at the event: lowercase, uppercase and append always do, set does if it has a value and its key is not empty, or has no value but a source. If it does not panic, the outcome is that of an event without contents, and nothing is changed.",
  "every pipeline of the repository's processors, nested on_failure to any depth","all pipelines", f"{PL}:Pipeline.Process", f"{EV}:Event.Get", f"{EV}:Event.Put", "pkg/processor/set/process.go:Process")
p("C68","An event is the sum of its leaves","Take any contents, not empty, whose names can be written in keys (not empty, no backslash) and that have no nil values. Put every leaf (scalar, array or empty object) under the key that spells its names into a new event, in any order: the event then has exactly those contents, every Put succeeds and none finds anything in its place.",
  "every contents, any nesting, and every order of the leaves","all trees and permutations", f"{EV}:Event.Put", f"{EV}:keyToPath")
p("C69","Unmarshal reads exactly the protobuf wire format","Unmarshal accepts a byte string exactly if it is a message of the wire format, and returns the message that the bytes are: fields in any order and number, varints of any length up to ten bytes, the last member of a oneof, the last entry of each key, the objects of a log merged, a second log replacing the first, unknown fields (nested groups included) kept in order; all else is an error. So decoding two messages one behind the other is decoding the second into the first. In map entries the decoder is more liberal than the format: wire types do not matter, and a key or value may reach beyond the entry.",
  "every byte string (shorter than 2^63-8) and every message decoded into","all byte strings, any nesting", f"{WB}:MessageWrapper.Unmarshal", f"{WB}:Log.Unmarshal", f"{WB}:Value.Unmarshal", f"{WB}:ValueArray.Unmarshal", f"{WB}:ValueObject.Unmarshal", f"{WB}:skipEvent")
p("C70","A program sees only the contents of its events","A sequential program with any number of events and pipelines, which creates events, calls Put, TryPut, Get and Delete with newly made values, runs pipelines, and converts events to and from JSON, protobuf messages and Go maps in any order, gets the replies that follow from the contents of the events alone, up to the first panic (or until a copy_from has met an array or an object): they do not depend on memory, on what other events contain, on the counters, or on map iteration order (except for mapinterface.ToEvent with names that differ only in backslashes or with several offending values). Leaving out all calls on one event changes nothing for the others.",
  "every program (finite sequence of calls), every set of pipelines of the repository's processors, every initial memory","unbounded histories that mix all packages; tests exercise one package at a time", f"{EV}:New", f"{EV}:Event.Put", f"{EV}:Event.UnmarshalJSON", f"{EV}:Event.MarshalJSON", f"{PL}:Pipeline.Process", f"{PB}:FromEvent", f"{PB}:ToLogEvent", f"{MI}:FromEvent", f"{MI}:ToEvent")
p("C71","The printed text of a value","Printing a value gives <type>:<contents>: null_type:<nil>, decimal numbers, a timestamp as its number of nanoseconds, strings as they are without quotes, array elements and object fields (in name order) printed the same way with single spaces between, <nil> for a nil pointer, unknown_type:<nil> for a value whose type is none of the nine. The text depends on the contents only; it shows the type; for leaves other than floats it determines the value; for containers it does not. A value that contains itself has no text.",
  "every value tree of any depth, in every heap","all trees and all strings", f"{VA}:Value.Format", f"{VA}:ValueType.String")
p("C72","Configured values","Unpacking any Go value into the value option of a processor either fails and leaves the option as it was (exactly if something unsupported is inside), panics (only if something inside does), or makes a processor that sets the value the Go value stands for; everything mutable in it is new. Null is copied, so the global null value cannot be reached from options. Two processors made from the same unpacked options share the maps inside.",
  "every Go value of any nesting, every option variable, every heap, every event","all Go values", "pkg/config/config.go:EventValue.Unpack", "pkg/eventutil/reflect.go:ReflectValue", "pkg/processor/set/set.go:New")
p("C73","Goroutines that use the library as they like","Goroutines that keep pointers and make any calls, each deciding on the next call from all replies so far - making events and values, putting the same value into several places, Put, TryPut, Get, Delete, Process, reading values through pointers, comparing pointers, json.Marshal - on events and values of their own, and that besides read events which all of them share. If the memory they reach on their own is disjoint from the others' and from the shared events, up to values without parts, the configured set values are such, and each ends without panic when it runs alone: then whatever the scheduler does between single memory accesses, nothing crashes, no two goroutines race, each returns what it returns alone and sees the same in its events and values, the shared events do not change, and the counters end as if they had run one after another.",
  "every number of goroutines, every adaptive program, every memory including cyclic values, every interleaving of single memory accesses","all schedules and all client programs; the race detector sees one run", f"{EV}:Event.Put", f"{EV}:Event.Get", f"{EV}:Event.Delete", f"{EV}:Event.MarshalJSON", f"{VA}:Value.MarshalJSON", f"{PL}:Pipeline.Process")
p("C74","Where values are in memory does not matter","Two states of a program that are equal up to the addresses of things (with the same sharing of values and the same cycles): any further sequence of calls, adaptive and with pointer comparisons, panics in both or in neither, gives the same replies and the same counts, and leaves states equal up to addresses. Equal contents alone are not enough: if the same object is under two names, a Put through one is seen through the other.",
  "every adaptive program, every two memories equal up to a renaming of addresses","all memories, including shared and cyclic values", f"{EV}:Event.Put", f"{EV}:Event.Get", f"{EV}:Event.Delete", f"{VA}:Value", f"{PL}:Pipeline.Process")
p("C75","The order of independent processors does not matter","Two pipelines without global on_failure processors that differ only in the order of processors none of which assigns a field that another one looks at or assigns (counting the fields of their on_failure processors; a field counts with everything inside and around it): Process succeeds with both or with neither, and after success the event has the same contents. After a failure the contents may differ, because the processors after the failing one have not run.",
  "every pipeline of the repository's processors with nested on_failure, every reordering, every event that owns its contents (as all events built by the API from new values do)","all pipelines, permutations and events", f"{PL}:Pipeline.Process", "pkg/processor/set/process.go:Process", "pkg/processor/append/process.go:Process", "pkg/processor/lowercase/process.go:Process", "pkg/processor/uppercase/process.go:Process")
p("C76","Workers that hand events on","Stages of worker goroutines connected by channels (capacity at least one, any order of delivery), where a worker receives a message with events and values, makes any calls of C73 on them, and sends all of them on, keeping nothing. If what two messages reach is disjoint up to values without parts, the configured set values are such, and a single worker that takes one message after the other through all stages does not panic: then with any number of workers per stage, whatever the scheduler does between single memory accesses, nothing panics, no two workers race, there is no deadlock, the number of steps is fixed, every message comes out with the payload and the contents that the single worker gets, and the counters end the same. A worker that keeps an event which it has sent on can race.",
  "every number of stages, workers and messages, every adaptive program of a stage, every memory, every interleaving and every order of delivery","all schedules; the race detector sees one run", f"{EV}:Event.Put", f"{EV}:Event.Get", f"{EV}:Event.Delete", f"{EV}:Event.MarshalJSON", f"{PL}:Pipeline.Process")
p("C77","The code generator","For each processor in processors.yml the generator writes a file that gofmt makes of a text whose Go tokens are exactly: the package clause, each import that a type needs once, init, the name constant, a Config struct with one field per option in the order of their names (Go name, type, config tag, validate tag if required), InitDefaults with an assignment for exactly the options that have a default (also false and 0), the type, New, Config and String, and Process if the old file is missing, is not Go, or declares Process. Nothing in a description is ever read as code: a comment has exactly the lines of the wrapped text (less a blank first and last line), each behind the comment marker and without trailing white space. A string default is a string literal with the text that strconv.Quote makes of it. All other files stay as they are. If a file cannot be made (a line that is too long, a text that is not Go) the generator stops: that file stays as it was, and every other file is as it was or has been written as it should. The order of options in the YAML, map iteration order and the sorting algorithm make no difference, and running the generator again changes nothing. The Go name of an option depends only on its words: names that differ only in dots, underscores and at signs collide.",
  "every processors.yml with distinct names that are identifiers, every description whatsoever, every state of the old files, every map iteration order","all texts (a comment that can be escaped is an injection), all orders", "internal/proctemplate/funcs.go:descriptionToComment", "internal/proctemplate/funcs.go:goTypeName", "internal/proctemplate/funcs.go:configTypeImports", "internal/proctemplate/funcs.go:selectDefaults", "pkg/processor/generate/generate.go:main", "pkg/processor/generate/generate.go:hasProcessFunc", "pkg/processor/generate/assets/processor.go.gotmpl")
p("C78","The documentation generator","The documentation has one processor of each map in the list (whichever the iteration yields first: with two in one map the other is left out), in the order of their names, with a link and a section for each; the table of a section has one row per option in the order of their names, which is one line whatever the description contains (if name, type and default are), and whose cells are name, required, optional, type, default and description; defaults that are false, zero or empty are not shown. If every map has one processor and names differ, the text is determined by processors.yml.",
  "every processors.yml, every map iteration order","all texts and all orders", "docs/generate/generate.go:main", "docs/generate/generate.go:goTypeToYAMLType", "docs/generate/assets/README.md.gotmpl", "docs/generate/assets/processor.md.gotmpl")
p("C79","Events that contain themselves","An event comes to contain itself when a value of it is stored below itself: if `Put` or `TryPut` with a value that `Get` returned for a proper prefix of the key succeeds, or `set` whose `copy_from` is above its target field reports success, then one can go deeper into the event for ever. From such an event no protobuf message, no JSON, no Go map and no printed text ever comes out, whatever the stack allows. On every other event, however much of it is shared, all of these come to an end, and events whose contents is a finite tree are never affected. No call leaves a dangling pointer.",
  "every memory, event, key, value and processor configuration, events that share parts or already contain themselves included, and every bound on the recursion",
  "tests build one cycle at a time and cannot distinguish a very deep recursion from an endless one",
  EV+":Event.Put",EV+":Event.TryPut",VA+":Value.MarshalJSON",PB+":FromEvent",MI+":FromEvent","pkg/processor/set/process.go:Set.Process")
p("C80","The command line program as a whole: flags, exit status, files","Arguments are understood exactly if they are settings of the four flags (`-name=value`, `--name=value`, or the value as the next argument, whatever it looks like) up to the first argument that is no flag, or up to `--`; a flag has the last value it was given, or its default; help is shown exactly if `-h` or `-help` follows such settings. Arguments that are not understood touch nothing and give status 2 (help: 0). The input is read and output written exactly if the arguments are understood, the profiles asked for can be created and the pipeline file is read, decoded and accepted; then exactly what `processInput` does is done. The status is 0 exactly if, moreover, `processInput` returns without error and the profiles can be written (or help was shown): lines that fail do not show in the status. No file but the two profiles is changed. Profiles are created before the pipeline file is read, and written only when the program returns or panics: after any error that ends the program they are left empty, and a pipeline file named as a profile is lost. A document that decodes to nil crashes the program (status 2).",
  "every list of arguments, files, input, writer, way of decoding pipeline files, registry of processors","all argument lists and environments", "cmd/sawmill/sawmill.go:main", "cmd/sawmill/sawmill.go:loadPipeline", "cmd/sawmill/sawmill.go:bufferedFileWriter", "cmd/sawmill/sawmill.go:processInput")
p("C81","Events through map[string]interface{} and back","For every event, ToEvent(FromEvent(evt)) succeeds, whatever the map iteration order, and gives a new event that shares nothing with the old one, which is unchanged. Nil pointers inside come back as null values, nil arrays and objects as empty ones, and dots in the names of inner objects get a backslash in front; every other value at every depth comes back as it was, timestamps to the nanosecond. A top-level name that is not empty and has no backslash keeps its value under the same name; other top-level names lose their backslashes, and are lost with their values if nothing remains. So an event with such names, no nils inside and no dots in names of inner objects comes back equal.",
  "every event whose values form a tree, every memory, map iteration order","all events and iteration orders", MI+":ToEvent", MI+":FromEvent", MI+":fromEventValue", RF+":ReflectValue")
p("C82","JSON through plain Go maps","json.Marshal(FromEvent(evt)) for an event with fields is an error exactly if there is a NaN or an infinity inside (there is no limit to the nesting); it is the same text as json.Marshal(evt) whenever that succeeds and there are no nil arrays and objects inside (null in the event's JSON, [] and {} in the map's); and it says the contents. For an event without fields it is null, not {}. json.Unmarshal into a map[string]interface{} accepts the same texts as into an event, and ToEvent of that map gives the same contents as decoding into an event, changed as in C81 (nulls become null values, dots in names of inner objects get a backslash, backslashes in top-level names are lost): exactly the same if the text is not the empty object and has no null, no dots in inner names, and no empty names or backslashes at the top.",
  "every event, every byte string, map iteration order, float formatting and parsing","all events and texts", MI+":FromEvent", MI+":ToEvent", EV+":Event.MarshalJSON", EV+":Event.UnmarshalJSON", VA+":Value.UnmarshalJSON")
p("C83","What New reports","If the configuration has no ID, that is what New reports, whatever else is wrong. Otherwise it answers as if it read the entries in the order of the file (each entry, then the processors of its on_failure, then the next entry; the global on_failure last): it returns a pipeline exactly if nothing is wrong with any entry; otherwise the first entry with which something is wrong decides: no processor, several processors, a constructor that fails, an unusable Config method, or a panic of the constructor or of the Config method. Nothing after it has a say. If a constructor failed, the text of the error is `failed constructing processor with ID <component ID>: <its error>`, errors.Is and errors.As see the constructor's error, and the component ID leads to one entry only, whatever the processors are called. All other errors have a fixed text that does not say where the entry is.",
  "every configuration of any nesting, every registry of processors, including constructors that fail or panic","all configurations and combinations of faults", "pkg/pipeline/pipeline.go:New", "pkg/pipeline/processor.go:newPipelineProcessors", "pkg/pipeline/processor.go:newPipelineProcessor", "pkg/pipeline/processor.go:ignores", "pkg/pipeline/config.go:ProcessorConfig.getProcessor")

p("C84","The text of a processor","The String method of a processor gives its name, `=`, and a JSON object with every option under its Go name in the order of the declarations, followed by a line feed; apart from that last byte there are no control characters, so that it is one line. Texts are shown as they are (`<`, `>` and `&` too; invalid UTF-8 is shown as U+FFFD), a nil list as null. A configured event value is shown with all fields of the struct, whatever its type; the values inside it are shown as event JSON. If a configured value contains NaN or an infinity (also in a field that its type does not use) or is nested too deeply for encoding/json, the text is only the name and `=`. Two processors with the same text of the first kind, with options in valid UTF-8, are of the same kind and have the same options, except for what is inside a configured array or object.",
  "every processor of the package with every configuration (configured values that are finite trees of any depth)","all texts, bytes and values", "pkg/processor/api.go:ConfigString", "pkg/processor/set/set.go:Set.String", "pkg/processor/remove/remove.go:Remove.String", "pkg/config/config.go:EventValue")

p("C85","Arrays keep their elements","The array of a Value behaves as a list of its own, although it is a Go slice with a backing array: whatever goroutines do with values and events (API calls, pipelines, eventutil.Append), in whatever order and whatever capacity the runtime gives to slices, a value shows exactly the elements it was made with and those appended to it, as long as no two Values have slices of one backing array with room; and nothing in the library ever makes two such Values. Elements that a slice showed once are never overwritten. If code outside copies a Value struct (also inside a set Config) or passes one slice twice to event.Array, this remains so exactly if none of the sharing slices has room; otherwise one or two appends make a value show an element that was appended to another one.",
  "every memory with any sharing of backing arrays, every program of calls on any number of goroutines, every schedule, every choice of capacities","schedules, capacities chosen by the runtime and sharing are unbounded; a test sees one growth policy", "pkg/processor/append/process.go:Append.Process", "pkg/eventutil/event.go:Append", f"{VA}:Array", "pkg/processor/set/set.go:New")
p("C86","What errors say","The error of Put and TryPut says exactly which of its reasons it is and shows the path of the key; errors.Is finds the matching exported error; different reasons have different texts, and the path can be read off if no name contains a slash (else it is ambiguous). The text of the error that Process returns is determined by the configuration and the contents of the event, and whatever the event contains it is one of finitely many texts computed from the configuration alone: nothing of the event is shown in an error. If no text is possible there is no error.",
  "every event and key, every pipeline of the repository's processors","all contents of events and all configurations", EV+":Event.put", EV+":pathString", "pkg/processor/error.go:ErrorKeyMissing.Error", "pkg/processor/lowercase/process.go:Lowercase.Process", "pkg/processor/append/process.go:Append.Process", "pkg/processor/set/process.go:Set.Process")

p("C87","What the registry says","Names in the messages of the registry are quoted: the quoted form of any string of bytes is an interpreted string literal of Go that denotes exactly those bytes, ends at its first unescaped quote whatever follows, has no control characters, and is the string itself between quotes if that is printable ASCII without quotes and backslashes; so different names never give the same message. Register refuses with the message that the name is taken exactly if it is, else with the message for the first requirement that the constructor does not meet; it panics exactly for a nil interface or if a constructor that meets all of them panics on the zero configuration, and MustRegister exactly if Register panics or refuses. NewProcessor says `processor type <quoted name> not found` exactly for names never successfully registered, and if New stops at an entry with such a name it says that together with the component ID.",
  "every name, every history of registrations, every configuration","all byte strings as names, all histories", "pkg/processor/registry/registry.go:Registry.Register", "pkg/processor/registry/registry.go:Registry.NewProcessor", "pkg/processor/registry/registry.go:validateConfig", "pkg/processor/registry/registry.go:MustRegister", "pkg/pipeline/processor.go:newPipelineProcessor")

p("C88","What errors about Go values say","ReflectValue, mapinterface.ToEvent and EventValue.Unpack return an error exactly if, following the data in the order in which it is visited (maps in the order of the iteration), a place of an unsupported type comes before everything that panics. The text is `eventutil: unsupported type: <type>` with the type of that first place, preceded by `failed on key <quoted name>: ` for every name on the way to it in values of type map[string]interface{}, outermost first (list positions, struct fields and names in maps of other types are not mentioned); names and type can be read off the text, and errors.As finds the UnsupportedTypeError with that type.",
  "every Go value without cycles, every order of map iteration, every memory","all values of all types and nesting depths", RF+":ReflectValue", RF+":interfaceToValue", RF+":reflectToValue", RF+":UnsupportedTypeError.Error", MI+":ToEvent", "pkg/config/config.go:EventValue.Unpack")

p("C89","What callers of the programs read","The C library returns a string for a result as well as for an error, and a caller can tell which: whatever was called before, an answer reads as JSON exactly if it is the event (null or an object, complete, since it has no zero byte); an error of a pipeline is never JSON, even when a zero byte in a configured name cuts it short. From the string that the WebAssembly demo returns it can be read what went wrong - the arguments, the text of the configuration, the configuration, the text of the event, the processing - and the error. The command line program prints to standard error one line for each line of the input that failed, in their order, with its number and the error, and nothing else but at last the error of the reader; from that text the numbers and errors can be recovered, and no input can make it look otherwise. (A line feed in a configured name can: one failure may then look like two.)",
  "every sequence of calls, every input and configuration, every text","all sessions, inputs and texts", "examples/c/cshared/main.go:Process", "examples/wasm/wasm.go:process", "cmd/sawmill/sawmill.go:processInput", "cmd/sawmill/sawmill.go:main")

p("C90","The command line program answers as it goes","The program can be used at the end of a pipe that stays open: whenever it calls Read to get more input, it has written to its output and to its log exactly what it writes and logs, from beginning to end, for an input that consists of the whole lines received so far (those whose line feed has arrived). No answer waits for a later line or for the end of the input, however the input is cut into pieces; fewer than 65536 bytes of an unfinished line are held. What it has done by then does not depend on what comes later. If it is killed at any moment, what it has written and logged is the beginning of what it would have written and logged.",
  "every input, every way of cutting it into reads, every pipeline, every writer, every moment","all inputs, all schedules of reads and all points at which the program may be killed", "cmd/sawmill/sawmill.go:processInput", "cmd/sawmill/sawmill.go:main")

p("C91","Reading protobuf messages with their getters","A Go program that has a message, made from an event or received as bytes, reads the event with the getters: at every position (a top level name, then names in objects and indices in arrays) they give the kind of the value that is there, its contents, and zero for everything else; where there is nothing, or a nil pointer anywhere on the way, all give zero and none panics. The order in which maps were encoded makes no difference. What is read determines the event; without GetKind it does not, since zero values read like absent ones. XXX_Marshal writes the encoding to the end of the array behind the slice that it is given and returns the first bytes of that array: that is the encoding if the capacity is Size(), the previous contents of the array if it is at least twice that, and a panic if it is smaller. Marshal of a part of a message gives what the part contributes to the whole. MarshalTo writes the encoding to the beginning of the array behind the slice, up to its capacity, leaves the rest of the array alone and panics if there is no room; MarshalToSizedBuffer writes it to the end of the slice.",
  "every event, every position, every order of iteration, every message and array","all events, positions, orders of iteration and messages", PB+":FromEvent", "pkg/serialization/protobuf/event.pb.go:MessageWrapper.GetLog", "pkg/serialization/protobuf/event.pb.go:Value.GetKind", "pkg/serialization/protobuf/event.pb.go:Value.XXX_Marshal", "pkg/serialization/protobuf/event.pb.go:Value.MarshalTo")

p("C92","lowercase and uppercase convert text character by character","On a string field lowercase stores the text that has each character of the field replaced by its lower case: of A to Z the small letter, of every other ASCII character itself, of other characters what Unicode's one-to-one mapping says. Bytes that are not part of valid UTF-8 become U+FFFD, so that the result is always valid UTF-8, and a text stays as it is exactly if it is valid UTF-8 and all its characters stay. ASCII text keeps its length; of other text the number of bytes can change. Text that is not cut within a character can be converted piece by piece. Run again on its own result, the processor succeeds and changes nothing. The same holds for uppercase.",
  "every sequence of bytes, every Unicode mapping (for running again: those that map converted characters to themselves), every event that owns its contents and every field","all texts, also those that are not valid UTF-8", "pkg/processor/lowercase/process.go:Lowercase.Process","pkg/processor/uppercase/process.go:Uppercase.Process")
p("C93","A pipeline file is read as YAML","From the document in the file the program takes the pipeline's ID, description, processors and failure handlers, from what is under exactly these names; each is empty if it is null or not there, and what is under other names is not looked at. A text field takes the text of any scalar (id: 5 is the ID 5). A processor is a mapping from names to options, whose id, if and on_failure are read likewise and all other entries become its own options, with integers as integers. Two keys with the same text in one mapping, and anything of another shape, are an error; a null document is accepted and crashes New; entries with a null key are left out. The order of the entries does not matter. A JSON configuration (no name twice in an object, names of fields spelled exactly) that is accepted as JSON is accepted as YAML and gives the same pipeline or the same error, if processors take integers as they take the floats of the same text. Every configuration in which no own option is named id, if or on_failure can be written.",
  "every tree of nodes that a YAML parser can give (aliases expanded, no merge keys), every JSON document, every factory","all documents of all depths", "cmd/sawmill/sawmill.go:loadPipeline", "pkg/pipeline/config.go:Config","pkg/pipeline/config.go:ProcessorConfig","pkg/pipeline/config.go:ProcessorOptionConfig")
p("C94","Merge keys in a pipeline file are abbreviations","A pipeline file may use anchors, aliases and merge keys (<<). It is read exactly like the file in which every mapping with a merge key is replaced by the mapping that has, besides its own entries, those of the mapping under << that it does not have itself; if a list of mappings is under <<, the first of them that has the name counts, and merge keys within the merged mappings count in the same way, after the mapping's own entries. Own entries win wherever << stands in the mapping. Anything else under a merge key, and a key that occurs twice in the mapping or in one that is merged into it, is an error. A quoted \"<<\" is an ordinary name.",
  "every tree of nodes with merge keys, to any depth of merging and nesting, whose keys are scalars and strings where a merge is involved","all documents and all ways of merging", "cmd/sawmill/sawmill.go:loadPipeline", "pkg/pipeline/config.go:Config","pkg/pipeline/config.go:ProcessorConfig","pkg/pipeline/config.go:ProcessorOptionConfig")
p("C95","What the generators read from processors.yml","A processors.yml stands for a list of maps from names to processors: it is a mapping whose only keys are common_fields and processors; each processor has only description and configuration, each option only name, type, required, optional, default and description, and merge keys count as the entries that they bring in (C94). What is not there is empty, false or no default; null is the same, except that a null among the options is left out and a null default is no default. A misspelt key anywhere among these, a repeated key or anything of another shape is refused, and then both generators write nothing. If the document stands for a schema, both generators do exactly what is claimed of that schema (C77, C78), whatever the order of the keys in the file. A document that is null crashes both; an unreadable or empty file is refused; in all these cases every file is left as it is.",
  "every tree of nodes with merge keys, every file system and every environment of the generators","all documents", "internal/proctemplate/schema.go:ReadProcessorsYAMLFile", "pkg/processor/generate/generate.go:main","docs/generate/generate.go:main","pkg/processor/processors.yml")
p("C96","Dividing a pipeline, and names","New accepts a pipeline exactly if it accepts the two pipelines into which its list of processors can be cut at any place (with the same global on_failure processors). Without global on_failure processors, processing an event in the whole pipeline and processing it in the first part and then, if that returned it, in the second part come to the same: the same event or nothing is returned, the same error, and the same memory is left (the counters aside). With global on_failure processors the whole pipeline still does what the first part (without them) and then the second does as long as the first part returns no error, and what the first part with them does when it does; but giving the event to the two pipelines in turn does not come to the same, because a failure that the first one handles does not keep the second one from running. Configurations that differ only in the ID of the pipeline and in the IDs and `if` conditions of processors (and in no options against empty ones) give pipelines that do the same.",
  "all processors (any programs, failing and panicking ones included), all ways of cutting the list, all events, all starting memories and all nested on_failure processors","Tests run a handful of fixed pipelines; that where the list is cut and what is named how makes no difference is a statement about pairs of pipelines of any size.",
  "pkg/pipeline/pipeline.go:New","pkg/pipeline/pipeline.go:Pipeline.Process","pkg/pipeline/processor.go:newPipelineProcessor","pkg/pipeline/processor.go:pipelineProcessor.Process")
p("C97","Processing an event twice","An event that is processed a second time by the same pipeline comes out as it did the first time: it is returned or not, with the same error or none, and its contents stay as the first time has left them - provided that no processor assigns a field (or one inside or around it) that another one reads or assigns, that a processor either reads a field apart from the one it assigns or converts it in place (with a conversion that is idempotent), and that none is an append; on_failure processors, per processor and global ones, included. A failing processor has not changed the event, so a redelivered event fails in the same way. append adds its value again, and a lowercase of a.b into a fails the second time.",
  "all pipelines of such processors of any length and nesting, all events that own their contents, missing fields and values of the wrong type included, as long as no copy_from meets an array or an object","Tests run each processor once on a few events; that running a pipeline again changes nothing quantifies over pipelines and events.",
  "pkg/pipeline/pipeline.go:Pipeline.Process","pkg/processor/set/process.go:Set.Process","pkg/processor/lowercase/process.go:Lowercase.Process","pkg/processor/uppercase/process.go:Uppercase.Process","pkg/processor/append/process.go:Append.Process")
p("C98","Values put together by hand","The fields of a Value are exported, so a program can fill in several of them, or a type that does not exist. What a value holds in fields that its type does not name appears nowhere: the event's JSON, the printed text, the protobuf message and the Go map are those of the same event with such fields cleared. Get, Put, TryPut, Delete and pipelines of the built-in processors, too, answer alike and leave the event alike, as long as only objects have something in the Object field; a string with a map there is the exception: Get reads the map's entries as fields below the string, while Put says that the string is no object. A value of an unknown type, at any depth, is null in the event's JSON and unknown_type:<nil> in printed text, and makes the conversions to protobuf messages and to Go maps panic (if the stack is not exhausted first); nothing else makes them panic.",
  "all memories, all events with any values, shared and cyclic ones included, all keys, all pipelines of built-in processors","Tests build values with the constructors, which fill in one field; combinations of fields are not tried.",
  VA+":Value",EV+":Event.Get",EV+":Event.put",VA+":Value.MarshalJSON",MI+":FromEvent",PB+":FromEvent")
p("C99","What a pipeline does not name","Process changes only the fields that its processors (on_failure processors included) are configured to assign: Get of any field that is neither such a field nor inside or around one reads the same after Process as before, whether Process fails or not. And its outcome does not depend on fields that are not named: any sequence of Put, TryPut, Get and Delete calls on fields that are neither the ones the processors look at or assign nor inside or around them (a Delete counts as its whole top-level entry; a Get may be of a field that is only looked at) can be made before Process or after it: the calls give the same answers, Process returns the same and fails with the same error, and the event ends up with the same contents; a panic in one order is a panic in the other.",
  "every pipeline of the repository's processors with nested and global on_failure processors, every event that owns its contents (as all events built by the API from new values do) as long as no copy_from meets an array or an object, every sequence of calls with new values, any field","Tests compare a few events; that all other fields are left alone, and that nothing else matters, quantifies over all fields of all events.",
  PL+":Pipeline.Process",EV+":Event.Get",EV+":Event.Put",EV+":Event.Delete","pkg/processor/set/process.go:Set.Process","pkg/processor/lowercase/process.go:Lowercase.Process","pkg/processor/append/process.go:Append.Process")
p("C100","An event that travels several times","An event can be converted to a protobuf message, sent as bytes, decoded and converted back, or converted to a Go map and back, again and again. Every such trip of either kind puts one more backslash in front of every dot in the names inside objects (top-level names stay, nil slices and maps become empty ones, everything else is kept): after n trips there are n. So if there is such a dot the contents after different numbers of trips are always different, and the message grows by at least a byte per dot and trip, without bound. If there is none, the contents are settled after the first trip, and if no slice or map is nil the event has the same contents and the same JSON text after any number of trips. The trips do not fail.",
  "every event that can travel (at least one field, no nils in place of values, top-level names that are not empty and have no backslash), every number and mixture of trips, every iteration order of the maps, as long as each message has fewer than 2^63 - 8 bytes","Tests make one trip; that all mixtures of trips agree, and that the names grow without bound, is a statement about all numbers of trips.",
  PB+":FromEvent",PB+":ToLogEvent",MI+":FromEvent",MI+":ToEvent",EV+":Event.Put",RF+":ReflectValue")
p("C101","Short messages with very many values","The number of values in a message that Unmarshal accepts is not bounded by the number of its bytes: because the contents of a map entry may reach beyond the end of the entry, bytes can be read twice, at every level again. For every n there is a message of at most 46 n + 22 bytes that Unmarshal turns into 2^n - 1 values (so a message of less than 4700 bytes has more than 10^30, and decoding it does not end in practice). It cannot be worse than that: a message of n bytes has fewer than 2^n values. Marshal never writes such a message: what it writes has at least one byte for each value. The map entries are the only reason: a message whose entries all keep to their ends is accepted and has no more values than bytes, and what Marshal writes for a well-formed message is such a message.",
  "every n below 2^57; every byte string shorter than 2^63 - 8; every message without nils in place of values","Tests decode what Marshal has written; a bound on what other bytes can do is a statement about all byte strings.",
  WB+":ValueObject.Unmarshal",WB+":MessageWrapper.Unmarshal",WB+":MessageWrapper.Marshal")
p("C102","What calls take in memory","Counting one for a value, one for a map, one for each item of a slice and one for each entry of a map: Get takes at most one, and nothing unless it is asked for the whole event; Delete takes nothing; Put and TryPut take at most three for each name of the key, less one (and that can be reached). Process takes at most an amount that can be read off the configuration (the sum over all its processors, with those of all on_failure lists), however large the event is and whatever fails; so the command line tool takes at most a fixed amount for each line. Decoding a JSON text takes at most one for each byte. But the size of an event in memory says little about its size in JSON: for every n below 10000 there is a pipeline of 2n set processors (with copy_from) that makes an event with one string into one that takes 5n more in memory and has at least 2^n bytes of JSON.",
  "every memory and event (shared and cyclic ones too), every key and value; every pipeline of the repository's processors; every input; every JSON text; every n below 10000","Tests do not measure memory, and a bound for all events, configurations and texts cannot be tested.",
  EV+":Event.Put",EV+":Event.Get",EV+":Event.Delete",EV+":Event.UnmarshalJSON","pkg/pipeline/pipeline.go:Pipeline.Process","pkg/processor/set/process.go:Set.Process","cmd/sawmill/sawmill.go:processInput")
p("C103","The registry and New used by several goroutines","Goroutines that only call NewProcessor never race with each other, in any schedule, and each gets the result it gets alone; they can all come to their ends. New calls the registry only through NewProcessor, so any number of goroutines may call New at the same time, and each gets the pipeline or error that it gets alone. But the registry has no lock: while one goroutine registers a valid constructor under a new name, any other call of NewProcessor, New or Register is a data race in some schedule, whatever its name; and two goroutines that register the same new name can both succeed, and then the second constructor has replaced the first (between goroutines a name is not write-once, see C32).",
  "every registry, every number of goroutines, every program of calls whose next call may depend on earlier results, every configuration, every schedule of single accesses to the map","Schedules cannot be enumerated by tests; the race detector sees only those that happen.",
  "pkg/processor/registry/registry.go:Registry.Register","pkg/processor/registry/registry.go:Registry.NewProcessor","pkg/pipeline/pipeline.go:New")
p("C104","Memory without nils never crashes","As long as no nil is anywhere in the values (every item of an array and every field of an object is a value, and every object has a map), nothing crashes and none appears, however values are shared between events, and even if they contain themselves: Get, Put, TryPut, Delete and eventutil.Append (of values or nil) return; Process of any pipeline that New makes of the repository's processors returns, whether or not it fails, and can be called again and again; decoding a JSON object without null keeps memory free of nils; the protobuf message made from an event can be marshalled; the C library does not panic on the JSON of an event without null; and the command line tool does not panic on any input, however reading and writing fail. (What can still happen is that an event that contains itself is encoded, which exhausts the stack.) For processors of any kind: whatever condition on the world makes each of their calls return and still holds afterwards makes Process return and still holds afterwards.",
  "every memory without nils, with any sharing and cycles; every key, value, configuration, JSON text and input of the tool; every pattern of failing writes; every kind of processor for the general form","all memories, cyclic ones included, and all sequences of calls",
  EV+":Event.Get",EV+":Event.Put",EV+":Event.TryPut",EV+":Event.Delete","pkg/eventutil/event.go:Append","pkg/pipeline/pipeline.go:Process","pkg/pipeline/processor.go:Process","cmd/sawmill/sawmill.go:processInput","examples/c/cshared/main.go:Process","pkg/serialization/protobuf/protobuf.go:FromEvent")
p("C105","Encodings cut off or joined","What a reader sees of encodings whose end is missing (a crash or a short write in between), or that follow one another without framing. Protobuf: if Unmarshal accepts bytes then, whatever number of bytes is cut off their end, it either returns unexpected EOF or accepts them, and then decoding the missing bytes into the result gives the original message; of the bytes of a message of an event every non-empty strict beginning is refused with unexpected EOF, and the empty one is a message without a log, whose event is nil. Accepted byte strings that are joined are accepted: the result has the log of the last one that has a log, and all unknown fields. JSON: of the text of an event every strict beginning is refused; behind it only space is accepted, and makes no difference; two texts of events, one behind the other, are refused.",
  "every byte string, every place to cut it, every list of messages, every event and every memory, also if it was not built with this API","all byte strings and all places, not some",
  WB+":MessageWrapper.Unmarshal",WB+":ValueObject.Unmarshal",WB+":skipEvent",WB+":MessageWrapper.Marshal","pkg/serialization/protobuf/protobuf.go:FromEvent",EV+":Event.MarshalJSON",EV+":Event.UnmarshalJSON")
p("C106","What a panic leaves behind","A panic of the library (a nil *Value on the way, a nil map in an object) that the caller recovers from, as net/http does for every request. Get, Put, TryPut, Delete, eventutil.Append and Process of each configured processor are all or nothing: either they return, or they panic and nothing that existed before (no event, no value, no map, no counter) is changed; there may be new objects that nothing refers to. So every event still holds what it held. The first Put into an event from event.New never panics. Process of a pipeline that panics leaves exactly what the processors that had finished by then did, and nothing of the one that panicked; no on_failure and no ignore_failure option turns a panic into anything else. The pipeline can be used on. Over any history of calls, some of which panicked, for every processor: received = sent + errors + the invocations left open by panics; each panic leaves open one invocation of the processor that panicked and one of each processor whose on_failure processors were running (each of which had returned an error), so for a pipeline from New at most one per processor and panic. So after panics the metrics of a processor need not add up, by exactly that number.","for every heap, event, key, value, pipeline and history of calls; the counters for arbitrary processors and whatever a panicking one leaves","a test sees one panic; that no write precedes any panic depends on every path through the code, and the counters on every nesting of on_failure and every history",EV+":Event.Put",EV+":Event.Get",EV+":Event.Delete","pkg/eventutil/event.go:Append",PP+":pipelineProcessor.Process",PL+":Pipeline.Process","pkg/processor/append/process.go:Append.Process","pkg/processor/set/process.go:Set.Process","pkg/processor/lowercase/process.go:Lowercase.Process")

p("C107","When two events are the same JSON","Comparing or caching the JSON of events, as a user does who deduplicates or signs them. Two events have the same JSON exactly if their fields cannot be told apart by their JSON: field by field in the order of names, item by item, and of two values: both are null, nil, a nil slice or a nil map; the same boolean; the same integer, whether signed, unsigned, or a float written without point and exponent; the same float bit for bit (so -0 is not 0); the same timestamp, or a timestamp and the string that is its text; the same string, except that a byte that is not part of valid UTF-8 may be another such byte (but not the character U+FFFD, although decoding makes either into it); both slices or both maps with such contents; nothing else. Names are compared like strings. An event without contents has the JSON of no event with contents, not even of an empty one. Two events decoded from JSON have the same JSON exactly if they have the same contents.",
  "every two events, in any two memories, however they were built, that encode","every pair of events of any size, not some pairs",
  EV+":Event.MarshalJSON",VA+":Value.MarshalJSON",EV+":Event.UnmarshalJSON",VA+":Value.UnmarshalJSON","pkg/event/time.go:Time.MarshalJSON")

p("C108","When two events are the same protobuf message","Comparing, caching or signing the bytes of events' protobuf messages. The byte string that Marshal returns depends on the order in which Go happens to iterate the maps. Of two events that can be marshalled, one and the same byte string is possible for both exactly if their contents are equal once nil slices and nil maps are replaced by empty ones at every depth (a nil *Value and a null differ, and so do integers, unsigned integers, floats and timestamps with the same number; an event without contents is like an empty one); and then their messages are equal, so that exactly the same byte strings are possible for both. For one event there is only one possible byte string exactly if no map in it, at any depth, has more than one field; otherwise the same event may be written differently each time. Every order can be written for an event without nils.",
  "every two events, in any two memories, every iteration order of every map","every pair of events and all iteration orders, which Go picks at random",
  PB+":FromEvent",WB+":MessageWrapper.Marshal",WB+":ValueObject.MarshalToSizedBuffer",WB+":MessageWrapper.Size")
p("C109","The JSON of an event and what Get finds","Reading an event's fields, or a JSON document's, comes to the same. After UnmarshalJSON accepted a document that is an object, for every key with at least one component: Get panics exactly if a proper part of the path leads to a null in the document; otherwise it returns a value with the content of what the document has at that path (through objects, name after name, the last occurrence of a repeated name counting), and nil if the document has nothing there or null. And in the other direction, in the JSON of an event whose field names are valid UTF-8, whatever is shared in it: where Get returns a value, the text has at that path what the value says; where Get returns nil the text has nothing or null; where Get panics a proper part of the path leads to a null in the text.",
  "every document and event, every key, every memory","every document, event and key",
  EV+":Event.Get",EV+":Event.MarshalJSON",EV+":Event.UnmarshalJSON",VA+":Value.UnmarshalJSON",VA+":Value.MarshalJSON")
p("C110","Sorting timestamps by their text","Sorting or comparing the JSON texts of timestamps (log lines, documents in a store that treats them as strings) as byte strings. For every two timestamps n < m: the text of n comes before the text of m, except exactly if n is m cut off (rounded down) to whole seconds or to fewer decimals of a second; then the text of n comes after that of m (2022-03-15T12:01:18.9Z sorts before 2022-03-15T12:01:18Z). In particular timestamps in different seconds always sort right, before 1970 too.",
  "every two int64 timestamps","all pairs of 64-bit timestamps",
  "pkg/event/time.go:Time.MarshalJSON","pkg/event/time.go:Time.GoTime")

p("C111","When two events are the same Go map","Comparing events by their Go maps, as the project's own tests do. FromEvent's maps of two events are equal for reflect.DeepEqual exactly if the contents of the events are equal once nil *Values are replaced by nulls, nil slices and nil maps by empty ones and negative zeros by zeros, at every depth (an event without contents is like an empty one; integers, unsigned integers, floats and timestamps are never equal to each other), and there is no NaN in them: two maps made from one and the same event are equal exactly if no float in it is NaN. In particular events with equal protobuf messages and without NaN have equal Go maps.",
  "every two events, in any two memories","every pair of events",
  MI+":FromEvent",MI+":fromEventValue",MI+":fromEventValueObject","pkg/event/time.go:Time.GoTime")
p("C112","What Put and Delete change when values are shared","Whatever an event shares with other events, or within itself, a successful Put or TryPut of a value changes one entry of one object: the names of the key lead through objects that are there to the last one that is there (or to the event itself), and in it the next name is set, to the value itself, or, if more names remain (then the name was not there), to new objects of one entry each. Delete with a result removes one entry of the event's own map. So on every event of the program: Get of a key that does not come by that entry does what it did before (it panics if it did, else returns the same *Value, of the same type and with the same scalar, list or map, and everything in it is the same if the changed object is not in it); every key of whatever event that comes to that object and goes on as the key of the Put finds the value that was put; and a key that comes by a deleted entry finds nothing.",
  "every event, key and value, in any memory in which pointers point to something, including shared objects and events that contain themselves","every way of sharing",
  EV+":Event.Put",EV+":Event.TryPut",EV+":Event.Delete",EV+":Event.Get",EV+":Event.put")
p("C113","Events that share no objects","Two events do not interfere as soon as there is no map to which keys lead from both: they may share scalars and lists, and even objects inside of lists. Whatever a program does with Put, TryPut, Get and Delete on the first (with values it makes out of whatever there is, even out of parts of the second event), as long as it puts nothing into it from which keys lead to a map of the second: Get on the second event does for every key what it did before (it panics if it did, else returns the same *Value, of the same type and with the same scalar, list or map), and the two events still have no map in common. Without the condition this is false (C112).",
  "every pair of events in any memory in which pointers point to something (with whatever sharing, and containing themselves or not), every history of calls on one of them","every history, of any length",
  EV+":Event.Put",EV+":Event.TryPut",EV+":Event.Get",EV+":Event.Delete",VA+":Array",VA+":Object")
p("C114","What one run of a processor may change","One run of any of the processors (lowercase, uppercase, set, append, remove, community_id), whatever its configuration, on any event, whatever that event shares with other events, with the configured values or within itself: of all the values, maps and lists that were there before, either nothing has changed, or one entry of one object to which names lead from the event (or of the event itself), or one list that Get finds in the event has got exactly one more element at its end. If the processor reports an error, nothing that was there before has changed and the event is the same. Afterwards everything is in order for the next processor: every pointer points to something.",
  "every processor, configuration, event and memory in which pointers point to something, with whatever sharing","every way of sharing and every configuration",
  "pkg/processor/append/process.go:Append.Process","pkg/processor/set/process.go:Set.Process","pkg/processor/lowercase/process.go:Lowercase.Process","pkg/processor/uppercase/process.go:Uppercase.Process","pkg/eventutil/event.go:Append","pkg/processor/remove/remove.go:Remove.Process",EV+":Event.TryPut",EV+":Event.Get")
p("C115","Processing an event beside another","Processing one event does not disturb another with which it shares no objects: if there is no map to which keys lead from both, and none to which keys lead from a configured value of a set processor and from the second event (they may share scalars, lists, and objects inside of lists), then after Process of any pipeline of the repository's processors on the first event (whether it fails or not, with on_failure processors) Get on the second event does for every key what it did before: it panics if it did, and else returns the same *Value, unchanged except that a list that both events have may have got more elements at its end. Afterwards the two events and the configured values still have no map in common, so any number of events can be processed one after another.",
  "every pipeline of the repository's processors, every pair of events in any memory in which pointers point to something, every configuration","every pipeline, event and way of sharing",
  "pkg/pipeline/pipeline.go:Pipeline.Process","pkg/processor/append/process.go:Append.Process","pkg/processor/set/process.go:Set.Process","pkg/processor/lowercase/process.go:Lowercase.Process","pkg/eventutil/event.go:Append",EV+":Event.TryPut",EV+":Event.Get")
p("C116","What Process may change","Whatever is shared: of everything that was in memory before, Process of a pipeline of the repository's processors (whether it fails or not, with whatever on_failure processors) changes only lists, which get more elements at their end, and objects to which names lead from the event or from a configured value of one of its set processors. Every scalar that any program holds a pointer to stays as it is, and so does every object to which names lead from neither. (Objects of configured values do change: what one event sets below a configured object is still there when the next event is processed.)",
  "every pipeline of the repository's processors, every event in any memory in which pointers point to something, every configuration","every pipeline, event and way of sharing",
  "pkg/pipeline/pipeline.go:Pipeline.Process","pkg/processor/append/process.go:Append.Process","pkg/processor/set/process.go:Set.Process","pkg/processor/lowercase/process.go:Lowercase.Process","pkg/processor/uppercase/process.go:Uppercase.Process",EV+":Event.TryPut")
p("C117","eventutil.Append when values are shared","Whatever an event shares with other events, with the item or within itself: if Get finds a list, Append(evt, key, item) puts the item (or, if it is a list, the elements it had, even if it is the same list) at the end of that list, for everyone who has the list; nothing else that was there changes, not even if Append reports an error, and Get finds the same list afterwards. If Get finds no list, every value and list that was there stays as it is; at most one entry of one object that is reached from the event changes, and if Append fails nothing has changed; if it succeeds, Get returns a new list of what Get found before, if anything, and the item or its elements (provided the path never asks one object twice for the same name, as in every event that does not contain itself). A nil item changes nothing.",
  "every event, key and item in any memory in which pointers point to something, with whatever sharing","every event, key, item and way of sharing",
  "pkg/eventutil/event.go:Append",EV+":Event.Put",EV+":Event.Get",VA+":Array")

p("C118","All the work on one of two events","Whatever a program does with one event - new values and maps, Put, TryPut, Get, Delete, eventutil.Append of anything, Process by pipelines of the repository's processors, in any order and as often as it likes - another event with which it has no map in common is not disturbed: every Get on the other event panics if it did before, and otherwise returns the same *Value, with the same type and content, except that a list that both events have may have become longer. The two events still have no map in common afterwards.",
  "every memory, two events in it without a common map, and every sequence of such calls on the first, with every key, value, item and pipeline whose configured values have no map in common with the other event","every pair of events and every sequence of calls of any length",
  EV+":Event.Put",EV+":Event.TryPut",EV+":Event.Get",EV+":Event.Delete","pkg/eventutil/event.go:Append","pkg/pipeline/pipeline.go:Pipeline.Process")

p("C119","Events worked on by turns","Two programs (or goroutines whose calls do not overlap) work by turns, each on its own event, with Put, TryPut, Get, Delete, eventutil.Append and Process, for any number of turns and calls. If the two events have no map in common at the start, they never have, and no turn of one program disturbs the other's event: with every key Get on it after the turn panics if it did before, and otherwise returns the same *Value as before the turn, unchanged except that a list may be longer. The same is so for any number of workers with an event each, of which no two have a common map, who may also throw their event away for a new one and take over the events of others.",
  "every memory, any number of events in it without common maps, and every interleaving of calls on them, of new events and of events handed on","every schedule of two programs' calls, of any length",
  EV+":Event.Put",EV+":Event.TryPut",EV+":Event.Get",EV+":Event.Delete","pkg/eventutil/event.go:Append","pkg/pipeline/pipeline.go:Pipeline.Process")

with open(os.path.join(os.path.dirname(__file__),"..","properties.jsonl"),"w") as f:
    for x in P: f.write(json.dumps(x, ensure_ascii=False)+"\n")
print(len(P))

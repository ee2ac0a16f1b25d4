{
 "claims": [
  {
   "property": "C01",
   "status": "proved",
   "theorems": [
    "Sawmill.get_after_put",
    "Sawmill.get_after_put_straight",
    "Sawmill.straight_sample",
    "Sawmill.get_after_put_fails_on_cycle"
   ],
   "note": "last theorem: why keys that go round in an event that contains itself are excluded"
  },
  {
   "property": "C02",
   "status": "proved",
   "theorems": [
    "Sawmill.put_other_keys_any",
    "Sawmill.put_other_keys"
   ],
   "note": ""
  },
  {
   "property": "C03",
   "status": "proved",
   "theorems": [
    "Sawmill.put_error_atomic"
   ],
   "note": ""
  },
  {
   "property": "C04",
   "status": "proved",
   "theorems": [
    "Sawmill.put_outcome_any",
    "Sawmill.put_outcome"
   ],
   "note": "put_outcome_any: any memory, event and value, where C12 says that Put returns (MapsAreMaps: what is used as a map is one, as Go's types guarantee). put_outcome: the special case of a new value and an event that owns its contents and has no nils."
  },
  {
   "property": "C05",
   "status": "proved",
   "theorems": [
    "Sawmill.tryPut_existing",
    "Sawmill.tryPut_missing"
   ],
   "note": ""
  },
  {
   "property": "C06",
   "status": "proved",
   "theorems": [
    "Sawmill.put_nil"
   ],
   "note": ""
  },
  {
   "property": "C07",
   "status": "proved",
   "theorems": [
    "Sawmill.delete_returns_get",
    "Sawmill.delete_root"
   ],
   "note": ""
  },
  {
   "property": "C08",
   "status": "proved",
   "theorems": [
    "Sawmill.delete_other_keys_one_name_any",
    "Sawmill.delete_keeps_other_entries_any",
    "Sawmill.delete_contents",
    "Sawmill.delete_clears_entry",
    "Sawmill.delete_removes_siblings",
    "Sawmill.delete_other_keys_one_name",
    "Sawmill.delete_keeps_other_entries"
   ],
   "note": "Holds h e f: the finite contents seen in the event, with any sharing; the last two theorems are the same for events that own their contents."
  },
  {
   "property": "C09",
   "status": "proved",
   "theorems": [
    "Sawmill.keyToPath_joinKey",
    "Sawmill.path_addressable_iff",
    "Sawmill.keyToPath_escapeKey",
    "Sawmill.escapeKey_injective"
   ],
   "note": ""
  },
  {
   "property": "C10",
   "status": "proved",
   "theorems": [
    "Sawmill.keyToPath_eq_components",
    "Sawmill.keyToPath_goodNames",
    "Sawmill.keyToPath_leading_dot",
    "Sawmill.keyToPath_trailing_dot",
    "Sawmill.keyToPath_double_dot",
    "Sawmill.keyToPath_split"
   ],
   "note": ""
  },
  {
   "property": "C100",
   "status": "proved",
   "theorems": [
    "Sawmill.trip_contents",
    "Sawmill.trips_contents",
    "Sawmill.trip_goes",
    "Sawmill.trips_go",
    "Sawmill.trips_grow",
    "Sawmill.trips_differ",
    "Sawmill.trips_settle",
    "Sawmill.trips_same",
    "Sawmill.travelSample_ok",
    "Sawmill.travelSample_goes"
   ],
   "note": "Trip, Trips, carried, dotsInside and CanTravel are in Spec/Hops. trips_grow bounds the size of the message from below. The trips are those of C39 and C81, put together."
  },
  {
   "property": "C101",
   "status": "proved",
   "theorems": [
    "Sawmill.Wire.bomb_goes_off",
    "Sawmill.Wire.bomb_worst",
    "Sawmill.Wire.marshal_no_bomb",
    "Sawmill.Wire.bomb_defused",
    "Sawmill.Wire.marshal_strict",
    "Sawmill.Wire.bomb_not_strict",
    "Sawmill.Wire.bomb_sample",
    "Sawmill.Wire.bomb_hundred"
   ],
   "note": "PWrapper.values (Spec/Bomb) counts the Value messages. The decoder is the byte-level model of C69; the proofs use its grammar (Spec/WireText); messages whose entries keep to their ends are a grammar of their own (Spec/WireStrict)."
  },
  {
   "property": "C102",
   "status": "proved",
   "theorems": [
    "Sawmill.api_cost",
    "Sawmill.process_cost",
    "Sawmill.cli_cost",
    "Sawmill.json_cost",
    "Sawmill.copies_of_copies",
    "Sawmill.cost_sample",
    "Sawmill.cost_sharp"
   ],
   "note": "Sizes are those of the model memory (Spec/Cost), which is never freed: bytes of strings and Go's own overhead are not counted."
  },
  {
   "property": "C103",
   "status": "proved",
   "theorems": [
    "Sawmill.readers_fine",
    "Sawmill.readers_finish",
    "Sawmill.new_concurrent",
    "Sawmill.newProg_alone",
    "Sawmill.register_races",
    "Sawmill.register_twice",
    "Sawmill.single_run",
    "Sawmill.registry_conc_sample"
   ],
   "note": "Steps are single accesses to the map, with sequential consistency. Assumed: what go-ucfg and the constructors do touches nothing that is shared. RegProg.alone (Spec/RegistryConc) runs the calls of Model/Registry one after the other."
  },
  {
   "property": "C104",
   "status": "proved",
   "theorems": [
    "Sawmill.api_returns",
    "Sawmill.append_returns",
    "Sawmill.pipeline_returns",
    "Sawmill.process_no_panic",
    "Sawmill.new_no_panic",
    "Sawmill.decoded_no_nils",
    "Sawmill.message_marshals",
    "Sawmill.library_no_panic",
    "Sawmill.cli_no_panic",
    "Sawmill.no_nils_sample",
    "Sawmill.nil_sample",
    "Sawmill.no_nils_new"
   ],
   "note": "go-ucfg, which fills in the options, is a parameter: assumed is that it makes options of the struct it is given, and a value for each set. nil_sample shows that a nil makes the same pipeline panic (C12 has the exact condition)."
  },
  {
   "property": "C105",
   "status": "proved",
   "theorems": [
    "Sawmill.Wire.unmarshal_cut",
    "Sawmill.Wire.marshal_cut",
    "Sawmill.Wire.event_message_cut",
    "Sawmill.Wire.empty_message",
    "Sawmill.Wire.unmarshal_joined",
    "Sawmill.Wire.unmarshal_stream",
    "Sawmill.marshalEvent_form",
    "Sawmill.json_cut",
    "Sawmill.json_joined",
    "Sawmill.json_two"
   ],
   "note": "For bytes shorter than 2^63 - 8. JSON: for any heap and any rendering of floats. The bytes of a message that are refused may be accepted when cut (example in Props/Truncate)."
  },
  {
   "property": "C106",
   "status": "proved",
   "theorems": [
    "Sawmill.Mem.alone_steps",
    "Sawmill.get_all_or_nothing",
    "Sawmill.put_all_or_nothing",
    "Sawmill.delete_all_or_nothing",
    "Sawmill.util_all_or_nothing",
    "Sawmill.builtin_all_or_nothing",
    "Sawmill.crash_keeps",
    "Sawmill.put_new_returns",
    "Sawmill.pipeline_crash",
    "Sawmill.attempt_process",
    "Sawmill.attempts_counters",
    "Sawmill.attempts_built",
    "Sawmill.crash_sample"
   ],
   "note": "The programs of single memory accesses of C65 are run until they return or panic, with the memory and the counters at that point (alone_steps: this is the run of one goroutine of C65). EndsAs says that a panic has only added objects to the memory. pipeline_crash says that a panicking pipeline leaves the memory of Thr.attempt, in which the finished processors have run and the panicking one has not begun, and new objects. The counters are for arbitrary processors."
  },
  {
   "property": "C107",
   "status": "proved",
   "theorems": [
    "Sawmill.json_same",
    "Sawmill.json_same_empty",
    "Sawmill.json_same_decoded",
    "Sawmill.json_same_sample",
    "Sawmill.json_same_invalid"
   ],
   "note": "SameJson (Spec/SameJson.lean) says of two values when they are the same JSON, without the encoder; only Val.Numeral (for floats written as integers, by the number grammar of Spec/Json.lean) and StampText (for the text of a timestamp, which C56 specifies) refer to texts. Float printing and reading are the parameter of C49 (JEnv.Lawful). The theorems are about texts that encoding returned: whether it does is C49/C50."
  },
  {
   "property": "C108",
   "status": "proved",
   "theorems": [
    "Sawmill.proto_same",
    "Sawmill.proto_one_text",
    "Sawmill.proto_writes",
    "Sawmill.proto_same_sample"
   ],
   "note": "MayWrite (Spec/SameProto.lean): Marshal returns these bytes when the maps are iterated in some order (SameMessage, C40). Messages of 2^63 - 8 bytes and more are excluded, as in C40. Sorted and Canon only say that the model lists maps in the order of their keys. That some byte string is possible is a hypothesis of the first two theorems (Marshal panics on a nil in a slice, C41); proto_writes says when it is met."
  },
  {
   "property": "C109",
   "status": "proved",
   "theorems": [
    "Sawmill.json_get_decoded",
    "Sawmill.json_get_encoded",
    "Sawmill.json_get_sample",
    "Sawmill.json_get_encoded_sample"
   ],
   "note": "LastAt, JsonAt, NullBefore (Spec/JsonGet.lean): what a document has at a path. components (C09) are the names that a key denotes, Says (C49) what a value says in JSON; a text is the text of only one document (document_unique, C50). Sorted and Canon only say that the model lists maps in the order of their keys."
  },
  {
   "property": "C11",
   "status": "proved",
   "theorems": [
    "Sawmill.get_root"
   ],
   "note": ""
  },
  {
   "property": "C110",
   "status": "proved",
   "theorems": [
    "Sawmill.timestamp_text_order",
    "Sawmill.timestamp_text_order_seconds",
    "Sawmill.timestamp_text_order_sample"
   ],
   "note": "TextBefore, CutOff (Spec/TimeOrder.lean). The order is that of byte strings. time.Time and its formatting are the standard library of Go 1.17, modelled in Model/Time.lean; C56 says that the text denotes the timestamp."
  },
  {
   "property": "C111",
   "status": "proved",
   "theorems": [
    "Sawmill.go_map_same",
    "Sawmill.go_map_self",
    "Sawmill.go_map_of_message",
    "Sawmill.go_map_same_sample"
   ],
   "note": "DeepEqual, IsNaN, Val.shown, Val.NoNaN (Spec/SameGoMap.lean). DeepEqual says what the documentation of reflect.DeepEqual says for the types that FromEvent makes; its rule that one and the same slice or map is equal to itself without a look inside plays no part, as every call makes new ones. Sorted and Canon only say that the model lists maps in the order of their keys."
  },
  {
   "property": "C112",
   "status": "proved",
   "theorems": [
    "Sawmill.put_changes",
    "Sawmill.delete_changes",
    "Sawmill.get_elsewhere",
    "Sawmill.seen_elsewhere",
    "Sawmill.put_seen",
    "Sawmill.delete_seen",
    "Sawmill.asks_first",
    "Sawmill.put_effect_sample",
    "Sawmill.put_effect_sample_memory",
    "Sawmill.delete_effect_sample"
   ],
   "note": "the first two say what changes, the next two what does not, then what is seen of the change"
  },
  {
   "property": "C113",
   "status": "proved",
   "theorems": [
    "Sawmill.no_common_no_effect",
    "Sawmill.no_common_sample"
   ],
   "note": "Works (Spec/NoCommon.lean): a history of calls on one event; Reaches: the way Get goes, by names through the maps of values. Reads of . are not compared (they return a new *Value around the map, which is shown to have the same entries)."
  },
  {
   "property": "C114",
   "status": "proved",
   "theorems": [
    "Sawmill.step_changes",
    "Sawmill.step_changes_sample"
   ],
   "note": "StepChange (Spec/StepChange.lean): nothing, one entry of one map reached by names, or one more element of one list found by Get; also the error case. The builtin processors only: what a Wasm or Starlark script does is a history of calls, for which see C112 and C113."
  },
  {
   "property": "C115",
   "status": "proved",
   "theorems": [
    "Sawmill.process_beside_kept",
    "Sawmill.process_beside_kept_sample"
   ],
   "note": "NoCommon (Spec/NoCommon.lean), ValueApart and Longer (Spec/ProcessBeside.lean). Get of . is left out: it returns a new *Value. A Process that panics has no memory to speak about in this model (see C106 for that)."
  },
  {
   "property": "C116",
   "status": "proved",
   "theorems": [
    "Sawmill.process_changes",
    "Sawmill.process_changes_sample"
   ],
   "note": "vs: the addresses of the configured values. Reaches: the way Get goes, by names. Counters and the log are outside of this memory (C18 to C27)."
  },
  {
   "property": "C117",
   "status": "proved",
   "theorems": [
    "Sawmill.append_to_list",
    "Sawmill.append_new_list",
    "Sawmill.append_nil",
    "Sawmill.append_shared_sample"
   ],
   "note": "The entry of a list that is there is written again with the same pointer: SameBut says that maps have the same entries. Backing arrays are not shared in this model: that no two lists share one is C85."
  },
  {
   "property": "C118",
   "status": "proved",
   "theorems": [
    "Sawmill.all_work_beside",
    "Sawmill.all_work_sample"
   ],
   "note": "Values that are put are new, or from the event itself, or have no map in common with the other event (Works). The item given to Append may be any value in memory: a list gives its elements, which are not maps of the event, and a value of another type becomes an element."
  },
  {
   "property": "C119",
   "status": "proved",
   "theorems": [
    "Sawmill.turns_beside",
    "Sawmill.turns_sample",
    "Sawmill.many_turns_beside",
    "Sawmill.many_turns_sample"
   ],
   "note": "Calls are interleaved as wholes: data races inside a call are not modelled. Undisturbed is the conclusion of all_work_beside."
  },
  {
   "property": "C12",
   "status": "proved",
   "theorems": [
    "Sawmill.get_panics_iff",
    "Sawmill.delete_panics_iff",
    "Sawmill.api_put_panics_iff",
    "Sawmill.api_never_panics",
    "Sawmill.api_panics_below_nil",
    "Sawmill.api_panics_below_nil_object"
   ],
   "note": ""
  },
  {
   "property": "C13",
   "status": "proved",
   "theorems": [
    "Sawmill.history_refines_nested_map",
    "Sawmill.history_refines_with_panics"
   ],
   "note": ""
  },
  {
   "property": "C14",
   "status": "proved",
   "theorems": [
    "Sawmill.events_do_not_interfere",
    "Sawmill.put_other_events",
    "Sawmill.delete_other_events"
   ],
   "note": "the first theorem is for whole histories of calls with freshly built nil-free values, the other two for single calls on any separate events"
  },
  {
   "property": "C15",
   "status": "proved",
   "theorems": [
    "Sawmill.history_independent",
    "Sawmill.same_treatment",
    "Sawmill.history_leaks"
   ],
   "note": "third theorem: an array as configured value leaks from event to event"
  },
  {
   "property": "C16",
   "status": "proved",
   "theorems": [
    "Sawmill.set_copy_scalar",
    "Sawmill.set_copy_alias",
    "Sawmill.copy_then_append"
   ],
   "note": ""
  },
  {
   "property": "C17",
   "status": "proved",
   "theorems": [
    "Sawmill.set_copy_spec",
    "Sawmill.set_copy_above",
    "Sawmill.set_copy_endless",
    "Sawmill.endless_nothing"
   ],
   "note": ""
  },
  {
   "property": "C18",
   "status": "proved",
   "theorems": [
    "Sawmill.pipeline_all_succeed",
    "Sawmill.pipeline_failure",
    "Sawmill.later_processors_do_not_run",
    "Sawmill.pipeline_cases"
   ],
   "note": ""
  },
  {
   "property": "C19",
   "status": "proved",
   "theorems": [
    "Sawmill.process_returns",
    "Sawmill.process_error_iff"
   ],
   "note": ""
  },
  {
   "property": "C20",
   "status": "proved",
   "theorems": [
    "Sawmill.pipeline_failure",
    "Sawmill.onFailure_only_after_failure",
    "Sawmill.pipeline_cases"
   ],
   "note": ""
  },
  {
   "property": "C21",
   "status": "proved",
   "theorems": [
    "Sawmill.ignore_failure_never_fails",
    "Sawmill.pipeline_ignore_failure"
   ],
   "note": ""
  },
  {
   "property": "C22",
   "status": "proved",
   "theorems": [
    "Sawmill.isMissing_iff",
    "Sawmill.ignore_missing_swallows",
    "Sawmill.ignore_missing_other_errors"
   ],
   "note": ""
  },
  {
   "property": "C23",
   "status": "proved",
   "theorems": [
    "Sawmill.local_on_failure"
   ],
   "note": ""
  },
  {
   "property": "C24",
   "status": "proved",
   "theorems": [
    "Sawmill.counters_conserved",
    "Sawmill.samplePipeline_run"
   ],
   "note": ""
  },
  {
   "property": "C25",
   "status": "proved",
   "theorems": [
    "Sawmill.errors_counter",
    "Sawmill.errors_counter_includes_recovered"
   ],
   "note": ""
  },
  {
   "property": "C26",
   "status": "proved",
   "theorems": [
    "Sawmill.drop_has_no_effect",
    "Sawmill.process_returns",
    "Sawmill.counters_conserved"
   ],
   "note": ""
  },
  {
   "property": "C27",
   "status": "proved",
   "theorems": [
    "Sawmill.cancel_has_no_effect"
   ],
   "note": ""
  },
  {
   "property": "C28",
   "status": "proved",
   "theorems": [
    "Sawmill.metrics_exact",
    "Sawmill.metrics_miss_global_on_failure"
   ],
   "note": ""
  },
  {
   "property": "C29",
   "status": "proved",
   "theorems": [
    "Sawmill.component_ids_unique"
   ],
   "note": ""
  },
  {
   "property": "C30",
   "status": "proved",
   "theorems": [
    "Sawmill.new_iff",
    "Sawmill.new_succeeds_iff",
    "Sawmill.sampleConfig_new"
   ],
   "note": ""
  },
  {
   "property": "C31",
   "status": "proved",
   "theorems": [
    "Sawmill.concurrent_eq_sequential",
    "Sawmill.concurrent_terminates",
    "Sawmill.sequential_order",
    "Sawmill.pipeline_thr_run"
   ],
   "note": ""
  },
  {
   "property": "C32",
   "status": "proved",
   "theorems": [
    "Sawmill.register_spec",
    "Sawmill.registry_is_write_once",
    "Sawmill.newProcessor_uses_registered"
   ],
   "note": ""
  },
  {
   "property": "C33",
   "status": "proved",
   "theorems": [
    "Sawmill.validateConfig_accepts_iff",
    "Sawmill.newProc_nillable",
    "Sawmill.accepted_but_always_panics"
   ],
   "note": ""
  },
  {
   "property": "C34",
   "status": "proved",
   "theorems": [
    "Sawmill.convert_spec",
    "Sawmill.convert_string",
    "Sawmill.convert_other"
   ],
   "note": "strings.ToLower and strings.ToUpper are an arbitrary function"
  },
  {
   "property": "C35",
   "status": "proved",
   "theorems": [
    "Sawmill.append_spec",
    "Sawmill.append_array",
    "Sawmill.append_string"
   ],
   "note": ""
  },
  {
   "property": "C36",
   "status": "proved",
   "theorems": [
    "Sawmill.remove_changes_nothing",
    "Sawmill.communityId_changes_nothing"
   ],
   "note": ""
  },
  {
   "property": "C37",
   "status": "proved",
   "theorems": [
    "Sawmill.set_value_spec",
    "Sawmill.set_scalar_spec",
    "Sawmill.set_nothing_spec",
    "Sawmill.set_copy_spec"
   ],
   "note": ""
  },
  {
   "property": "C38",
   "status": "proved",
   "theorems": [
    "Sawmill.utilAppend_spec",
    "Sawmill.utilAppend_result"
   ],
   "note": ""
  },
  {
   "property": "C39",
   "status": "proved",
   "theorems": [
    "Sawmill.fromEvent_spec",
    "Sawmill.protobuf_round_trip",
    "Sawmill.protobuf_round_trip_plain",
    "Sawmill.nested_dot_escaped",
    "Sawmill.empty_event_lost",
    "Sawmill.nil_values_panic",
    "Sawmill.fromEvent_cycle",
    "Sawmill.endless_nothing"
   ],
   "note": "the last four are the exceptions named in the statement"
  },
  {
   "property": "C40",
   "status": "proved",
   "theorems": [
    "Sawmill.Wire.wire_round_trip",
    "Sawmill.Wire.wire_round_trip_any_order",
    "Sawmill.Wire.marshal_injective",
    "Sawmill.Wire.nil_array_lost"
   ],
   "note": "last theorem: a message outside the domain is not preserved"
  },
  {
   "property": "C41",
   "status": "proved",
   "theorems": [
    "Sawmill.Wire.marshal_exact",
    "Sawmill.Wire.marshal_panics_iff",
    "Sawmill.Wire.size_order_independent",
    "Sawmill.Wire.nil_item_panics"
   ],
   "note": ""
  },
  {
   "property": "C42",
   "status": "proved",
   "theorems": [
    "Sawmill.Wire.unmarshal_total",
    "Sawmill.Wire.unmarshal_again_total"
   ],
   "note": "the depth of Go's stack is not modelled"
  },
  {
   "property": "C43",
   "status": "proved",
   "theorems": [
    "Sawmill.Wire.unknown_fields_kept",
    "Sawmill.Wire.wire_round_trip"
   ],
   "note": "the second theorem covers unknown fields in nested messages"
  },
  {
   "property": "C44",
   "status": "proved",
   "theorems": [
    "Sawmill.toLogEvent_nil",
    "Sawmill.toLogEvent_panics_iff",
    "Sawmill.toLogEvent_spec",
    "Sawmill.toLogEvent_panics_on_decoded"
   ],
   "note": ""
  },
  {
   "property": "C45",
   "status": "proved",
   "theorems": [
    "Sawmill.Wire.varint_codec"
   ],
   "note": ""
  },
  {
   "property": "C46",
   "status": "proved",
   "theorems": [
    "Sawmill.map_round_trip",
    "Sawmill.map_round_trip_widened",
    "Sawmill.mapToEvent_outcome",
    "Sawmill.mapFromEvent_spec",
    "Sawmill.map_round_trip_changes"
   ],
   "note": "Go values are modelled by what type switches and reflection can observe of them; the round trip holds for every iteration order (order is any permutation). map_round_trip_changes gives the inputs for which the naive round trip is false."
  },
  {
   "property": "C47",
   "status": "proved",
   "theorems": [
    "Sawmill.reflectValue_outcome",
    "Sawmill.reflectValue_error_iff",
    "Sawmill.mapToEvent_outcome",
    "Sawmill.interface_field_unsupported",
    "Sawmill.string_option_drops"
   ],
   "note": "Unsupported, Panicky and Inside are defined on Go values, independently of the conversion. Finite (acyclic) values only, as documented by the package."
  },
  {
   "property": "C48",
   "status": "proved",
   "theorems": [
    "Sawmill.goTime_exact",
    "Sawmill.unixNano_goTime",
    "Sawmill.goTime_unixNano"
   ],
   "note": "time.Unix and UnixNano of the standard library are modelled"
  },
  {
   "property": "C49",
   "status": "proved",
   "theorems": [
    "Sawmill.json_round_trip",
    "Sawmill.json_round_trip_exact",
    "Sawmill.json_round_trip_settles",
    "Sawmill.json_round_trip_empty",
    "Sawmill.marshalEvent_spec",
    "Sawmill.json_lossy",
    "Sawmill.json_names_collide",
    "Sawmill.json_cycle",
    "Sawmill.endless_nothing"
   ],
   "note": "strconv's float printing and parsing are any pair that satisfies JEnv.Lawful (printed finite floats are JSON numbers that parse back exactly; integer texts parse to some finite float); bitsEnv_lawful shows it is satisfiable."
  },
  {
   "property": "C50",
   "status": "proved",
   "theorems": [
    "Sawmill.unmarshalEvent_accepts_iff",
    "Sawmill.unmarshalEvent_null",
    "Sawmill.unmarshalEvent_object",
    "Sawmill.unmarshalEvent_kinds",
    "Sawmill.json_duplicate_name",
    "Sawmill.json_rejected"
   ],
   "note": "the grammar is written out in Spec/Json independently of the scanner. Decoding into a new Event only."
  },
  {
   "property": "C51",
   "status": "proved",
   "theorems": [
    "Sawmill.cli_empty_reads",
    "Sawmill.cli_no_progress",
    "Sawmill.patient_sample",
    "Sawmill.cli_spec",
    "Sawmill.cli_too_long",
    "Sawmill.cli_chunking",
    "Sawmill.cli_framing",
    "Sawmill.cli_conservation",
    "Sawmill.cli_write_prefix",
    "Sawmill.cli_write_error_hidden",
    "Sawmill.lineEvent_spec",
    "Sawmill.blank_line",
    "Sawmill.solo_text_iff",
    "Sawmill.trimSpace_spec",
    "Sawmill.input_cases",
    "Sawmill.cli_sample",
    "Sawmill.cli_partial_line",
    "Sawmill.cli_lost_output",
    "Sawmill.cli_self_copy"
   ],
   "note": "with bufio.Scanner and strings.TrimSpace modelled; input_cases: every input is covered by cli_spec or cli_too_long. Flags, YAML decoding and the metrics listener are not modelled."
  },
  {
   "property": "C52",
   "status": "proved",
   "theorems": [
    "Sawmill.marshalOpt_spec",
    "Sawmill.marshalConfig_spec",
    "Sawmill.unmarshalOpt_any",
    "Sawmill.unmarshalConfig_any",
    "Sawmill.unmarshalOpt_iff",
    "Sawmill.unmarshalOpt_rejects",
    "Sawmill.unmarshalConfig_iff",
    "Sawmill.opt_round_trip",
    "Sawmill.config_round_trip",
    "Sawmill.config_round_trip_new",
    "Sawmill.null_config_panics",
    "Sawmill.opt_id_replaced",
    "Sawmill.opt_case",
    "Sawmill.opt_case_lossy",
    "Sawmill.opt_case_error",
    "Sawmill.opt_empty",
    "Sawmill.opt_merge",
    "Sawmill.opt_stale",
    "Sawmill.config_twice"
   ],
   "note": "Float formatting and parsing are a parameter with stated laws. Options are nested maps of nil, bool, int64, uint64, float64, string, UTC time, slices and maps. unmarshalOpt_any and unmarshalConfig_any are for all documents (Spec/ConfigAny); the theorems ending in _iff state the same more simply for documents in which no two names of one object stand for the same field."
  },
  {
   "property": "C53",
   "status": "proved",
   "theorems": [
    "Sawmill.conditions_have_no_effect"
   ],
   "note": ""
  },
  {
   "property": "C54",
   "status": "proved",
   "theorems": [
    "Sawmill.error_keeps_changes",
    "Sawmill.failed_process_changes_event"
   ],
   "note": ""
  },
  {
   "property": "C55",
   "status": "proved",
   "theorems": [
    "Sawmill.Wire.reencode"
   ],
   "note": ""
  },
  {
   "property": "C56",
   "status": "proved",
   "theorems": [
    "Sawmill.timestamp_text_denotes",
    "Sawmill.timestamp_text_injective",
    "Sawmill.timestamp_string",
    "Sawmill.timestamp_string_injective"
   ],
   "note": "time.Time.Format of the standard library (Go 1.17 algorithm) is modelled"
  },
  {
   "property": "C57",
   "status": "proved",
   "theorems": [
    "Sawmill.marshalEvent_tidy",
    "Sawmill.marshalEvent_one_line",
    "Sawmill.cli_framing",
    "Sawmill.tidy_sample"
   ],
   "note": "no hypothesis on the event: any heap, any pointer; cycles give no text at all."
  },
  {
   "property": "C58",
   "status": "proved",
   "theorems": [
    "Sawmill.pipeline_pure",
    "Sawmill.same_contents_same_outcome",
    "Sawmill.no_copy_no_shares",
    "Sawmill.there_pipe",
    "Sawmill.sample_apply"
   ],
   "note": "by structural induction over nested processors; the case that copy_from has met a container is excluded by Spec.Run.shares (C16 says what happens then)."
  },
  {
   "property": "C59",
   "status": "proved",
   "theorems": [
    "Sawmill.new_plan",
    "Sawmill.config_semantics",
    "Sawmill.ignore_failure_only",
    "Sawmill.failure_not_ignored",
    "Sawmill.cli_registered",
    "Sawmill.sample_plan",
    "Sawmill.sample_accepted"
   ],
   "note": "filling in options (go-ucfg) is a parameter, assumed to fill the struct it is given and to give set a leaf value."
  },
  {
   "property": "C60",
   "status": "proved",
   "theorems": [
    "Sawmill.c_session",
    "Sawmill.answer_unique",
    "Sawmill.refused_load_unloads",
    "Sawmill.bad_load_keeps",
    "Sawmill.answer_c_string",
    "Sawmill.c_sample",
    "Sawmill.c_sample_codes",
    "Sawmill.c_sample_crash",
    "Sawmill.c_sample_registered",
    "Sawmill.sampleFill_example"
   ],
   "note": "error texts are not modelled, only which error it is; freeing of C memory is not modelled."
  },
  {
   "property": "C61",
   "status": "proved",
   "theorems": [
    "Sawmill.wasm_answers",
    "Sawmill.backE_self_iff",
    "Sawmill.wasm_sample",
    "Sawmill.wasm_sample_order"
   ],
   "note": "syscall/js conversions of arguments and result are not modelled."
  },
  {
   "property": "C62",
   "status": "proved",
   "theorems": [
    "Sawmill.cli_line",
    "Sawmill.cli_config",
    "Sawmill.pipeIs_calls"
   ],
   "note": "together with C51 (cli_spec) for the output as a whole; reading the YAML configuration file is not modelled."
  },
  {
   "property": "C63",
   "status": "proved",
   "theorems": [
    "Sawmill.metrics_history",
    "Sawmill.scrape_spec",
    "Sawmill.scrape_one",
    "Sawmill.second_not_shown",
    "Sawmill.second_not_shown_sample"
   ],
   "note": "client_golang's collector identity is modelled as (component ID, kind); hash collisions, the component_type label and HTTP are not modelled."
  },
  {
   "property": "C64",
   "status": "proved",
   "theorems": [
    "Sawmill.value_history",
    "Sawmill.value_fields",
    "Sawmill.value_accepts_iff",
    "Sawmill.shown_fresh",
    "Sawmill.value_exact_iff",
    "Sawmill.value_refused",
    "Sawmill.event_history",
    "Sawmill.shown_keeps_names",
    "Sawmill.sample_keeps_names",
    "Sawmill.shown_stale_elements",
    "Sawmill.refused_changes"
   ],
   "note": "values are trees here (no two pointers to one Value, slice or map); the history theorem is for accepted documents, refused ones have value_refused."
  },
  {
   "property": "C65",
   "status": "proved",
   "theorems": [
    "Sawmill.shared_memory",
    "Sawmill.shared_pure",
    "Sawmill.shared_built",
    "Sawmill.shared_refines",
    "Sawmill.separate_of_owns",
    "Sawmill.leaky_config_races",
    "Sawmill.same_event_races",
    "Sawmill.tidy_shared",
    "Sawmill.step_writes",
    "Sawmill.step_reads"
   ],
   "note": "sequentially consistent memory (race freedom is proved for it, which is what Go's DRF-SC guarantee needs); reading a Value is one access for all its fields; v.Array = append(...) is one writing access; the fields pointer of an Event is goroutine-local."
  },
  {
   "property": "C66",
   "status": "proved",
   "theorems": [
    "Sawmill.order_does_not_matter",
    "Sawmill.any_order",
    "Sawmill.overwritten_call",
    "Sawmill.delete_is_not_independent",
    "Sawmill.independent_sample"
   ],
   "note": "values passed in are fresh trees without nil pointers, as in C01 (histories)."
  },
  {
   "property": "C67",
   "status": "proved",
   "theorems": [
    "Sawmill.nil_event",
    "Sawmill.nil_event_sample"
   ],
   "note": "configured set values are leaves; the methods of a nil *Event are modelled by hand (Builtin.nilStep)."
  },
  {
   "property": "C68",
   "status": "proved",
   "theorems": [
    "Sawmill.leaves_restore",
    "Sawmill.leafySample_ok",
    "Sawmill.leafySample_leaves"
   ],
   "note": ""
  },
  {
   "property": "C69",
   "status": "proved",
   "theorems": [
    "Sawmill.Wire.unmarshal_reads",
    "Sawmill.Wire.unmarshalInto_reads",
    "Sawmill.Wire.message_unique",
    "Sawmill.Wire.unmarshal_append",
    "Sawmill.Wire.marshal_writes_message",
    "Sawmill.Wire.liberal_read",
    "Sawmill.Wire.entry_overrun"
   ],
   "note": "the grammar is Spec/WireText; which error is returned for bytes that are no message is not specified."
  },
  {
   "property": "C70",
   "status": "proved",
   "theorems": [
    "Sawmill.Client.program_runs",
    "Sawmill.Client.program_determined",
    "Sawmill.Client.shows_json_unique",
    "Sawmill.Client.program_no_shares",
    "Sawmill.Client.program_independent",
    "Sawmill.Client.demo_program",
    "Sawmill.Client.demo_independent",
    "Sawmill.Client.demo_crash"
   ],
   "note": "values passed to an event are newly made and the program keeps no pointers into events; pipelines exist from the start; the stack is large enough (the bound depends on the program)."
  },
  {
   "property": "C71",
   "status": "proved",
   "theorems": [
    "Sawmill.format_spec",
    "Sawmill.format_unknown",
    "Sawmill.endless_not_printed",
    "Sawmill.format_cycle",
    "Sawmill.print_shows_type",
    "Sawmill.print_leaf_inj",
    "Sawmill.print_ambiguous",
    "Sawmill.print_sample",
    "Sawmill.format_sample"
   ],
   "note": "the text of floats is a parameter (package fmt); package fmt's treatment of slices and maps is modelled by hand."
  },
  {
   "property": "C72",
   "status": "proved",
   "theorems": [
    "Sawmill.unpack_spec",
    "Sawmill.configured_set",
    "Sawmill.unpack_nil",
    "Sawmill.unpack_copies_share",
    "Sawmill.unpack_sample"
   ],
   "note": "go-ucfg, which calls Unpack, is not modelled; configured_set is for values that do not stand for null (set ignores those)."
  },
  {
   "property": "C73",
   "status": "proved",
   "theorems": [
    "Sawmill.Goro.goroutines",
    "Sawmill.Goro.goroutine_refines",
    "Sawmill.Goro.go_sample",
    "Sawmill.Goro.go_out",
    "Sawmill.Goro.shared_write_races"
   ],
   "note": "Reading a Value, or the entries of a map for encoding, is one access; goroutines do not hand events over to each other (C76 does) and do not assign to fields of a Value; Get(\"\") of a shared event is left out; JSON decoding and protobuf are left out here."
  },
  {
   "property": "C74",
   "status": "proved",
   "theorems": [
    "Sawmill.Goro.addresses",
    "Sawmill.Goro.loop_same",
    "Sawmill.Goro.sharing_visible"
   ],
   "note": "same calls as C73."
  },
  {
   "property": "C75",
   "status": "proved",
   "theorems": [
    "Sawmill.processors_reorder",
    "Sawmill.processors_any_order",
    "Sawmill.independent_commute",
    "Sawmill.apartProcs_independent",
    "Sawmill.apartProcs_run",
    "Sawmill.dependent_order_matters",
    "Sawmill.failing_order_matters"
   ],
   "note": "processors_any_order is for pipelines without copy_from; processors_reorder allows it as long as it meets no array or object."
  },
  {
   "property": "C76",
   "status": "proved",
   "theorems": [
    "Sawmill.Goro.workers",
    "Sawmill.Goro.pool_sample",
    "Sawmill.Goro.pool_out",
    "Sawmill.Goro.kept_event_races"
   ],
   "note": "calls and accesses as in C73; unbuffered channels are not modelled; the messages for the first stage are there at the start."
  },
  {
   "property": "C77",
   "status": "proved",
   "theorems": [
    "Sawmill.Gen.generated_tokens",
    "Sawmill.Gen.generate_writes",
    "Sawmill.Gen.main_spec",
    "Sawmill.Gen.generate_deterministic",
    "Sawmill.Gen.generate_idempotent",
    "Sawmill.Gen.comment_lines",
    "Sawmill.Gen.comment_fails_iff",
    "Sawmill.Gen.comment_reads",
    "Sawmill.Gen.go_name",
    "Sawmill.Gen.declared_funcs",
    "Sawmill.Gen.sampleGenEnv_lawful",
    "Sawmill.Gen.sample_presentable",
    "Sawmill.Gen.sample_ok",
    "Sawmill.Gen.sample_run"
   ],
   "note": "gofmt, go/parser, go-wordwrap, the case conversions and strconv.Quote are parameters (two laws for gofmt and the parser); the templates are translated by hand. The model reproduces the six generated files of the repository up to white space (tools/gen_check.lean.txt)."
  },
  {
   "property": "C78",
   "status": "proved",
   "theorems": [
    "Sawmill.Gen.docs_contents",
    "Sawmill.Gen.docs_deterministic",
    "Sawmill.Gen.row_one_line",
    "Sawmill.Gen.docs_text_lines",
    "Sawmill.Gen.sample_docs"
   ],
   "note": "the templates are translated by hand; the model reproduces docs/README.md byte for byte (tools/gen_check.lean.txt)."
  },
  {
   "property": "C79",
   "status": "proved",
   "theorems": [
    "Sawmill.put_below_itself_any",
    "Sawmill.set_copy_endless_any",
    "Sawmill.put_any_sample",
    "Sawmill.put_below_itself",
    "Sawmill.set_copy_endless",
    "Sawmill.endless_nothing",
    "Sawmill.endless_not_printed",
    "Sawmill.endless_or_ends",
    "Sawmill.formatPtr_ends",
    "Sawmill.holds_not_endless",
    "Sawmill.NoDangling.put",
    "Sawmill.NoDangling.get",
    "Sawmill.NoDangling.delete",
    "Sawmill.cycle_sample"
   ],
   "note": "a Go program that recurses for ever exhausts its stack and is killed; the model says that no bound on the recursion suffices"
  },
  {
   "property": "C80",
   "status": "proved",
   "theorems": [
    "Sawmill.flags_meaning",
    "Sawmill.flags_help",
    "Sawmill.main_bad_flags",
    "Sawmill.main_uncreatable",
    "Sawmill.main_refused",
    "Sawmill.main_loaded",
    "Sawmill.main_zero_iff",
    "Sawmill.main_processes_iff",
    "Sawmill.main_null_config",
    "Sawmill.main_clobber",
    "Sawmill.main_no_pipeline",
    "Sawmill.main_other_files",
    "Sawmill.main_failing_lines",
    "Sawmill.flags_sample",
    "Sawmill.main_sample",
    "Sawmill.main_sample_fails"
   ],
   "note": "Flag parsing follows Go's package flag; YAML decoding, and whether files can be created and written, are parameters; profiles are only empty or written. SIGPIPE, signals and the metrics listener are not modelled."
  },
  {
   "property": "C81",
   "status": "proved",
   "theorems": [
    "Sawmill.event_map_event"
   ],
   "note": "The names of a map are distinct (Sorted: the model lists maps by name)."
  },
  {
   "property": "C82",
   "status": "proved",
   "theorems": [
    "Sawmill.map_json",
    "Sawmill.map_accepts_iff",
    "Sawmill.json_map_event"
   ],
   "note": "encoding/json on plain maps is modelled (Model/GoJson) for the types of values that FromEvent returns, with time.Time.MarshalJSON and its year check; float formatting and parsing are parameters."
  },
  {
   "property": "C83",
   "status": "proved",
   "theorems": [
    "Sawmill.new_reports_first",
    "Sawmill.new_without_id",
    "Sawmill.new_error_text",
    "Sawmill.places_unique",
    "Sawmill.new_reports_first_sample",
    "Sawmill.new_reports_next_sample"
   ],
   "note": "The registry (with the constructors behind it) is a parameter; the text of its errors is a parameter of new_error_text."
  },
  {
   "property": "C84",
   "status": "proved",
   "theorems": [
    "Sawmill.processor_string",
    "Sawmill.processor_string_determines",
    "Sawmill.shown_sample",
    "Sawmill.shown_finite",
    "Sawmill.nan_sample",
    "Sawmill.nan_finite",
    "Sawmill.string_sample"
   ],
   "note": "encoding/json on the Config structs is modelled (Model/ConfigString); float formatting is a parameter with the laws of C48. The numbers of types that are not types are not told apart."
  },
  {
   "property": "C85",
   "status": "proved",
   "theorems": [
    "Sawmill.Slices.slices_are_lists",
    "Sawmill.Slices.lists_are_slices",
    "Sawmill.Slices.crashing_seen",
    "Sawmill.Slices.elements_stay",
    "Sawmill.Slices.never_shared",
    "Sawmill.Slices.apart_iff",
    "Sawmill.Slices.alone_seen",
    "Sawmill.Slices.util_append_slices",
    "Sawmill.Slices.shared_not_apart",
    "Sawmill.Slices.shared_shows",
    "Sawmill.Slices.apart_sample"
   ],
   "note": "the programs are those of Model/Mem and Model/Goro and eventutil.Append; slices begin at the first slot of their backing array. Decoding JSON into a used Value writes into backing arrays too and is C64 (for values that share nothing)."
  },
  {
   "property": "C86",
   "status": "proved",
   "theorems": [
    "Sawmill.put_says",
    "Sawmill.tryPut_says",
    "Sawmill.process_says",
    "Sawmill.process_says_any",
    "Sawmill.process_silent",
    "Sawmill.process_silent_any",
    "Sawmill.put_text_tells",
    "Sawmill.process_says_cyclic"
   ],
   "note": "process_says is about runs in which no copy_from meets an array or an object (C58); process_says_any and process_silent_any are about all memories and events; the texts are part of the specification of the processors (Spec/Processors), so C34, C35, C37, C58 and C60-C62 speak of them too."
  },
  {
   "property": "C87",
   "status": "proved",
   "theorems": [
    "Sawmill.quote_denotes",
    "Sawmill.literal_denotes_one",
    "Sawmill.quote_delimits",
    "Sawmill.quote_one_line",
    "Sawmill.quote_plain",
    "Sawmill.register_says",
    "Sawmill.register_panics_iff",
    "Sawmill.mustRegister_panics_iff",
    "Sawmill.unknown_says",
    "Sawmill.unknown_texts_differ",
    "Sawmill.new_says_unknown",
    "Sawmill.new_says_unknown_sample"
   ],
   "note": "strconv.Quote is modelled (Model/Quote); which characters from U+0080 on are printable is a parameter."
  },
  {
   "property": "C88",
   "status": "proved",
   "theorems": [
    "Sawmill.reflectValue_says",
    "Sawmill.reflectValue_panics_iff",
    "Sawmill.culprit_unique",
    "Sawmill.unsupportedText_inj",
    "Sawmill.mapToEvent_says",
    "Sawmill.unpack_says",
    "Sawmill.reflect_says_sample"
   ],
   "note": "the names of types (reflect.Type.String) are part of the description of a Go value; the order of the entries in the description of a map is the order of the iteration."
  },
  {
   "property": "C89",
   "status": "proved",
   "theorems": [
    "Sawmill.c_caller_tells",
    "Sawmill.json_errors_no_document",
    "Sawmill.wasm_tells",
    "Sawmill.cli_stderr",
    "Sawmill.complaint_line_inj",
    "Sawmill.log_reads_back",
    "Sawmill.log_forged",
    "Sawmill.c_caller_sample",
    "Sawmill.wasm_text_sample",
    "Sawmill.stderr_sample"
   ],
   "note": "the texts of errors of encoding/json, of Encode and of the reader are parameters (not JSON, without line feeds); cli_stderr is about a writer that does not fail, as cli_spec; what Go prints about a panic and what Load prints is not modelled."
  },
  {
   "property": "C90",
   "status": "proved",
   "theorems": [
    "Sawmill.stream_prompt",
    "Sawmill.stream_causal",
    "Sawmill.stream_killed",
    "Sawmill.stream_ends",
    "Sawmill.stream_sample"
   ],
   "note": "bufio.Scanner is modelled with its buffer; reads that deliver nothing without an error are part of the step that reads. A write to standard output is taken to reach its reader when Write returns (os.Stdout is not buffered)."
  },
  {
   "property": "C91",
   "status": "proved",
   "theorems": [
    "Sawmill.getters_read",
    "Sawmill.getters_read_sent",
    "Sawmill.getters_determine",
    "Sawmill.zero_or_absent",
    "Sawmill.nil_reads_nothing",
    "Sawmill.xxx_marshal",
    "Sawmill.xxx_marshal_exact",
    "Sawmill.xxx_marshal_roomy",
    "Sawmill.xxx_marshal_small",
    "Sawmill.marshal_parts",
    "Sawmill.marshal_to",
    "Sawmill.marshal_to_sized",
    "Sawmill.marshal_to_sample",
    "Sawmill.getters_sample",
    "Sawmill.xxx_sample"
   ],
   "note": "XXX_Marshal with deterministic set is done by the protobuf library: not modelled. xxx_marshal_small is about whole messages. The getters are total functions in the model; what is proved is what they return."
  },
  {
   "property": "C92",
   "status": "proved",
   "theorems": [
    "Sawmill.has_chars",
    "Sawmill.lower_text",
    "Sawmill.upper_text",
    "Sawmill.lower_ascii",
    "Sawmill.upper_ascii",
    "Sawmill.lower_upper_ascii",
    "Sawmill.lower_valid",
    "Sawmill.lower_fixed",
    "Sawmill.upper_fixed",
    "Sawmill.lower_again",
    "Sawmill.upper_again",
    "Sawmill.lower_append",
    "Sawmill.lowercase_field",
    "Sawmill.uppercase_field",
    "Sawmill.lowercase_twice",
    "Sawmill.uppercase_twice",
    "Sawmill.lower_sample",
    "Sawmill.upper_sample",
    "Sawmill.cut_sample",
    "Sawmill.uppercase_event_sample"
   ],
   "note": "the Unicode tables beyond ASCII are a parameter: an arbitrary function from characters to characters; strings.ToLower, strings.ToUpper and strings.Map are modelled as in Go 1.17. In all other claims the conversions are arbitrary functions, so those claims hold for these"
  },
  {
   "property": "C93",
   "status": "proved",
   "theorems": [
    "Sawmill.decodeYaml_iff",
    "Sawmill.yAny_iff",
    "Sawmill.yaml_order",
    "Sawmill.json_as_yaml",
    "Sawmill.json_yaml_pipeline",
    "Sawmill.new_rel",
    "Sawmill.yaml_round_trip",
    "Sawmill.yaml_repeated",
    "Sawmill.yaml_unknown",
    "Sawmill.yaml_id_text",
    "Sawmill.json_id_number",
    "Sawmill.load_yaml",
    "Sawmill.yaml_sample",
    "Sawmill.yaml_repeated_sample",
    "Sawmill.yaml_order_sample",
    "Sawmill.yaml_round_sample",
    "Sawmill.portable_tidy",
    "Sawmill.portable_sample"
   ],
   "note": "gopkg.in/yaml.v3 v3.0.1's decoder is modelled from memory of its source (it is not in the sandbox); its parser, with the choice of the value of a plain scalar, is a parameter, except for JSON numbers. Aliases are taken as expanded; merge keys are C94; !!binary is not modelled; the texts of errors neither. The order of entries of an untyped mapping with keys that are not strings is not claimed to be irrelevant"
  },
  {
   "property": "C94",
   "status": "proved",
   "theorems": [
    "Sawmill.merge_decode",
    "Sawmill.load_merged",
    "Sawmill.expands_exists",
    "Sawmill.visitNames_spec",
    "Sawmill.merge_refused",
    "Sawmill.merge_repeated",
    "Sawmill.merge_sample",
    "Sawmill.merge_sample_fine"
   ],
   "note": "The decoder is modelled from memory of yaml.v3 v3.0.1. merge_decode is over Expands (Spec/YamlMerge), which relates a document to the one without merge keys; expands_exists says that every document with scalar keys whose merges involve only string keys has one. Not claimed: merges of mappings whose keys are not strings (numbers as keys: the name of a struct field and the key of an interface differ); the panic of the library for a merging mapping with a mapping or sequence as a key"
  },
  {
   "property": "C95",
   "status": "proved",
   "theorems": [
    "Sawmill.Gen.schema_as",
    "Sawmill.Gen.generate_schema",
    "Sawmill.Gen.docs_schema",
    "Sawmill.Gen.generate_unread",
    "Sawmill.Gen.main_same",
    "Sawmill.Gen.docs_same",
    "Sawmill.Gen.schema_sample",
    "Sawmill.Gen.schema_unknown",
    "Sawmill.Gen.schema_sample_fine",
    "Sawmill.Gen.schema_sample_is"
   ],
   "note": "yaml.v3's decoder from memory, with KnownFields; its parser, the strings that count as booleans and %v are parameters. Documents as in C94 (Expands). Failures to write the documentation file are not modelled"
  },
  {
   "property": "C96",
   "status": "proved",
   "theorems": [
    "Sawmill.divide_new",
    "Sawmill.divide_any",
    "Sawmill.divide_process",
    "Sawmill.divide_handled",
    "Sawmill.names_aside",
    "Sawmill.divide_sample"
   ],
   "note": "divide_any has the first part without the global on_failure processors decide which pipeline's behaviour the whole one has; divide_handled is the counterexample that shows the hypothesis of divide_process to be needed. SameResult compares return value, error and memory and leaves out the counters, whose names contain the pipeline ID."
  },
  {
   "property": "C97",
   "status": "proved",
   "theorems": [
    "Sawmill.process_twice",
    "Sawmill.pipe_twice",
    "Sawmill.step_twice",
    "Sawmill.step_failed",
    "Sawmill.append_twice",
    "Sawmill.overwrite_twice",
    "Sawmill.twice_sample"
   ],
   "note": "Spec.Pipe.Repeatable (Spec/Twice) is the proviso. The conversions are parameters, as in C33; that they are idempotent is assumed only where they are used in place. append_twice and overwrite_twice show that the proviso is needed."
  },
  {
   "property": "C98",
   "status": "proved",
   "theorems": [
    "Sawmill.hidden_fields",
    "Sawmill.operations_shown",
    "Sawmill.step_shown",
    "Sawmill.pipeline_shown",
    "Sawmill.hidden_get",
    "Sawmill.unknown_json",
    "Sawmill.format_unknown",
    "Sawmill.unknown_crashes",
    "Sawmill.panic_unknown"
   ],
   "note": "Heap.mapCells Cell.shown (Spec/HandMade) is the memory with the fields cleared that the types do not name. hidden_get is the exception. panic_unknown assumes that no pointer dangles, as it is in Go. Counters are not part of pipeline_shown."
  },
  {
   "property": "C99",
   "status": "proved",
   "theorems": [
    "Sawmill.process_beside",
    "Sawmill.untouched",
    "Sawmill.beside_sample",
    "Sawmill.around_matters"
   ],
   "note": "Call.Beside, callsFirst and processFirst are in Spec/Beside; the fields that a pipeline looks at and assigns are Spec.readsAll and Spec.writesAll (Spec/Commute, as in C75). around_matters is the counterexample for a call around a named field."
  }
 ]
}
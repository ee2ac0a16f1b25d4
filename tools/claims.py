claim("C09", "proved", "Sawmill.keyToPath_joinKey Sawmill.path_addressable_iff Sawmill.keyToPath_escapeKey Sawmill.escapeKey_injective")
claim("C10", "proved", "Sawmill.keyToPath_eq_components Sawmill.keyToPath_goodNames Sawmill.keyToPath_leading_dot Sawmill.keyToPath_trailing_dot Sawmill.keyToPath_double_dot Sawmill.keyToPath_split")

claim("C01", "proved", "Sawmill.get_after_put Sawmill.get_after_put_straight Sawmill.straight_sample Sawmill.get_after_put_fails_on_cycle", "last theorem: why keys that go round in an event that contains itself are excluded")
claim("C02", "proved", "Sawmill.put_other_keys_any Sawmill.put_other_keys")
claim("C03", "proved", "Sawmill.put_error_atomic")
claim("C04", "proved", "Sawmill.put_outcome_any Sawmill.put_outcome", "put_outcome_any: any memory, event and value, where C12 says that Put returns (MapsAreMaps: what is used as a map is one, as Go's types guarantee). put_outcome: the special case of a new value and an event that owns its contents and has no nils.")
claim("C05", "proved", "Sawmill.tryPut_existing Sawmill.tryPut_missing")
claim("C06", "proved", "Sawmill.put_nil")
claim("C07", "proved", "Sawmill.delete_returns_get Sawmill.delete_root")
claim("C08", "proved", "Sawmill.delete_other_keys_one_name_any Sawmill.delete_keeps_other_entries_any Sawmill.delete_contents Sawmill.delete_clears_entry Sawmill.delete_removes_siblings Sawmill.delete_other_keys_one_name Sawmill.delete_keeps_other_entries", "Holds h e f: the finite contents seen in the event, with any sharing; the last two theorems are the same for events that own their contents.")
claim("C11", "proved", "Sawmill.get_root")
claim("C12", "proved", "Sawmill.get_panics_iff Sawmill.delete_panics_iff Sawmill.api_put_panics_iff Sawmill.api_never_panics Sawmill.api_panics_below_nil Sawmill.api_panics_below_nil_object")
claim("C13", "proved", "Sawmill.history_refines_nested_map Sawmill.history_refines_with_panics")
claim("C14", "proved", "Sawmill.events_do_not_interfere Sawmill.put_other_events Sawmill.delete_other_events", "the first theorem is for whole histories of calls with freshly built nil-free values, the other two for single calls on any separate events")
claim("C15", "proved", "Sawmill.history_independent Sawmill.same_treatment Sawmill.history_leaks", "third theorem: an array as configured value leaks from event to event")
claim("C16", "proved", "Sawmill.set_copy_scalar Sawmill.set_copy_alias Sawmill.copy_then_append")
claim("C17", "proved", "Sawmill.set_copy_spec Sawmill.set_copy_above Sawmill.set_copy_endless Sawmill.endless_nothing")
claim("C18", "proved", "Sawmill.pipeline_all_succeed Sawmill.pipeline_failure Sawmill.later_processors_do_not_run Sawmill.pipeline_cases")
claim("C19", "proved", "Sawmill.process_returns Sawmill.process_error_iff")
claim("C20", "proved", "Sawmill.pipeline_failure Sawmill.onFailure_only_after_failure Sawmill.pipeline_cases")
claim("C21", "proved", "Sawmill.ignore_failure_never_fails Sawmill.pipeline_ignore_failure")
claim("C22", "proved", "Sawmill.isMissing_iff Sawmill.ignore_missing_swallows Sawmill.ignore_missing_other_errors")
claim("C23", "proved", "Sawmill.local_on_failure")
claim("C24", "proved", "Sawmill.counters_conserved Sawmill.samplePipeline_run")
claim("C25", "proved", "Sawmill.errors_counter Sawmill.errors_counter_includes_recovered")
claim("C26", "proved", "Sawmill.drop_has_no_effect Sawmill.process_returns Sawmill.counters_conserved")
claim("C27", "proved", "Sawmill.cancel_has_no_effect")
claim("C28", "proved", "Sawmill.metrics_exact Sawmill.metrics_miss_global_on_failure")
claim("C29", "proved", "Sawmill.component_ids_unique")
claim("C30", "proved", "Sawmill.new_iff Sawmill.new_succeeds_iff Sawmill.sampleConfig_new")
claim("C31", "proved", "Sawmill.concurrent_eq_sequential Sawmill.concurrent_terminates Sawmill.sequential_order Sawmill.pipeline_thr_run")
claim("C32", "proved", "Sawmill.register_spec Sawmill.registry_is_write_once Sawmill.newProcessor_uses_registered")
claim("C33", "proved", "Sawmill.validateConfig_accepts_iff Sawmill.newProc_nillable Sawmill.accepted_but_always_panics")
claim("C34", "proved", "Sawmill.convert_spec Sawmill.convert_string Sawmill.convert_other", "strings.ToLower and strings.ToUpper are an arbitrary function")
claim("C35", "proved", "Sawmill.append_spec Sawmill.append_array Sawmill.append_string")
claim("C36", "proved", "Sawmill.remove_changes_nothing Sawmill.communityId_changes_nothing")
claim("C37", "proved", "Sawmill.set_value_spec Sawmill.set_scalar_spec Sawmill.set_nothing_spec Sawmill.set_copy_spec")
claim("C38", "proved", "Sawmill.utilAppend_spec Sawmill.utilAppend_result")
claim("C51","proved","Sawmill.cli_empty_reads Sawmill.cli_no_progress Sawmill.patient_sample Sawmill.cli_spec Sawmill.cli_too_long Sawmill.cli_chunking Sawmill.cli_framing Sawmill.cli_conservation Sawmill.cli_write_prefix Sawmill.cli_write_error_hidden Sawmill.lineEvent_spec Sawmill.blank_line Sawmill.solo_text_iff Sawmill.trimSpace_spec Sawmill.input_cases Sawmill.cli_sample Sawmill.cli_partial_line Sawmill.cli_lost_output Sawmill.cli_self_copy",
  "with bufio.Scanner and strings.TrimSpace modelled; input_cases: every input is covered by cli_spec or cli_too_long. Flags, YAML decoding and the metrics listener are not modelled.")
claim("C53", "proved", "Sawmill.conditions_have_no_effect")
claim("C54", "proved", "Sawmill.error_keeps_changes Sawmill.failed_process_changes_event")
claim("C40", "proved", "Sawmill.Wire.wire_round_trip Sawmill.Wire.wire_round_trip_any_order Sawmill.Wire.marshal_injective Sawmill.Wire.nil_array_lost", "last theorem: a message outside the domain is not preserved")
claim("C41", "proved", "Sawmill.Wire.marshal_exact Sawmill.Wire.marshal_panics_iff Sawmill.Wire.size_order_independent Sawmill.Wire.nil_item_panics")
claim("C42", "proved", "Sawmill.Wire.unmarshal_total Sawmill.Wire.unmarshal_again_total", "the depth of Go's stack is not modelled")
claim("C43", "proved", "Sawmill.Wire.unknown_fields_kept Sawmill.Wire.wire_round_trip", "the second theorem covers unknown fields in nested messages")
claim("C45", "proved", "Sawmill.Wire.varint_codec")
claim("C55", "proved", "Sawmill.Wire.reencode")
claim("C39", "proved", "Sawmill.fromEvent_spec Sawmill.protobuf_round_trip Sawmill.protobuf_round_trip_plain Sawmill.nested_dot_escaped Sawmill.empty_event_lost Sawmill.nil_values_panic Sawmill.fromEvent_cycle Sawmill.endless_nothing", "the last four are the exceptions named in the statement")
claim("C44", "proved", "Sawmill.toLogEvent_nil Sawmill.toLogEvent_panics_iff Sawmill.toLogEvent_spec Sawmill.toLogEvent_panics_on_decoded", "")
claim("C48", "proved", "Sawmill.goTime_exact Sawmill.unixNano_goTime Sawmill.goTime_unixNano", "time.Unix and UnixNano of the standard library are modelled")
claim("C56", "proved", "Sawmill.timestamp_text_denotes Sawmill.timestamp_text_injective Sawmill.timestamp_string Sawmill.timestamp_string_injective", "time.Time.Format of the standard library (Go 1.17 algorithm) is modelled")
claim("C46","proved","Sawmill.map_round_trip Sawmill.map_round_trip_widened Sawmill.mapToEvent_outcome Sawmill.mapFromEvent_spec Sawmill.map_round_trip_changes",
  "Go values are modelled by what type switches and reflection can observe of them; the round trip holds for every iteration order (order is any permutation). map_round_trip_changes gives the inputs for which the naive round trip is false.")
claim("C47","proved","Sawmill.reflectValue_outcome Sawmill.reflectValue_error_iff Sawmill.mapToEvent_outcome Sawmill.interface_field_unsupported Sawmill.string_option_drops",
  "Unsupported, Panicky and Inside are defined on Go values, independently of the conversion. Finite (acyclic) values only, as documented by the package.")

claim("C49","proved","Sawmill.json_round_trip Sawmill.json_round_trip_exact Sawmill.json_round_trip_settles Sawmill.json_round_trip_empty Sawmill.marshalEvent_spec Sawmill.json_lossy Sawmill.json_names_collide Sawmill.json_cycle Sawmill.endless_nothing",
  "strconv's float printing and parsing are any pair that satisfies JEnv.Lawful (printed finite floats are JSON numbers that parse back exactly; integer texts parse to some finite float); bitsEnv_lawful shows it is satisfiable.")
claim("C50","proved","Sawmill.unmarshalEvent_accepts_iff Sawmill.unmarshalEvent_null Sawmill.unmarshalEvent_object Sawmill.unmarshalEvent_kinds Sawmill.json_duplicate_name Sawmill.json_rejected",
  "the grammar is written out in Spec/Json independently of the scanner. Decoding into a new Event only.")
claim("C57","proved","Sawmill.marshalEvent_tidy Sawmill.marshalEvent_one_line Sawmill.cli_framing Sawmill.tidy_sample",
  "no hypothesis on the event: any heap, any pointer; cycles give no text at all.")

claim("C52","proved","Sawmill.marshalOpt_spec Sawmill.marshalConfig_spec Sawmill.unmarshalOpt_any Sawmill.unmarshalConfig_any Sawmill.unmarshalOpt_iff Sawmill.unmarshalOpt_rejects Sawmill.unmarshalConfig_iff Sawmill.opt_round_trip Sawmill.config_round_trip Sawmill.config_round_trip_new Sawmill.null_config_panics Sawmill.opt_id_replaced Sawmill.opt_case Sawmill.opt_case_lossy Sawmill.opt_case_error Sawmill.opt_empty Sawmill.opt_merge Sawmill.opt_stale Sawmill.config_twice","Float formatting and parsing are a parameter with stated laws. Options are nested maps of nil, bool, int64, uint64, float64, string, UTC time, slices and maps. unmarshalOpt_any and unmarshalConfig_any are for all documents (Spec/ConfigAny); the theorems ending in _iff state the same more simply for documents in which no two names of one object stand for the same field.")

claim("C58","proved","Sawmill.pipeline_pure Sawmill.same_contents_same_outcome Sawmill.no_copy_no_shares Sawmill.there_pipe Sawmill.sample_apply",
  "by structural induction over nested processors; the case that copy_from has met a container is excluded by Spec.Run.shares (C16 says what happens then).")
claim("C59","proved","Sawmill.new_plan Sawmill.config_semantics Sawmill.ignore_failure_only Sawmill.failure_not_ignored Sawmill.cli_registered Sawmill.sample_plan Sawmill.sample_accepted",
  "filling in options (go-ucfg) is a parameter, assumed to fill the struct it is given and to give set a leaf value.")
claim("C60","proved","Sawmill.c_session Sawmill.answer_unique Sawmill.refused_load_unloads Sawmill.bad_load_keeps Sawmill.answer_c_string Sawmill.c_sample Sawmill.c_sample_codes Sawmill.c_sample_crash Sawmill.c_sample_registered Sawmill.sampleFill_example",
  "error texts are not modelled, only which error it is; freeing of C memory is not modelled.")
claim("C61","proved","Sawmill.wasm_answers Sawmill.backE_self_iff Sawmill.wasm_sample Sawmill.wasm_sample_order",
  "syscall/js conversions of arguments and result are not modelled.")
claim("C62","proved","Sawmill.cli_line Sawmill.cli_config Sawmill.pipeIs_calls",
  "together with C51 (cli_spec) for the output as a whole; reading the YAML configuration file is not modelled.")
claim("C63","proved","Sawmill.metrics_history Sawmill.scrape_spec Sawmill.scrape_one Sawmill.second_not_shown Sawmill.second_not_shown_sample",
  "client_golang's collector identity is modelled as (component ID, kind); hash collisions, the component_type label and HTTP are not modelled.")
claim("C64","proved","Sawmill.value_history Sawmill.value_fields Sawmill.value_accepts_iff Sawmill.shown_fresh Sawmill.value_exact_iff Sawmill.value_refused Sawmill.event_history Sawmill.shown_keeps_names Sawmill.sample_keeps_names Sawmill.shown_stale_elements Sawmill.refused_changes",
  "values are trees here (no two pointers to one Value, slice or map); the history theorem is for accepted documents, refused ones have value_refused.")
claim("C65","proved","Sawmill.shared_memory Sawmill.shared_pure Sawmill.shared_built Sawmill.shared_refines Sawmill.separate_of_owns Sawmill.leaky_config_races Sawmill.same_event_races Sawmill.tidy_shared Sawmill.step_writes Sawmill.step_reads",
  "sequentially consistent memory (race freedom is proved for it, which is what Go's DRF-SC guarantee needs); reading a Value is one access for all its fields; v.Array = append(...) is one writing access; the fields pointer of an Event is goroutine-local.")
claim("C66","proved","Sawmill.order_does_not_matter Sawmill.any_order Sawmill.overwritten_call Sawmill.delete_is_not_independent Sawmill.independent_sample",
  "values passed in are fresh trees without nil pointers, as in C01 (histories).")
claim("C67","proved","Sawmill.nil_event Sawmill.nil_event_sample",
  "configured set values are leaves; the methods of a nil *Event are modelled by hand (Builtin.nilStep).")
claim("C68","proved","Sawmill.leaves_restore Sawmill.leafySample_ok Sawmill.leafySample_leaves","")
claim("C69","proved","Sawmill.Wire.unmarshal_reads Sawmill.Wire.unmarshalInto_reads Sawmill.Wire.message_unique Sawmill.Wire.unmarshal_append Sawmill.Wire.marshal_writes_message Sawmill.Wire.liberal_read Sawmill.Wire.entry_overrun",
  "the grammar is Spec/WireText; which error is returned for bytes that are no message is not specified.")
claim("C70","proved","Sawmill.Client.program_runs Sawmill.Client.program_determined Sawmill.Client.shows_json_unique Sawmill.Client.program_no_shares Sawmill.Client.program_independent Sawmill.Client.demo_program Sawmill.Client.demo_independent Sawmill.Client.demo_crash",
  "values passed to an event are newly made and the program keeps no pointers into events; pipelines exist from the start; the stack is large enough (the bound depends on the program).")
claim("C71","proved","Sawmill.format_spec Sawmill.format_unknown Sawmill.endless_not_printed Sawmill.format_cycle Sawmill.print_shows_type Sawmill.print_leaf_inj Sawmill.print_ambiguous Sawmill.print_sample Sawmill.format_sample",
  "the text of floats is a parameter (package fmt); package fmt's treatment of slices and maps is modelled by hand.")
claim("C72","proved","Sawmill.unpack_spec Sawmill.configured_set Sawmill.unpack_nil Sawmill.unpack_copies_share Sawmill.unpack_sample",
  "go-ucfg, which calls Unpack, is not modelled; configured_set is for values that do not stand for null (set ignores those).")

claim("C73","proved","Sawmill.Goro.goroutines Sawmill.Goro.goroutine_refines Sawmill.Goro.go_sample Sawmill.Goro.go_out Sawmill.Goro.shared_write_races",
  "Reading a Value, or the entries of a map for encoding, is one access; goroutines do not hand events over to each other (C76 does) and do not assign to fields of a Value; Get(\"\") of a shared event is left out; JSON decoding and protobuf are left out here.")
claim("C74","proved","Sawmill.Goro.addresses Sawmill.Goro.loop_same Sawmill.Goro.sharing_visible","same calls as C73.")
claim("C75","proved","Sawmill.processors_reorder Sawmill.processors_any_order Sawmill.independent_commute Sawmill.apartProcs_independent Sawmill.apartProcs_run Sawmill.dependent_order_matters Sawmill.failing_order_matters",
  "processors_any_order is for pipelines without copy_from; processors_reorder allows it as long as it meets no array or object.")
claim("C76","proved","Sawmill.Goro.workers Sawmill.Goro.pool_sample Sawmill.Goro.pool_out Sawmill.Goro.kept_event_races",
  "calls and accesses as in C73; unbuffered channels are not modelled; the messages for the first stage are there at the start.")
claim("C77","proved","Sawmill.Gen.generated_tokens Sawmill.Gen.generate_writes Sawmill.Gen.main_spec Sawmill.Gen.generate_deterministic Sawmill.Gen.generate_idempotent Sawmill.Gen.comment_lines Sawmill.Gen.comment_fails_iff Sawmill.Gen.comment_reads Sawmill.Gen.go_name Sawmill.Gen.declared_funcs Sawmill.Gen.sampleGenEnv_lawful Sawmill.Gen.sample_presentable Sawmill.Gen.sample_ok Sawmill.Gen.sample_run",
  "gofmt, go/parser, go-wordwrap, the case conversions and strconv.Quote are parameters (two laws for gofmt and the parser); the templates are translated by hand. The model reproduces the six generated files of the repository up to white space (tools/gen_check.lean.txt).")
claim("C78","proved","Sawmill.Gen.docs_contents Sawmill.Gen.docs_deterministic Sawmill.Gen.row_one_line Sawmill.Gen.docs_text_lines Sawmill.Gen.sample_docs",
  "the templates are translated by hand; the model reproduces docs/README.md byte for byte (tools/gen_check.lean.txt).")
claim("C79","proved","Sawmill.put_below_itself_any Sawmill.set_copy_endless_any Sawmill.put_any_sample Sawmill.put_below_itself Sawmill.set_copy_endless Sawmill.endless_nothing Sawmill.endless_not_printed Sawmill.endless_or_ends Sawmill.formatPtr_ends Sawmill.holds_not_endless Sawmill.NoDangling.put Sawmill.NoDangling.get Sawmill.NoDangling.delete Sawmill.cycle_sample",
  "a Go program that recurses for ever exhausts its stack and is killed; the model says that no bound on the recursion suffices")
claim("C80","proved","Sawmill.flags_meaning Sawmill.flags_help Sawmill.main_bad_flags Sawmill.main_uncreatable Sawmill.main_refused Sawmill.main_loaded Sawmill.main_zero_iff Sawmill.main_processes_iff Sawmill.main_null_config Sawmill.main_clobber Sawmill.main_no_pipeline Sawmill.main_other_files Sawmill.main_failing_lines Sawmill.flags_sample Sawmill.main_sample Sawmill.main_sample_fails","Flag parsing follows Go's package flag; YAML decoding, and whether files can be created and written, are parameters; profiles are only empty or written. SIGPIPE, signals and the metrics listener are not modelled.")
claim("C81","proved","Sawmill.event_map_event","The names of a map are distinct (Sorted: the model lists maps by name).")
claim("C82","proved","Sawmill.map_json Sawmill.map_accepts_iff Sawmill.json_map_event","encoding/json on plain maps is modelled (Model/GoJson) for the types of values that FromEvent returns, with time.Time.MarshalJSON and its year check; float formatting and parsing are parameters.")
claim("C83","proved","Sawmill.new_reports_first Sawmill.new_without_id Sawmill.new_error_text Sawmill.places_unique Sawmill.new_reports_first_sample Sawmill.new_reports_next_sample","The registry (with the constructors behind it) is a parameter; the text of its errors is a parameter of new_error_text.")
claim("C84","proved","Sawmill.processor_string Sawmill.processor_string_determines Sawmill.shown_sample Sawmill.shown_finite Sawmill.nan_sample Sawmill.nan_finite Sawmill.string_sample","encoding/json on the Config structs is modelled (Model/ConfigString); float formatting is a parameter with the laws of C48. The numbers of types that are not types are not told apart.")
claim("C85","proved","Sawmill.Slices.slices_are_lists Sawmill.Slices.lists_are_slices Sawmill.Slices.crashing_seen Sawmill.Slices.elements_stay Sawmill.Slices.never_shared Sawmill.Slices.apart_iff Sawmill.Slices.alone_seen Sawmill.Slices.util_append_slices Sawmill.Slices.shared_not_apart Sawmill.Slices.shared_shows Sawmill.Slices.apart_sample","the programs are those of Model/Mem and Model/Goro and eventutil.Append; slices begin at the first slot of their backing array. Decoding JSON into a used Value writes into backing arrays too and is C64 (for values that share nothing).")
claim("C86","proved","Sawmill.put_says Sawmill.tryPut_says Sawmill.process_says Sawmill.process_says_any Sawmill.process_silent Sawmill.process_silent_any Sawmill.put_text_tells Sawmill.process_says_cyclic","process_says is about runs in which no copy_from meets an array or an object (C58); process_says_any and process_silent_any are about all memories and events; the texts are part of the specification of the processors (Spec/Processors), so C34, C35, C37, C58 and C60-C62 speak of them too.")
claim("C87","proved","Sawmill.quote_denotes Sawmill.literal_denotes_one Sawmill.quote_delimits Sawmill.quote_one_line Sawmill.quote_plain Sawmill.register_says Sawmill.register_panics_iff Sawmill.mustRegister_panics_iff Sawmill.unknown_says Sawmill.unknown_texts_differ Sawmill.new_says_unknown Sawmill.new_says_unknown_sample","strconv.Quote is modelled (Model/Quote); which characters from U+0080 on are printable is a parameter.")
claim("C88","proved","Sawmill.reflectValue_says Sawmill.reflectValue_panics_iff Sawmill.culprit_unique Sawmill.unsupportedText_inj Sawmill.mapToEvent_says Sawmill.unpack_says Sawmill.reflect_says_sample","the names of types (reflect.Type.String) are part of the description of a Go value; the order of the entries in the description of a map is the order of the iteration.")
claim("C89","proved","Sawmill.c_caller_tells Sawmill.json_errors_no_document Sawmill.wasm_tells Sawmill.cli_stderr Sawmill.complaint_line_inj Sawmill.log_reads_back Sawmill.log_forged Sawmill.c_caller_sample Sawmill.wasm_text_sample Sawmill.stderr_sample","the texts of errors of encoding/json, of Encode and of the reader are parameters (not JSON, without line feeds); cli_stderr is about a writer that does not fail, as cli_spec; what Go prints about a panic and what Load prints is not modelled.")
claim("C90","proved","Sawmill.stream_prompt Sawmill.stream_causal Sawmill.stream_killed Sawmill.stream_ends Sawmill.stream_sample","bufio.Scanner is modelled with its buffer; reads that deliver nothing without an error are part of the step that reads. A write to standard output is taken to reach its reader when Write returns (os.Stdout is not buffered).")
claim("C91","proved","Sawmill.getters_read Sawmill.getters_read_sent Sawmill.getters_determine Sawmill.zero_or_absent Sawmill.nil_reads_nothing Sawmill.xxx_marshal Sawmill.xxx_marshal_exact Sawmill.xxx_marshal_roomy Sawmill.xxx_marshal_small Sawmill.marshal_parts Sawmill.marshal_to Sawmill.marshal_to_sized Sawmill.marshal_to_sample Sawmill.getters_sample Sawmill.xxx_sample","XXX_Marshal with deterministic set is done by the protobuf library: not modelled. xxx_marshal_small is about whole messages. The getters are total functions in the model; what is proved is what they return.")
claim("C92","proved","Sawmill.has_chars Sawmill.lower_text Sawmill.upper_text Sawmill.lower_ascii Sawmill.upper_ascii Sawmill.lower_upper_ascii Sawmill.lower_valid Sawmill.lower_fixed Sawmill.upper_fixed Sawmill.lower_again Sawmill.upper_again Sawmill.lower_append Sawmill.lowercase_field Sawmill.uppercase_field Sawmill.lowercase_twice Sawmill.uppercase_twice Sawmill.lower_sample Sawmill.upper_sample Sawmill.cut_sample Sawmill.uppercase_event_sample","the Unicode tables beyond ASCII are a parameter: an arbitrary function from characters to characters; strings.ToLower, strings.ToUpper and strings.Map are modelled as in Go 1.17. In all other claims the conversions are arbitrary functions, so those claims hold for these")
claim("C93","proved","Sawmill.decodeYaml_iff Sawmill.yAny_iff Sawmill.yaml_order Sawmill.json_as_yaml Sawmill.json_yaml_pipeline Sawmill.new_rel Sawmill.yaml_round_trip Sawmill.yaml_repeated Sawmill.yaml_unknown Sawmill.yaml_id_text Sawmill.json_id_number Sawmill.load_yaml Sawmill.yaml_sample Sawmill.yaml_repeated_sample Sawmill.yaml_order_sample Sawmill.yaml_round_sample Sawmill.portable_tidy Sawmill.portable_sample","gopkg.in/yaml.v3 v3.0.1's decoder is modelled from memory of its source (it is not in the sandbox); its parser, with the choice of the value of a plain scalar, is a parameter, except for JSON numbers. Aliases are taken as expanded; merge keys are C94; !!binary is not modelled; the texts of errors neither. The order of entries of an untyped mapping with keys that are not strings is not claimed to be irrelevant")
claim("C94","proved","Sawmill.merge_decode Sawmill.load_merged Sawmill.expands_exists Sawmill.visitNames_spec Sawmill.merge_refused Sawmill.merge_repeated Sawmill.merge_sample Sawmill.merge_sample_fine","The decoder is modelled from memory of yaml.v3 v3.0.1. merge_decode is over Expands (Spec/YamlMerge), which relates a document to the one without merge keys; expands_exists says that every document with scalar keys whose merges involve only string keys has one. Not claimed: merges of mappings whose keys are not strings (numbers as keys: the name of a struct field and the key of an interface differ); the panic of the library for a merging mapping with a mapping or sequence as a key")
claim("C95","proved","Sawmill.Gen.schema_as Sawmill.Gen.generate_schema Sawmill.Gen.docs_schema Sawmill.Gen.generate_unread Sawmill.Gen.main_same Sawmill.Gen.docs_same Sawmill.Gen.schema_sample Sawmill.Gen.schema_unknown Sawmill.Gen.schema_sample_fine Sawmill.Gen.schema_sample_is","yaml.v3's decoder from memory, with KnownFields; its parser, the strings that count as booleans and %v are parameters. Documents as in C94 (Expands). Failures to write the documentation file are not modelled")
claim("C96","proved","Sawmill.divide_new Sawmill.divide_any Sawmill.divide_process Sawmill.divide_handled Sawmill.names_aside Sawmill.divide_sample","divide_any has the first part without the global on_failure processors decide which pipeline's behaviour the whole one has; divide_handled is the counterexample that shows the hypothesis of divide_process to be needed. SameResult compares return value, error and memory and leaves out the counters, whose names contain the pipeline ID.")
claim("C97","proved","Sawmill.process_twice Sawmill.pipe_twice Sawmill.step_twice Sawmill.step_failed Sawmill.append_twice Sawmill.overwrite_twice Sawmill.twice_sample","Spec.Pipe.Repeatable (Spec/Twice) is the proviso. The conversions are parameters, as in C33; that they are idempotent is assumed only where they are used in place. append_twice and overwrite_twice show that the proviso is needed.")
claim("C98","proved","Sawmill.hidden_fields Sawmill.operations_shown Sawmill.step_shown Sawmill.pipeline_shown Sawmill.hidden_get Sawmill.unknown_json Sawmill.format_unknown Sawmill.unknown_crashes Sawmill.panic_unknown","Heap.mapCells Cell.shown (Spec/HandMade) is the memory with the fields cleared that the types do not name. hidden_get is the exception. panic_unknown assumes that no pointer dangles, as it is in Go. Counters are not part of pipeline_shown.")
claim("C99","proved","Sawmill.process_beside Sawmill.untouched Sawmill.beside_sample Sawmill.around_matters","Call.Beside, callsFirst and processFirst are in Spec/Beside; the fields that a pipeline looks at and assigns are Spec.readsAll and Spec.writesAll (Spec/Commute, as in C75). around_matters is the counterexample for a call around a named field.")
claim("C100","proved","Sawmill.trip_contents Sawmill.trips_contents Sawmill.trip_goes Sawmill.trips_go Sawmill.trips_grow Sawmill.trips_differ Sawmill.trips_settle Sawmill.trips_same Sawmill.travelSample_ok Sawmill.travelSample_goes","Trip, Trips, carried, dotsInside and CanTravel are in Spec/Hops. trips_grow bounds the size of the message from below. The trips are those of C39 and C81, put together.")
claim("C101","proved","Sawmill.Wire.bomb_goes_off Sawmill.Wire.bomb_worst Sawmill.Wire.marshal_no_bomb Sawmill.Wire.bomb_defused Sawmill.Wire.marshal_strict Sawmill.Wire.bomb_not_strict Sawmill.Wire.bomb_sample Sawmill.Wire.bomb_hundred","PWrapper.values (Spec/Bomb) counts the Value messages. The decoder is the byte-level model of C69; the proofs use its grammar (Spec/WireText); messages whose entries keep to their ends are a grammar of their own (Spec/WireStrict).")
claim("C102","proved","Sawmill.api_cost Sawmill.process_cost Sawmill.cli_cost Sawmill.json_cost Sawmill.copies_of_copies Sawmill.cost_sample Sawmill.cost_sharp","Sizes are those of the model memory (Spec/Cost), which is never freed: bytes of strings and Go's own overhead are not counted.")
claim("C103","proved","Sawmill.readers_fine Sawmill.readers_finish Sawmill.new_concurrent Sawmill.newProg_alone Sawmill.register_races Sawmill.register_twice Sawmill.single_run Sawmill.registry_conc_sample","Steps are single accesses to the map, with sequential consistency. Assumed: what go-ucfg and the constructors do touches nothing that is shared. RegProg.alone (Spec/RegistryConc) runs the calls of Model/Registry one after the other.")
claim("C104","proved","Sawmill.api_returns Sawmill.append_returns Sawmill.pipeline_returns Sawmill.process_no_panic Sawmill.new_no_panic Sawmill.decoded_no_nils Sawmill.message_marshals Sawmill.library_no_panic Sawmill.cli_no_panic Sawmill.no_nils_sample Sawmill.nil_sample Sawmill.no_nils_new","go-ucfg, which fills in the options, is a parameter: assumed is that it makes options of the struct it is given, and a value for each set. nil_sample shows that a nil makes the same pipeline panic (C12 has the exact condition).")
claim("C105","proved","Sawmill.Wire.unmarshal_cut Sawmill.Wire.marshal_cut Sawmill.Wire.event_message_cut Sawmill.Wire.empty_message Sawmill.Wire.unmarshal_joined Sawmill.Wire.unmarshal_stream Sawmill.marshalEvent_form Sawmill.json_cut Sawmill.json_joined Sawmill.json_two","For bytes shorter than 2^63 - 8. JSON: for any heap and any rendering of floats. The bytes of a message that are refused may be accepted when cut (example in Props/Truncate).")
claim("C106","proved","Sawmill.Mem.alone_steps Sawmill.get_all_or_nothing Sawmill.put_all_or_nothing Sawmill.delete_all_or_nothing Sawmill.util_all_or_nothing Sawmill.builtin_all_or_nothing Sawmill.crash_keeps Sawmill.put_new_returns Sawmill.pipeline_crash Sawmill.attempt_process Sawmill.attempts_counters Sawmill.attempts_built Sawmill.crash_sample","The programs of single memory accesses of C65 are run until they return or panic, with the memory and the counters at that point (alone_steps: this is the run of one goroutine of C65). EndsAs says that a panic has only added objects to the memory. pipeline_crash says that a panicking pipeline leaves the memory of Thr.attempt, in which the finished processors have run and the panicking one has not begun, and new objects. The counters are for arbitrary processors.")
claim("C107","proved","Sawmill.json_same Sawmill.json_same_empty Sawmill.json_same_decoded Sawmill.json_same_sample Sawmill.json_same_invalid","SameJson (Spec/SameJson.lean) says of two values when they are the same JSON, without the encoder; only Val.Numeral (for floats written as integers, by the number grammar of Spec/Json.lean) and StampText (for the text of a timestamp, which C56 specifies) refer to texts. Float printing and reading are the parameter of C49 (JEnv.Lawful). The theorems are about texts that encoding returned: whether it does is C49/C50.")
claim("C108","proved","Sawmill.proto_same Sawmill.proto_one_text Sawmill.proto_writes Sawmill.proto_same_sample","MayWrite (Spec/SameProto.lean): Marshal returns these bytes when the maps are iterated in some order (SameMessage, C40). Messages of 2^63 - 8 bytes and more are excluded, as in C40. Sorted and Canon only say that the model lists maps in the order of their keys. That some byte string is possible is a hypothesis of the first two theorems (Marshal panics on a nil in a slice, C41); proto_writes says when it is met.")
claim("C109","proved","Sawmill.json_get_decoded Sawmill.json_get_encoded Sawmill.json_get_sample Sawmill.json_get_encoded_sample","LastAt, JsonAt, NullBefore (Spec/JsonGet.lean): what a document has at a path. components (C09) are the names that a key denotes, Says (C49) what a value says in JSON; a text is the text of only one document (document_unique, C50). Sorted and Canon only say that the model lists maps in the order of their keys.")
claim("C110","proved","Sawmill.timestamp_text_order Sawmill.timestamp_text_order_seconds Sawmill.timestamp_text_order_sample","TextBefore, CutOff (Spec/TimeOrder.lean). The order is that of byte strings. time.Time and its formatting are the standard library of Go 1.17, modelled in Model/Time.lean; C56 says that the text denotes the timestamp.")
claim("C111","proved","Sawmill.go_map_same Sawmill.go_map_self Sawmill.go_map_of_message Sawmill.go_map_same_sample","DeepEqual, IsNaN, Val.shown, Val.NoNaN (Spec/SameGoMap.lean). DeepEqual says what the documentation of reflect.DeepEqual says for the types that FromEvent makes; its rule that one and the same slice or map is equal to itself without a look inside plays no part, as every call makes new ones. Sorted and Canon only say that the model lists maps in the order of their keys.")
claim("C112","proved","Sawmill.put_changes Sawmill.delete_changes Sawmill.get_elsewhere Sawmill.seen_elsewhere Sawmill.put_seen Sawmill.delete_seen Sawmill.asks_first Sawmill.put_effect_sample Sawmill.put_effect_sample_memory Sawmill.delete_effect_sample","the first two say what changes, the next two what does not, then what is seen of the change")
claim("C113","proved","Sawmill.no_common_no_effect Sawmill.no_common_sample","Works (Spec/NoCommon.lean): a history of calls on one event; Reaches: the way Get goes, by names through the maps of values. Reads of . are not compared (they return a new *Value around the map, which is shown to have the same entries).")
claim("C114","proved","Sawmill.step_changes Sawmill.step_changes_sample","StepChange (Spec/StepChange.lean): nothing, one entry of one map reached by names, or one more element of one list found by Get; also the error case. The builtin processors only: what a Wasm or Starlark script does is a history of calls, for which see C112 and C113.")
claim("C115","proved","Sawmill.process_beside_kept Sawmill.process_beside_kept_sample","NoCommon (Spec/NoCommon.lean), ValueApart and Longer (Spec/ProcessBeside.lean). Get of . is left out: it returns a new *Value. A Process that panics has no memory to speak about in this model (see C106 for that).")
claim("C116","proved","Sawmill.process_changes Sawmill.process_changes_sample","vs: the addresses of the configured values. Reaches: the way Get goes, by names. Counters and the log are outside of this memory (C18 to C27).")
claim("C117","proved","Sawmill.append_to_list Sawmill.append_new_list Sawmill.append_nil Sawmill.append_shared_sample","The entry of a list that is there is written again with the same pointer: SameBut says that maps have the same entries. Backing arrays are not shared in this model: that no two lists share one is C85.")
claim("C118","proved","Sawmill.all_work_beside Sawmill.all_work_sample","Values that are put are new, or from the event itself, or have no map in common with the other event (Works). The item given to Append may be any value in memory: a list gives its elements, which are not maps of the event, and a value of another type becomes an element.")
claim("C119","proved","Sawmill.turns_beside Sawmill.turns_sample Sawmill.many_turns_beside Sawmill.many_turns_sample","Calls are interleaved as wholes: data races inside a call are not modelled. Undisturbed is the conclusion of all_work_beside.")

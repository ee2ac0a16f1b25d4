# Axioms of every theorem named in MANIFEST.json

(`#print axioms`, written by tools/gen_axioms.py)

| Property | Theorem | Axioms |
|---|---|---|
| C01 | Sawmill.get_after_put | propext, Quot.sound |
| C01 | Sawmill.get_after_put_straight | propext, Quot.sound |
| C01 | Sawmill.straight_sample | propext, Classical.choice, Quot.sound |
| C01 | Sawmill.get_after_put_fails_on_cycle | propext, Classical.choice, Quot.sound |
| C02 | Sawmill.put_other_keys_any | propext, Classical.choice, Quot.sound |
| C02 | Sawmill.put_other_keys | propext, Classical.choice, Quot.sound |
| C03 | Sawmill.put_error_atomic | propext, Quot.sound |
| C04 | Sawmill.put_outcome_any | propext, Classical.choice, Quot.sound |
| C04 | Sawmill.put_outcome | propext, Classical.choice, Quot.sound |
| C05 | Sawmill.tryPut_existing | propext |
| C05 | Sawmill.tryPut_missing | propext, Quot.sound |
| C06 | Sawmill.put_nil | propext |
| C07 | Sawmill.delete_returns_get | propext, Quot.sound |
| C07 | Sawmill.delete_root | propext |
| C08 | Sawmill.delete_other_keys_one_name_any | propext, Classical.choice, Quot.sound |
| C08 | Sawmill.delete_keeps_other_entries_any | propext, Classical.choice, Quot.sound |
| C08 | Sawmill.delete_contents | propext, Quot.sound |
| C08 | Sawmill.delete_clears_entry | propext |
| C08 | Sawmill.delete_removes_siblings | propext, Classical.choice, Quot.sound |
| C08 | Sawmill.delete_other_keys_one_name | propext, Classical.choice, Quot.sound |
| C08 | Sawmill.delete_keeps_other_entries | propext, Classical.choice, Quot.sound |
| C09 | Sawmill.keyToPath_joinKey | propext, Quot.sound |
| C09 | Sawmill.path_addressable_iff | propext, Quot.sound |
| C09 | Sawmill.keyToPath_escapeKey | propext, Classical.choice, Quot.sound |
| C09 | Sawmill.escapeKey_injective | propext, Classical.choice, Quot.sound |
| C10 | Sawmill.keyToPath_eq_components | propext, Quot.sound |
| C10 | Sawmill.keyToPath_goodNames | propext, Quot.sound |
| C10 | Sawmill.keyToPath_leading_dot | propext, Quot.sound |
| C10 | Sawmill.keyToPath_trailing_dot | propext, Quot.sound |
| C10 | Sawmill.keyToPath_double_dot | propext, Quot.sound |
| C10 | Sawmill.keyToPath_split | propext, Quot.sound |
| C100 | Sawmill.trip_contents | propext, Classical.choice, Quot.sound |
| C100 | Sawmill.trips_contents | propext, Classical.choice, Quot.sound |
| C100 | Sawmill.trip_goes | propext, Classical.choice, Quot.sound |
| C100 | Sawmill.trips_go | propext, Classical.choice, Quot.sound |
| C100 | Sawmill.trips_grow | propext, Classical.choice, Quot.sound |
| C100 | Sawmill.trips_differ | propext, Quot.sound |
| C100 | Sawmill.trips_settle | propext, Classical.choice, Quot.sound |
| C100 | Sawmill.trips_same | propext, Classical.choice, Quot.sound |
| C100 | Sawmill.travelSample_ok | propext, Classical.choice, Quot.sound |
| C100 | Sawmill.travelSample_goes | propext, Classical.choice, Quot.sound |
| C101 | Sawmill.Wire.bomb_goes_off | propext, Classical.choice, Quot.sound |
| C101 | Sawmill.Wire.bomb_worst | propext, Classical.choice, Quot.sound |
| C101 | Sawmill.Wire.marshal_no_bomb | propext, Classical.choice, Quot.sound |
| C101 | Sawmill.Wire.bomb_defused | propext, Classical.choice, Quot.sound |
| C101 | Sawmill.Wire.marshal_strict | propext, Classical.choice, Quot.sound |
| C101 | Sawmill.Wire.bomb_not_strict | propext, Classical.choice, Quot.sound |
| C101 | Sawmill.Wire.bomb_sample | propext, Quot.sound |
| C101 | Sawmill.Wire.bomb_hundred | propext, Classical.choice, Quot.sound |
| C102 | Sawmill.api_cost | propext, Quot.sound |
| C102 | Sawmill.process_cost | propext, Classical.choice, Quot.sound |
| C102 | Sawmill.cli_cost | propext, Classical.choice, Quot.sound |
| C102 | Sawmill.json_cost | propext, Classical.choice, Quot.sound |
| C102 | Sawmill.copies_of_copies | propext, Classical.choice, Quot.sound |
| C102 | Sawmill.cost_sample | propext, Classical.choice, Quot.sound |
| C102 | Sawmill.cost_sharp | propext, Classical.choice, Quot.sound |
| C103 | Sawmill.readers_fine | propext, Classical.choice, Quot.sound |
| C103 | Sawmill.readers_finish | propext, Classical.choice, Quot.sound |
| C103 | Sawmill.new_concurrent | propext, Classical.choice, Quot.sound |
| C103 | Sawmill.newProg_alone | propext, Classical.choice, Quot.sound |
| C103 | Sawmill.register_races | propext, Classical.choice, Quot.sound |
| C103 | Sawmill.register_twice | propext, Classical.choice, Quot.sound |
| C103 | Sawmill.single_run | propext, Classical.choice, Quot.sound |
| C103 | Sawmill.registry_conc_sample | propext, Classical.choice, Quot.sound |
| C104 | Sawmill.api_returns | propext, Quot.sound |
| C104 | Sawmill.append_returns | propext, Quot.sound |
| C104 | Sawmill.pipeline_returns | none |
| C104 | Sawmill.process_no_panic | propext, Classical.choice, Quot.sound |
| C104 | Sawmill.new_no_panic | propext, Classical.choice, Quot.sound |
| C104 | Sawmill.decoded_no_nils | propext, Quot.sound |
| C104 | Sawmill.message_marshals | propext, Classical.choice, Quot.sound |
| C104 | Sawmill.library_no_panic | propext, Classical.choice, Quot.sound |
| C104 | Sawmill.cli_no_panic | propext, Classical.choice, Quot.sound |
| C104 | Sawmill.no_nils_sample | propext, Classical.choice, Quot.sound |
| C104 | Sawmill.nil_sample | propext, Classical.choice, Quot.sound |
| C104 | Sawmill.no_nils_new | propext, Classical.choice, Quot.sound |
| C105 | Sawmill.Wire.unmarshal_cut | propext, Classical.choice, Quot.sound |
| C105 | Sawmill.Wire.marshal_cut | propext, Classical.choice, Quot.sound |
| C105 | Sawmill.Wire.event_message_cut | propext, Classical.choice, Quot.sound |
| C105 | Sawmill.Wire.empty_message | propext, Quot.sound |
| C105 | Sawmill.Wire.unmarshal_joined | propext, Classical.choice, Quot.sound |
| C105 | Sawmill.Wire.unmarshal_stream | propext, Classical.choice, Quot.sound |
| C105 | Sawmill.marshalEvent_form | propext, Classical.choice, Quot.sound |
| C105 | Sawmill.json_cut | propext, Classical.choice, Quot.sound |
| C105 | Sawmill.json_joined | propext, Classical.choice, Quot.sound |
| C105 | Sawmill.json_two | propext, Classical.choice, Quot.sound |
| C106 | Sawmill.Mem.alone_steps | propext |
| C106 | Sawmill.get_all_or_nothing | propext, Quot.sound |
| C106 | Sawmill.put_all_or_nothing | propext, Classical.choice, Quot.sound |
| C106 | Sawmill.delete_all_or_nothing | propext, Quot.sound |
| C106 | Sawmill.util_all_or_nothing | propext, Classical.choice, Quot.sound |
| C106 | Sawmill.builtin_all_or_nothing | propext, Classical.choice, Quot.sound |
| C106 | Sawmill.crash_keeps | propext, Quot.sound |
| C106 | Sawmill.put_new_returns | propext, Quot.sound |
| C106 | Sawmill.pipeline_crash | propext, Classical.choice, Quot.sound |
| C106 | Sawmill.attempt_process | propext, Quot.sound |
| C106 | Sawmill.attempts_counters | propext, Classical.choice, Quot.sound |
| C106 | Sawmill.attempts_built | propext, Classical.choice, Quot.sound |
| C106 | Sawmill.crash_sample | propext, Classical.choice, Quot.sound |
| C107 | Sawmill.json_same | propext, Classical.choice, Quot.sound |
| C107 | Sawmill.json_same_empty | propext, Classical.choice, Quot.sound |
| C107 | Sawmill.json_same_decoded | propext, Classical.choice, Quot.sound |
| C107 | Sawmill.json_same_sample | propext, Classical.choice, Quot.sound |
| C107 | Sawmill.json_same_invalid | propext, Classical.choice, Quot.sound |
| C108 | Sawmill.proto_same | propext, Classical.choice, Quot.sound |
| C108 | Sawmill.proto_one_text | propext, Classical.choice, Quot.sound |
| C108 | Sawmill.proto_writes | propext, Classical.choice, Quot.sound |
| C108 | Sawmill.proto_same_sample | propext, Classical.choice, Quot.sound |
| C109 | Sawmill.json_get_decoded | propext, Classical.choice, Quot.sound |
| C109 | Sawmill.json_get_encoded | propext, Classical.choice, Quot.sound |
| C109 | Sawmill.json_get_sample | propext, Classical.choice, Quot.sound |
| C109 | Sawmill.json_get_encoded_sample | propext, Classical.choice, Quot.sound |
| C11 | Sawmill.get_root | propext, Quot.sound |
| C110 | Sawmill.timestamp_text_order | propext, Classical.choice, Quot.sound |
| C110 | Sawmill.timestamp_text_order_seconds | propext, Classical.choice, Quot.sound |
| C110 | Sawmill.timestamp_text_order_sample | propext, Classical.choice, Quot.sound |
| C111 | Sawmill.go_map_same | propext, Classical.choice, Quot.sound |
| C111 | Sawmill.go_map_self | propext, Classical.choice, Quot.sound |
| C111 | Sawmill.go_map_of_message | propext, Classical.choice, Quot.sound |
| C111 | Sawmill.go_map_same_sample | propext, Classical.choice, Quot.sound |
| C112 | Sawmill.put_changes | propext, Quot.sound |
| C112 | Sawmill.delete_changes | propext |
| C112 | Sawmill.get_elsewhere | propext, Quot.sound |
| C112 | Sawmill.seen_elsewhere | propext, Quot.sound |
| C112 | Sawmill.put_seen | propext |
| C112 | Sawmill.delete_seen | propext, Classical.choice, Quot.sound |
| C112 | Sawmill.asks_first | propext, Classical.choice, Quot.sound |
| C112 | Sawmill.put_effect_sample | propext, Classical.choice, Quot.sound |
| C112 | Sawmill.put_effect_sample_memory | propext, Classical.choice, Quot.sound |
| C112 | Sawmill.delete_effect_sample | propext, Classical.choice, Quot.sound |
| C113 | Sawmill.no_common_no_effect | propext, Quot.sound |
| C113 | Sawmill.no_common_sample | propext, Classical.choice, Quot.sound |
| C114 | Sawmill.step_changes | propext, Classical.choice, Quot.sound |
| C114 | Sawmill.step_changes_sample | propext, Classical.choice, Quot.sound |
| C115 | Sawmill.process_beside_kept | propext, Classical.choice, Quot.sound |
| C115 | Sawmill.process_beside_kept_sample | propext, Classical.choice, Quot.sound |
| C116 | Sawmill.process_changes | propext, Classical.choice, Quot.sound |
| C116 | Sawmill.process_changes_sample | propext, Classical.choice, Quot.sound |
| C117 | Sawmill.append_to_list | propext, Quot.sound |
| C117 | Sawmill.append_new_list | propext, Classical.choice, Quot.sound |
| C117 | Sawmill.append_nil | propext |
| C117 | Sawmill.append_shared_sample | propext, Classical.choice, Quot.sound |
| C118 | Sawmill.all_work_beside | propext, Classical.choice, Quot.sound |
| C118 | Sawmill.all_work_sample | propext, Classical.choice, Quot.sound |
| C119 | Sawmill.turns_beside | propext, Classical.choice, Quot.sound |
| C119 | Sawmill.turns_sample | propext, Classical.choice, Quot.sound |
| C119 | Sawmill.many_turns_beside | propext, Classical.choice, Quot.sound |
| C119 | Sawmill.many_turns_sample | propext, Classical.choice, Quot.sound |
| C12 | Sawmill.get_panics_iff | propext |
| C12 | Sawmill.delete_panics_iff | propext |
| C12 | Sawmill.api_put_panics_iff | propext, Classical.choice, Quot.sound |
| C12 | Sawmill.api_never_panics | propext, Classical.choice, Quot.sound |
| C12 | Sawmill.api_panics_below_nil | propext, Classical.choice, Quot.sound |
| C12 | Sawmill.api_panics_below_nil_object | propext, Classical.choice, Quot.sound |
| C13 | Sawmill.history_refines_nested_map | propext, Classical.choice, Quot.sound |
| C13 | Sawmill.history_refines_with_panics | propext, Classical.choice, Quot.sound |
| C14 | Sawmill.events_do_not_interfere | propext, Classical.choice, Quot.sound |
| C14 | Sawmill.put_other_events | propext, Classical.choice, Quot.sound |
| C14 | Sawmill.delete_other_events | propext, Classical.choice, Quot.sound |
| C15 | Sawmill.history_independent | propext, Classical.choice, Quot.sound |
| C15 | Sawmill.same_treatment | propext, Classical.choice, Quot.sound |
| C15 | Sawmill.history_leaks | propext, Classical.choice, Quot.sound |
| C16 | Sawmill.set_copy_scalar | propext, Classical.choice, Quot.sound |
| C16 | Sawmill.set_copy_alias | propext, Classical.choice, Quot.sound |
| C16 | Sawmill.copy_then_append | propext, Classical.choice, Quot.sound |
| C17 | Sawmill.set_copy_spec | propext, Classical.choice, Quot.sound |
| C17 | Sawmill.set_copy_above | propext, Classical.choice, Quot.sound |
| C17 | Sawmill.set_copy_endless | propext, Classical.choice, Quot.sound |
| C17 | Sawmill.endless_nothing | propext, Classical.choice, Quot.sound |
| C18 | Sawmill.pipeline_all_succeed | propext |
| C18 | Sawmill.pipeline_failure | propext, Quot.sound |
| C18 | Sawmill.later_processors_do_not_run | propext, Quot.sound |
| C18 | Sawmill.pipeline_cases | propext |
| C19 | Sawmill.process_returns | propext |
| C19 | Sawmill.process_error_iff | propext, Quot.sound |
| C20 | Sawmill.pipeline_failure | propext, Quot.sound |
| C20 | Sawmill.onFailure_only_after_failure | propext |
| C20 | Sawmill.pipeline_cases | propext |
| C21 | Sawmill.ignore_failure_never_fails | propext |
| C21 | Sawmill.pipeline_ignore_failure | propext |
| C22 | Sawmill.isMissing_iff | propext, Quot.sound |
| C22 | Sawmill.ignore_missing_swallows | propext, Quot.sound |
| C22 | Sawmill.ignore_missing_other_errors | propext, Quot.sound |
| C23 | Sawmill.local_on_failure | propext, Quot.sound |
| C24 | Sawmill.counters_conserved | propext, Classical.choice, Quot.sound |
| C24 | Sawmill.samplePipeline_run | propext, Classical.choice, Quot.sound |
| C25 | Sawmill.errors_counter | propext, Classical.choice, Quot.sound |
| C25 | Sawmill.errors_counter_includes_recovered | propext, Classical.choice, Quot.sound |
| C26 | Sawmill.drop_has_no_effect | propext, Quot.sound |
| C26 | Sawmill.process_returns | propext |
| C26 | Sawmill.counters_conserved | propext, Classical.choice, Quot.sound |
| C27 | Sawmill.cancel_has_no_effect | propext, Quot.sound |
| C28 | Sawmill.metrics_exact | propext, Classical.choice, Quot.sound |
| C28 | Sawmill.metrics_miss_global_on_failure | propext, Classical.choice, Quot.sound |
| C29 | Sawmill.component_ids_unique | propext, Classical.choice, Quot.sound |
| C30 | Sawmill.new_iff | propext, Classical.choice, Quot.sound |
| C30 | Sawmill.new_succeeds_iff | propext, Classical.choice, Quot.sound |
| C30 | Sawmill.sampleConfig_new | propext, Classical.choice, Quot.sound |
| C31 | Sawmill.concurrent_eq_sequential | propext, Quot.sound |
| C31 | Sawmill.concurrent_terminates | propext, Classical.choice, Quot.sound |
| C31 | Sawmill.sequential_order | propext, Quot.sound |
| C31 | Sawmill.pipeline_thr_run | propext |
| C32 | Sawmill.register_spec | propext, Quot.sound |
| C32 | Sawmill.registry_is_write_once | propext, Quot.sound |
| C32 | Sawmill.newProcessor_uses_registered | propext, Classical.choice, Quot.sound |
| C33 | Sawmill.validateConfig_accepts_iff | propext, Quot.sound |
| C33 | Sawmill.newProc_nillable | Quot.sound |
| C33 | Sawmill.accepted_but_always_panics | propext, Quot.sound |
| C34 | Sawmill.convert_spec | propext, Classical.choice, Quot.sound |
| C34 | Sawmill.convert_string | propext, Classical.choice, Quot.sound |
| C34 | Sawmill.convert_other | propext, Classical.choice, Quot.sound |
| C35 | Sawmill.append_spec | propext, Classical.choice, Quot.sound |
| C35 | Sawmill.append_array | propext, Classical.choice, Quot.sound |
| C35 | Sawmill.append_string | propext, Classical.choice, Quot.sound |
| C36 | Sawmill.remove_changes_nothing | propext |
| C36 | Sawmill.communityId_changes_nothing | propext |
| C37 | Sawmill.set_value_spec | propext, Classical.choice, Quot.sound |
| C37 | Sawmill.set_scalar_spec | propext, Classical.choice, Quot.sound |
| C37 | Sawmill.set_nothing_spec | propext, Classical.choice, Quot.sound |
| C37 | Sawmill.set_copy_spec | propext, Classical.choice, Quot.sound |
| C38 | Sawmill.utilAppend_spec | propext, Classical.choice, Quot.sound |
| C38 | Sawmill.utilAppend_result | propext, Classical.choice, Quot.sound |
| C39 | Sawmill.fromEvent_spec | propext, Classical.choice, Quot.sound |
| C39 | Sawmill.protobuf_round_trip | propext, Classical.choice, Quot.sound |
| C39 | Sawmill.protobuf_round_trip_plain | propext, Classical.choice, Quot.sound |
| C39 | Sawmill.nested_dot_escaped | propext, Classical.choice, Quot.sound |
| C39 | Sawmill.empty_event_lost | propext, Classical.choice, Quot.sound |
| C39 | Sawmill.nil_values_panic | propext, Classical.choice, Quot.sound |
| C39 | Sawmill.fromEvent_cycle | propext, Classical.choice, Quot.sound |
| C39 | Sawmill.endless_nothing | propext, Classical.choice, Quot.sound |
| C40 | Sawmill.Wire.wire_round_trip | propext, Classical.choice, Quot.sound |
| C40 | Sawmill.Wire.wire_round_trip_any_order | propext, Classical.choice, Quot.sound |
| C40 | Sawmill.Wire.marshal_injective | propext, Classical.choice, Quot.sound |
| C40 | Sawmill.Wire.nil_array_lost | propext, Classical.choice, Quot.sound |
| C41 | Sawmill.Wire.marshal_exact | propext, Classical.choice, Quot.sound |
| C41 | Sawmill.Wire.marshal_panics_iff | propext, Classical.choice, Quot.sound |
| C41 | Sawmill.Wire.size_order_independent | propext, Classical.choice, Quot.sound |
| C41 | Sawmill.Wire.nil_item_panics | propext, Classical.choice, Quot.sound |
| C42 | Sawmill.Wire.unmarshal_total | propext, Classical.choice, Quot.sound |
| C42 | Sawmill.Wire.unmarshal_again_total | propext, Classical.choice, Quot.sound |
| C43 | Sawmill.Wire.unknown_fields_kept | propext, Classical.choice, Quot.sound |
| C43 | Sawmill.Wire.wire_round_trip | propext, Classical.choice, Quot.sound |
| C44 | Sawmill.toLogEvent_nil | propext, Quot.sound |
| C44 | Sawmill.toLogEvent_panics_iff | propext, Classical.choice, Quot.sound |
| C44 | Sawmill.toLogEvent_spec | propext, Classical.choice, Quot.sound |
| C44 | Sawmill.toLogEvent_panics_on_decoded | propext, Quot.sound |
| C45 | Sawmill.Wire.varint_codec | propext, Classical.choice, Quot.sound |
| C46 | Sawmill.map_round_trip | propext, Classical.choice, Quot.sound |
| C46 | Sawmill.map_round_trip_widened | propext, Classical.choice, Quot.sound |
| C46 | Sawmill.mapToEvent_outcome | propext, Classical.choice, Quot.sound |
| C46 | Sawmill.mapFromEvent_spec | propext, Classical.choice, Quot.sound |
| C46 | Sawmill.map_round_trip_changes | propext, Classical.choice, Quot.sound |
| C47 | Sawmill.reflectValue_outcome | propext, Classical.choice, Quot.sound |
| C47 | Sawmill.reflectValue_error_iff | propext, Classical.choice, Quot.sound |
| C47 | Sawmill.mapToEvent_outcome | propext, Classical.choice, Quot.sound |
| C47 | Sawmill.interface_field_unsupported | propext, Classical.choice, Quot.sound |
| C47 | Sawmill.string_option_drops | propext, Classical.choice, Quot.sound |
| C48 | Sawmill.goTime_exact | propext, Quot.sound |
| C48 | Sawmill.unixNano_goTime | propext, Quot.sound |
| C48 | Sawmill.goTime_unixNano | propext, Classical.choice, Quot.sound |
| C49 | Sawmill.json_round_trip | propext, Classical.choice, Quot.sound |
| C49 | Sawmill.json_round_trip_exact | propext, Classical.choice, Quot.sound |
| C49 | Sawmill.json_round_trip_settles | propext, Classical.choice, Quot.sound |
| C49 | Sawmill.json_round_trip_empty | propext, Classical.choice, Quot.sound |
| C49 | Sawmill.marshalEvent_spec | propext, Classical.choice, Quot.sound |
| C49 | Sawmill.json_lossy | propext |
| C49 | Sawmill.json_names_collide | propext, Classical.choice, Quot.sound |
| C49 | Sawmill.json_cycle | propext, Classical.choice, Quot.sound |
| C49 | Sawmill.endless_nothing | propext, Classical.choice, Quot.sound |
| C50 | Sawmill.unmarshalEvent_accepts_iff | propext, Classical.choice, Quot.sound |
| C50 | Sawmill.unmarshalEvent_null | propext, Classical.choice, Quot.sound |
| C50 | Sawmill.unmarshalEvent_object | propext, Classical.choice, Quot.sound |
| C50 | Sawmill.unmarshalEvent_kinds | propext, Classical.choice, Quot.sound |
| C50 | Sawmill.json_duplicate_name | propext, Quot.sound |
| C50 | Sawmill.json_rejected | propext, Quot.sound |
| C51 | Sawmill.cli_empty_reads | propext, Classical.choice, Quot.sound |
| C51 | Sawmill.cli_no_progress | propext, Classical.choice, Quot.sound |
| C51 | Sawmill.patient_sample | propext, Classical.choice, Quot.sound |
| C51 | Sawmill.cli_spec | propext, Classical.choice, Quot.sound |
| C51 | Sawmill.cli_too_long | propext, Classical.choice, Quot.sound |
| C51 | Sawmill.cli_chunking | propext, Classical.choice, Quot.sound |
| C51 | Sawmill.cli_framing | propext, Classical.choice, Quot.sound |
| C51 | Sawmill.cli_conservation | propext, Classical.choice, Quot.sound |
| C51 | Sawmill.cli_write_prefix | propext, Classical.choice, Quot.sound |
| C51 | Sawmill.cli_write_error_hidden | propext, Classical.choice, Quot.sound |
| C51 | Sawmill.lineEvent_spec | propext, Classical.choice, Quot.sound |
| C51 | Sawmill.blank_line | propext, Classical.choice, Quot.sound |
| C51 | Sawmill.solo_text_iff | propext, Classical.choice, Quot.sound |
| C51 | Sawmill.trimSpace_spec | propext, Classical.choice, Quot.sound |
| C51 | Sawmill.input_cases | propext, Quot.sound |
| C51 | Sawmill.cli_sample | propext, Classical.choice, Quot.sound |
| C51 | Sawmill.cli_partial_line | propext, Classical.choice, Quot.sound |
| C51 | Sawmill.cli_lost_output | propext, Classical.choice, Quot.sound |
| C51 | Sawmill.cli_self_copy | propext, Classical.choice, Quot.sound |
| C52 | Sawmill.marshalOpt_spec | propext, Classical.choice, Quot.sound |
| C52 | Sawmill.marshalConfig_spec | propext, Classical.choice, Quot.sound |
| C52 | Sawmill.unmarshalOpt_any | propext, Classical.choice, Quot.sound |
| C52 | Sawmill.unmarshalConfig_any | propext, Classical.choice, Quot.sound |
| C52 | Sawmill.unmarshalOpt_iff | propext, Classical.choice, Quot.sound |
| C52 | Sawmill.unmarshalOpt_rejects | propext, Classical.choice, Quot.sound |
| C52 | Sawmill.unmarshalConfig_iff | propext, Classical.choice, Quot.sound |
| C52 | Sawmill.opt_round_trip | propext, Classical.choice, Quot.sound |
| C52 | Sawmill.config_round_trip | propext, Classical.choice, Quot.sound |
| C52 | Sawmill.config_round_trip_new | propext, Classical.choice, Quot.sound |
| C52 | Sawmill.null_config_panics | propext, Classical.choice, Quot.sound |
| C52 | Sawmill.opt_id_replaced | propext, Classical.choice, Quot.sound |
| C52 | Sawmill.opt_case | propext, Classical.choice, Quot.sound |
| C52 | Sawmill.opt_case_lossy | propext, Classical.choice, Quot.sound |
| C52 | Sawmill.opt_case_error | propext, Classical.choice, Quot.sound |
| C52 | Sawmill.opt_empty | propext, Classical.choice, Quot.sound |
| C52 | Sawmill.opt_merge | propext, Classical.choice, Quot.sound |
| C52 | Sawmill.opt_stale | propext, Classical.choice, Quot.sound |
| C52 | Sawmill.config_twice | propext, Classical.choice, Quot.sound |
| C53 | Sawmill.conditions_have_no_effect | propext, Quot.sound |
| C54 | Sawmill.error_keeps_changes | propext, Quot.sound |
| C54 | Sawmill.failed_process_changes_event | propext, Classical.choice, Quot.sound |
| C55 | Sawmill.Wire.reencode | propext, Classical.choice, Quot.sound |
| C56 | Sawmill.timestamp_text_denotes | propext, Classical.choice, Quot.sound |
| C56 | Sawmill.timestamp_text_injective | propext, Classical.choice, Quot.sound |
| C56 | Sawmill.timestamp_string | propext, Classical.choice, Quot.sound |
| C56 | Sawmill.timestamp_string_injective | propext, Classical.choice, Quot.sound |
| C57 | Sawmill.marshalEvent_tidy | propext, Classical.choice, Quot.sound |
| C57 | Sawmill.marshalEvent_one_line | propext, Classical.choice, Quot.sound |
| C57 | Sawmill.cli_framing | propext, Classical.choice, Quot.sound |
| C57 | Sawmill.tidy_sample | propext, Classical.choice, Quot.sound |
| C58 | Sawmill.pipeline_pure | propext, Classical.choice, Quot.sound |
| C58 | Sawmill.same_contents_same_outcome | propext, Classical.choice, Quot.sound |
| C58 | Sawmill.no_copy_no_shares | propext, Classical.choice, Quot.sound |
| C58 | Sawmill.there_pipe | propext, Classical.choice, Quot.sound |
| C58 | Sawmill.sample_apply | propext, Classical.choice, Quot.sound |
| C59 | Sawmill.new_plan | propext, Classical.choice, Quot.sound |
| C59 | Sawmill.config_semantics | propext, Classical.choice, Quot.sound |
| C59 | Sawmill.ignore_failure_only | propext, Classical.choice, Quot.sound |
| C59 | Sawmill.failure_not_ignored | propext, Classical.choice, Quot.sound |
| C59 | Sawmill.cli_registered | propext, Classical.choice, Quot.sound |
| C59 | Sawmill.sample_plan | propext, Classical.choice, Quot.sound |
| C59 | Sawmill.sample_accepted | propext, Classical.choice, Quot.sound |
| C60 | Sawmill.c_session | propext, Classical.choice, Quot.sound |
| C60 | Sawmill.answer_unique | propext, Classical.choice, Quot.sound |
| C60 | Sawmill.refused_load_unloads | propext, Classical.choice, Quot.sound |
| C60 | Sawmill.bad_load_keeps | propext, Classical.choice, Quot.sound |
| C60 | Sawmill.answer_c_string | propext, Classical.choice, Quot.sound |
| C60 | Sawmill.c_sample | propext, Classical.choice, Quot.sound |
| C60 | Sawmill.c_sample_codes | propext, Classical.choice, Quot.sound |
| C60 | Sawmill.c_sample_crash | propext, Classical.choice, Quot.sound |
| C60 | Sawmill.c_sample_registered | propext, Classical.choice, Quot.sound |
| C60 | Sawmill.sampleFill_example | propext, Classical.choice, Quot.sound |
| C61 | Sawmill.wasm_answers | propext, Classical.choice, Quot.sound |
| C61 | Sawmill.backE_self_iff | propext, Classical.choice, Quot.sound |
| C61 | Sawmill.wasm_sample | propext, Classical.choice, Quot.sound |
| C61 | Sawmill.wasm_sample_order | propext, Classical.choice, Quot.sound |
| C62 | Sawmill.cli_line | propext, Classical.choice, Quot.sound |
| C62 | Sawmill.cli_config | propext, Classical.choice, Quot.sound |
| C62 | Sawmill.pipeIs_calls | propext |
| C63 | Sawmill.metrics_history | propext, Quot.sound |
| C63 | Sawmill.scrape_spec | propext, Quot.sound |
| C63 | Sawmill.scrape_one | propext, Classical.choice, Quot.sound |
| C63 | Sawmill.second_not_shown | propext, Quot.sound |
| C63 | Sawmill.second_not_shown_sample | propext, Classical.choice, Quot.sound |
| C64 | Sawmill.value_history | propext, Classical.choice, Quot.sound |
| C64 | Sawmill.value_fields | propext, Classical.choice, Quot.sound |
| C64 | Sawmill.value_accepts_iff | propext, Classical.choice, Quot.sound |
| C64 | Sawmill.shown_fresh | propext, Quot.sound |
| C64 | Sawmill.value_exact_iff | propext, Quot.sound |
| C64 | Sawmill.value_refused | propext, Classical.choice, Quot.sound |
| C64 | Sawmill.event_history | propext, Classical.choice, Quot.sound |
| C64 | Sawmill.shown_keeps_names | propext |
| C64 | Sawmill.sample_keeps_names | propext |
| C64 | Sawmill.shown_stale_elements | propext |
| C64 | Sawmill.refused_changes | propext |
| C65 | Sawmill.shared_memory | propext, Classical.choice, Quot.sound |
| C65 | Sawmill.shared_pure | propext, Classical.choice, Quot.sound |
| C65 | Sawmill.shared_built | propext, Classical.choice, Quot.sound |
| C65 | Sawmill.shared_refines | propext, Classical.choice, Quot.sound |
| C65 | Sawmill.separate_of_owns | propext, Quot.sound |
| C65 | Sawmill.leaky_config_races | propext, Classical.choice, Quot.sound |
| C65 | Sawmill.same_event_races | propext, Classical.choice, Quot.sound |
| C65 | Sawmill.tidy_shared | propext, Classical.choice, Quot.sound |
| C65 | Sawmill.step_writes | propext |
| C65 | Sawmill.step_reads | propext, Quot.sound |
| C66 | Sawmill.order_does_not_matter | propext, Classical.choice, Quot.sound |
| C66 | Sawmill.any_order | propext, Classical.choice, Quot.sound |
| C66 | Sawmill.overwritten_call | propext, Classical.choice, Quot.sound |
| C66 | Sawmill.delete_is_not_independent | propext, Classical.choice, Quot.sound |
| C66 | Sawmill.independent_sample | propext, Classical.choice, Quot.sound |
| C67 | Sawmill.nil_event | propext, Classical.choice, Quot.sound |
| C67 | Sawmill.nil_event_sample | propext, Classical.choice, Quot.sound |
| C68 | Sawmill.leaves_restore | propext, Classical.choice, Quot.sound |
| C68 | Sawmill.leafySample_ok | propext, Classical.choice, Quot.sound |
| C68 | Sawmill.leafySample_leaves | propext, Classical.choice, Quot.sound |
| C69 | Sawmill.Wire.unmarshal_reads | propext, Classical.choice, Quot.sound |
| C69 | Sawmill.Wire.unmarshalInto_reads | propext, Classical.choice, Quot.sound |
| C69 | Sawmill.Wire.message_unique | propext, Classical.choice, Quot.sound |
| C69 | Sawmill.Wire.unmarshal_append | propext, Classical.choice, Quot.sound |
| C69 | Sawmill.Wire.marshal_writes_message | propext, Classical.choice, Quot.sound |
| C69 | Sawmill.Wire.liberal_read | propext, Quot.sound |
| C69 | Sawmill.Wire.entry_overrun | propext, Quot.sound |
| C70 | Sawmill.Client.program_runs | propext, Classical.choice, Quot.sound |
| C70 | Sawmill.Client.program_determined | propext, Classical.choice, Quot.sound |
| C70 | Sawmill.Client.shows_json_unique | propext, Classical.choice, Quot.sound |
| C70 | Sawmill.Client.program_no_shares | propext, Classical.choice, Quot.sound |
| C70 | Sawmill.Client.program_independent | propext, Classical.choice, Quot.sound |
| C70 | Sawmill.Client.demo_program | propext, Classical.choice, Quot.sound |
| C70 | Sawmill.Client.demo_independent | propext, Classical.choice, Quot.sound |
| C70 | Sawmill.Client.demo_crash | propext, Classical.choice, Quot.sound |
| C71 | Sawmill.format_spec | propext, Classical.choice, Quot.sound |
| C71 | Sawmill.format_unknown | propext, Classical.choice, Quot.sound |
| C71 | Sawmill.endless_not_printed | propext, Classical.choice, Quot.sound |
| C71 | Sawmill.format_cycle | propext, Classical.choice, Quot.sound |
| C71 | Sawmill.print_shows_type | propext, Classical.choice, Quot.sound |
| C71 | Sawmill.print_leaf_inj | propext, Classical.choice, Quot.sound |
| C71 | Sawmill.print_ambiguous | propext, Classical.choice, Quot.sound |
| C71 | Sawmill.print_sample | propext, Classical.choice, Quot.sound |
| C71 | Sawmill.format_sample | propext, Classical.choice, Quot.sound |
| C72 | Sawmill.unpack_spec | propext, Classical.choice, Quot.sound |
| C72 | Sawmill.configured_set | propext, Classical.choice, Quot.sound |
| C72 | Sawmill.unpack_nil | propext, Classical.choice, Quot.sound |
| C72 | Sawmill.unpack_copies_share | propext, Classical.choice, Quot.sound |
| C72 | Sawmill.unpack_sample | propext, Classical.choice, Quot.sound |
| C73 | Sawmill.Goro.goroutines | propext, Classical.choice, Quot.sound |
| C73 | Sawmill.Goro.goroutine_refines | propext, Classical.choice, Quot.sound |
| C73 | Sawmill.Goro.go_sample | propext, Classical.choice, Quot.sound |
| C73 | Sawmill.Goro.go_out | propext, Classical.choice, Quot.sound |
| C73 | Sawmill.Goro.shared_write_races | propext, Classical.choice, Quot.sound |
| C74 | Sawmill.Goro.addresses | propext, Classical.choice, Quot.sound |
| C74 | Sawmill.Goro.loop_same | propext, Classical.choice, Quot.sound |
| C74 | Sawmill.Goro.sharing_visible | propext, Classical.choice, Quot.sound |
| C75 | Sawmill.processors_reorder | propext, Classical.choice, Quot.sound |
| C75 | Sawmill.processors_any_order | propext, Classical.choice, Quot.sound |
| C75 | Sawmill.independent_commute | propext, Classical.choice, Quot.sound |
| C75 | Sawmill.apartProcs_independent | propext, Classical.choice, Quot.sound |
| C75 | Sawmill.apartProcs_run | propext, Classical.choice, Quot.sound |
| C75 | Sawmill.dependent_order_matters | propext, Classical.choice, Quot.sound |
| C75 | Sawmill.failing_order_matters | propext, Classical.choice, Quot.sound |
| C76 | Sawmill.Goro.workers | propext, Classical.choice, Quot.sound |
| C76 | Sawmill.Goro.pool_sample | propext, Classical.choice, Quot.sound |
| C76 | Sawmill.Goro.pool_out | propext, Classical.choice, Quot.sound |
| C76 | Sawmill.Goro.kept_event_races | propext, Classical.choice, Quot.sound |
| C77 | Sawmill.Gen.generated_tokens | propext, Classical.choice, Quot.sound |
| C77 | Sawmill.Gen.generate_writes | propext, Classical.choice, Quot.sound |
| C77 | Sawmill.Gen.main_spec | propext, Classical.choice, Quot.sound |
| C77 | Sawmill.Gen.generate_deterministic | propext, Classical.choice, Quot.sound |
| C77 | Sawmill.Gen.generate_idempotent | propext, Classical.choice, Quot.sound |
| C77 | Sawmill.Gen.comment_lines | propext, Classical.choice, Quot.sound |
| C77 | Sawmill.Gen.comment_fails_iff | propext, Classical.choice, Quot.sound |
| C77 | Sawmill.Gen.comment_reads | propext, Classical.choice, Quot.sound |
| C77 | Sawmill.Gen.go_name | propext, Classical.choice, Quot.sound |
| C77 | Sawmill.Gen.declared_funcs | propext, Classical.choice, Quot.sound |
| C77 | Sawmill.Gen.sampleGenEnv_lawful | propext, Classical.choice, Quot.sound |
| C77 | Sawmill.Gen.sample_presentable | propext, Classical.choice, Quot.sound |
| C77 | Sawmill.Gen.sample_ok | propext, Classical.choice, Quot.sound |
| C77 | Sawmill.Gen.sample_run | propext, Classical.choice, Quot.sound |
| C78 | Sawmill.Gen.docs_contents | propext, Classical.choice, Quot.sound |
| C78 | Sawmill.Gen.docs_deterministic | propext, Classical.choice, Quot.sound |
| C78 | Sawmill.Gen.row_one_line | propext, Classical.choice, Quot.sound |
| C78 | Sawmill.Gen.docs_text_lines | propext, Classical.choice, Quot.sound |
| C78 | Sawmill.Gen.sample_docs | propext, Classical.choice, Quot.sound |
| C79 | Sawmill.put_below_itself_any | propext, Classical.choice, Quot.sound |
| C79 | Sawmill.set_copy_endless_any | propext, Classical.choice, Quot.sound |
| C79 | Sawmill.put_any_sample | propext, Classical.choice, Quot.sound |
| C79 | Sawmill.put_below_itself | propext, Classical.choice, Quot.sound |
| C79 | Sawmill.set_copy_endless | propext, Classical.choice, Quot.sound |
| C79 | Sawmill.endless_nothing | propext, Classical.choice, Quot.sound |
| C79 | Sawmill.endless_not_printed | propext, Classical.choice, Quot.sound |
| C79 | Sawmill.endless_or_ends | propext, Classical.choice, Quot.sound |
| C79 | Sawmill.formatPtr_ends | propext, Classical.choice, Quot.sound |
| C79 | Sawmill.holds_not_endless | propext, Classical.choice, Quot.sound |
| C79 | Sawmill.NoDangling.put | propext, Quot.sound |
| C79 | Sawmill.NoDangling.get | propext, Quot.sound |
| C79 | Sawmill.NoDangling.delete | propext, Quot.sound |
| C79 | Sawmill.cycle_sample | propext, Classical.choice, Quot.sound |
| C80 | Sawmill.flags_meaning | propext, Classical.choice, Quot.sound |
| C80 | Sawmill.flags_help | propext, Classical.choice, Quot.sound |
| C80 | Sawmill.main_bad_flags | propext, Classical.choice, Quot.sound |
| C80 | Sawmill.main_uncreatable | propext, Classical.choice, Quot.sound |
| C80 | Sawmill.main_refused | propext, Classical.choice, Quot.sound |
| C80 | Sawmill.main_loaded | propext, Classical.choice, Quot.sound |
| C80 | Sawmill.main_zero_iff | propext, Classical.choice, Quot.sound |
| C80 | Sawmill.main_processes_iff | propext, Classical.choice, Quot.sound |
| C80 | Sawmill.main_null_config | propext, Classical.choice, Quot.sound |
| C80 | Sawmill.main_clobber | propext, Classical.choice, Quot.sound |
| C80 | Sawmill.main_no_pipeline | propext, Classical.choice, Quot.sound |
| C80 | Sawmill.main_other_files | propext, Classical.choice, Quot.sound |
| C80 | Sawmill.main_failing_lines | propext, Classical.choice, Quot.sound |
| C80 | Sawmill.flags_sample | propext, Classical.choice, Quot.sound |
| C80 | Sawmill.main_sample | propext, Classical.choice, Quot.sound |
| C80 | Sawmill.main_sample_fails | propext, Classical.choice, Quot.sound |
| C81 | Sawmill.event_map_event | propext, Classical.choice, Quot.sound |
| C82 | Sawmill.map_json | propext, Classical.choice, Quot.sound |
| C82 | Sawmill.map_accepts_iff | propext, Classical.choice, Quot.sound |
| C82 | Sawmill.json_map_event | propext, Classical.choice, Quot.sound |
| C83 | Sawmill.new_reports_first | propext, Classical.choice, Quot.sound |
| C83 | Sawmill.new_without_id | propext, Classical.choice, Quot.sound |
| C83 | Sawmill.new_error_text | propext, Classical.choice, Quot.sound |
| C83 | Sawmill.places_unique | propext, Classical.choice, Quot.sound |
| C83 | Sawmill.new_reports_first_sample | propext, Classical.choice, Quot.sound |
| C83 | Sawmill.new_reports_next_sample | propext, Classical.choice, Quot.sound |
| C84 | Sawmill.processor_string | propext, Classical.choice, Quot.sound |
| C84 | Sawmill.processor_string_determines | propext, Classical.choice, Quot.sound |
| C84 | Sawmill.shown_sample | propext, Classical.choice, Quot.sound |
| C84 | Sawmill.shown_finite | propext, Classical.choice, Quot.sound |
| C84 | Sawmill.nan_sample | propext, Classical.choice, Quot.sound |
| C84 | Sawmill.nan_finite | propext, Classical.choice, Quot.sound |
| C84 | Sawmill.string_sample | propext, Classical.choice, Quot.sound |
| C85 | Sawmill.Slices.slices_are_lists | propext, Classical.choice, Quot.sound |
| C85 | Sawmill.Slices.lists_are_slices | propext, Classical.choice, Quot.sound |
| C85 | Sawmill.Slices.crashing_seen | propext, Quot.sound |
| C85 | Sawmill.Slices.elements_stay | propext, Classical.choice, Quot.sound |
| C85 | Sawmill.Slices.never_shared | propext, Classical.choice, Quot.sound |
| C85 | Sawmill.Slices.apart_iff | propext, Classical.choice, Quot.sound |
| C85 | Sawmill.Slices.alone_seen | propext, Classical.choice, Quot.sound |
| C85 | Sawmill.Slices.util_append_slices | propext, Classical.choice, Quot.sound |
| C85 | Sawmill.Slices.shared_not_apart | propext, Classical.choice, Quot.sound |
| C85 | Sawmill.Slices.shared_shows | propext, Classical.choice, Quot.sound |
| C85 | Sawmill.Slices.apart_sample | propext, Classical.choice, Quot.sound |
| C86 | Sawmill.put_says | propext, Classical.choice, Quot.sound |
| C86 | Sawmill.tryPut_says | propext, Classical.choice, Quot.sound |
| C86 | Sawmill.process_says | propext, Classical.choice, Quot.sound |
| C86 | Sawmill.process_says_any | propext, Classical.choice, Quot.sound |
| C86 | Sawmill.process_silent | propext, Classical.choice, Quot.sound |
| C86 | Sawmill.process_silent_any | propext, Classical.choice, Quot.sound |
| C86 | Sawmill.put_text_tells | propext, Classical.choice, Quot.sound |
| C86 | Sawmill.process_says_cyclic | propext, Classical.choice, Quot.sound |
| C87 | Sawmill.quote_denotes | propext, Classical.choice, Quot.sound |
| C87 | Sawmill.literal_denotes_one | propext, Classical.choice, Quot.sound |
| C87 | Sawmill.quote_delimits | propext, Classical.choice, Quot.sound |
| C87 | Sawmill.quote_one_line | propext, Classical.choice, Quot.sound |
| C87 | Sawmill.quote_plain | propext, Classical.choice, Quot.sound |
| C87 | Sawmill.register_says | propext, Classical.choice, Quot.sound |
| C87 | Sawmill.register_panics_iff | propext, Classical.choice, Quot.sound |
| C87 | Sawmill.mustRegister_panics_iff | propext, Quot.sound |
| C87 | Sawmill.unknown_says | propext, Classical.choice, Quot.sound |
| C87 | Sawmill.unknown_texts_differ | propext, Classical.choice, Quot.sound |
| C87 | Sawmill.new_says_unknown | propext, Classical.choice, Quot.sound |
| C87 | Sawmill.new_says_unknown_sample | propext, Classical.choice, Quot.sound |
| C88 | Sawmill.reflectValue_says | propext, Classical.choice, Quot.sound |
| C88 | Sawmill.reflectValue_panics_iff | propext, Classical.choice, Quot.sound |
| C88 | Sawmill.culprit_unique | propext, Classical.choice, Quot.sound |
| C88 | Sawmill.unsupportedText_inj | propext, Classical.choice, Quot.sound |
| C88 | Sawmill.mapToEvent_says | propext, Classical.choice, Quot.sound |
| C88 | Sawmill.unpack_says | propext, Classical.choice, Quot.sound |
| C88 | Sawmill.reflect_says_sample | propext, Classical.choice, Quot.sound |
| C89 | Sawmill.c_caller_tells | propext, Classical.choice, Quot.sound |
| C89 | Sawmill.json_errors_no_document | propext, Classical.choice, Quot.sound |
| C89 | Sawmill.wasm_tells | propext, Classical.choice, Quot.sound |
| C89 | Sawmill.cli_stderr | propext, Classical.choice, Quot.sound |
| C89 | Sawmill.complaint_line_inj | propext, Classical.choice, Quot.sound |
| C89 | Sawmill.log_reads_back | propext, Classical.choice, Quot.sound |
| C89 | Sawmill.log_forged | propext, Classical.choice, Quot.sound |
| C89 | Sawmill.c_caller_sample | propext, Classical.choice, Quot.sound |
| C89 | Sawmill.wasm_text_sample | propext, Classical.choice, Quot.sound |
| C89 | Sawmill.stderr_sample | propext, Classical.choice, Quot.sound |
| C90 | Sawmill.stream_prompt | propext, Classical.choice, Quot.sound |
| C90 | Sawmill.stream_causal | propext, Classical.choice, Quot.sound |
| C90 | Sawmill.stream_killed | propext, Classical.choice, Quot.sound |
| C90 | Sawmill.stream_ends | propext, Classical.choice, Quot.sound |
| C90 | Sawmill.stream_sample | propext, Classical.choice, Quot.sound |
| C91 | Sawmill.getters_read | propext, Classical.choice, Quot.sound |
| C91 | Sawmill.getters_read_sent | propext, Classical.choice, Quot.sound |
| C91 | Sawmill.getters_determine | propext, Classical.choice, Quot.sound |
| C91 | Sawmill.zero_or_absent | propext |
| C91 | Sawmill.nil_reads_nothing | propext |
| C91 | Sawmill.xxx_marshal | propext, Classical.choice, Quot.sound |
| C91 | Sawmill.xxx_marshal_exact | propext, Classical.choice, Quot.sound |
| C91 | Sawmill.xxx_marshal_roomy | propext, Classical.choice, Quot.sound |
| C91 | Sawmill.xxx_marshal_small | propext, Quot.sound |
| C91 | Sawmill.marshal_parts | propext, Classical.choice, Quot.sound |
| C91 | Sawmill.marshal_to | propext, Classical.choice, Quot.sound |
| C91 | Sawmill.marshal_to_sized | propext, Classical.choice, Quot.sound |
| C91 | Sawmill.marshal_to_sample | propext, Quot.sound |
| C91 | Sawmill.getters_sample | propext, Classical.choice, Quot.sound |
| C91 | Sawmill.xxx_sample | propext, Quot.sound |
| C92 | Sawmill.has_chars | propext, Classical.choice, Quot.sound |
| C92 | Sawmill.lower_text | propext, Classical.choice, Quot.sound |
| C92 | Sawmill.upper_text | propext, Classical.choice, Quot.sound |
| C92 | Sawmill.lower_ascii | propext, Quot.sound |
| C92 | Sawmill.upper_ascii | propext, Quot.sound |
| C92 | Sawmill.lower_upper_ascii | propext, Quot.sound |
| C92 | Sawmill.lower_valid | propext, Classical.choice, Quot.sound |
| C92 | Sawmill.lower_fixed | propext, Classical.choice, Quot.sound |
| C92 | Sawmill.upper_fixed | propext, Classical.choice, Quot.sound |
| C92 | Sawmill.lower_again | propext, Classical.choice, Quot.sound |
| C92 | Sawmill.upper_again | propext, Classical.choice, Quot.sound |
| C92 | Sawmill.lower_append | propext, Classical.choice, Quot.sound |
| C92 | Sawmill.lowercase_field | propext, Classical.choice, Quot.sound |
| C92 | Sawmill.uppercase_field | propext, Classical.choice, Quot.sound |
| C92 | Sawmill.lowercase_twice | propext, Classical.choice, Quot.sound |
| C92 | Sawmill.uppercase_twice | propext, Classical.choice, Quot.sound |
| C92 | Sawmill.lower_sample | propext, Classical.choice, Quot.sound |
| C92 | Sawmill.upper_sample | propext |
| C92 | Sawmill.cut_sample | propext |
| C92 | Sawmill.uppercase_event_sample | propext, Classical.choice, Quot.sound |
| C93 | Sawmill.decodeYaml_iff | propext, Classical.choice, Quot.sound |
| C93 | Sawmill.yAny_iff | propext, Classical.choice, Quot.sound |
| C93 | Sawmill.yaml_order | propext, Classical.choice, Quot.sound |
| C93 | Sawmill.json_as_yaml | propext, Classical.choice, Quot.sound |
| C93 | Sawmill.json_yaml_pipeline | propext, Classical.choice, Quot.sound |
| C93 | Sawmill.new_rel | propext, Classical.choice, Quot.sound |
| C93 | Sawmill.yaml_round_trip | propext, Classical.choice, Quot.sound |
| C93 | Sawmill.yaml_repeated | propext, Classical.choice, Quot.sound |
| C93 | Sawmill.yaml_unknown | propext, Classical.choice, Quot.sound |
| C93 | Sawmill.yaml_id_text | propext, Classical.choice, Quot.sound |
| C93 | Sawmill.json_id_number | propext, Classical.choice, Quot.sound |
| C93 | Sawmill.load_yaml | propext, Classical.choice, Quot.sound |
| C93 | Sawmill.yaml_sample | propext, Classical.choice, Quot.sound |
| C93 | Sawmill.yaml_repeated_sample | propext, Classical.choice, Quot.sound |
| C93 | Sawmill.yaml_order_sample | propext, Classical.choice, Quot.sound |
| C93 | Sawmill.yaml_round_sample | propext, Classical.choice, Quot.sound |
| C93 | Sawmill.portable_tidy | propext, Classical.choice, Quot.sound |
| C93 | Sawmill.portable_sample | propext, Classical.choice, Quot.sound |
| C94 | Sawmill.merge_decode | propext, Classical.choice, Quot.sound |
| C94 | Sawmill.load_merged | propext, Classical.choice, Quot.sound |
| C94 | Sawmill.expands_exists | propext, Classical.choice, Quot.sound |
| C94 | Sawmill.visitNames_spec | propext, Classical.choice, Quot.sound |
| C94 | Sawmill.merge_refused | propext, Classical.choice, Quot.sound |
| C94 | Sawmill.merge_repeated | propext, Classical.choice, Quot.sound |
| C94 | Sawmill.merge_sample | propext, Classical.choice, Quot.sound |
| C94 | Sawmill.merge_sample_fine | propext, Classical.choice, Quot.sound |
| C95 | Sawmill.Gen.schema_as | propext, Classical.choice, Quot.sound |
| C95 | Sawmill.Gen.generate_schema | propext, Classical.choice, Quot.sound |
| C95 | Sawmill.Gen.docs_schema | propext, Classical.choice, Quot.sound |
| C95 | Sawmill.Gen.generate_unread | propext, Classical.choice, Quot.sound |
| C95 | Sawmill.Gen.main_same | propext, Classical.choice, Quot.sound |
| C95 | Sawmill.Gen.docs_same | propext, Classical.choice, Quot.sound |
| C95 | Sawmill.Gen.schema_sample | propext, Classical.choice, Quot.sound |
| C95 | Sawmill.Gen.schema_unknown | propext, Classical.choice, Quot.sound |
| C95 | Sawmill.Gen.schema_sample_fine | propext, Classical.choice, Quot.sound |
| C95 | Sawmill.Gen.schema_sample_is | propext, Classical.choice, Quot.sound |
| C96 | Sawmill.divide_new | propext, Classical.choice, Quot.sound |
| C96 | Sawmill.divide_any | propext, Classical.choice, Quot.sound |
| C96 | Sawmill.divide_process | propext, Classical.choice, Quot.sound |
| C96 | Sawmill.divide_handled | propext, Classical.choice, Quot.sound |
| C96 | Sawmill.names_aside | propext, Classical.choice, Quot.sound |
| C96 | Sawmill.divide_sample | propext, Classical.choice, Quot.sound |
| C97 | Sawmill.process_twice | propext, Classical.choice, Quot.sound |
| C97 | Sawmill.pipe_twice | propext, Classical.choice, Quot.sound |
| C97 | Sawmill.step_twice | propext, Classical.choice, Quot.sound |
| C97 | Sawmill.step_failed | propext, Classical.choice, Quot.sound |
| C97 | Sawmill.append_twice | propext, Classical.choice, Quot.sound |
| C97 | Sawmill.overwrite_twice | propext, Classical.choice, Quot.sound |
| C97 | Sawmill.twice_sample | propext, Classical.choice, Quot.sound |
| C98 | Sawmill.hidden_fields | propext, Classical.choice, Quot.sound |
| C98 | Sawmill.operations_shown | propext, Quot.sound |
| C98 | Sawmill.step_shown | propext, Classical.choice, Quot.sound |
| C98 | Sawmill.pipeline_shown | propext, Classical.choice, Quot.sound |
| C98 | Sawmill.hidden_get | propext, Classical.choice, Quot.sound |
| C98 | Sawmill.unknown_json | propext, Classical.choice, Quot.sound |
| C98 | Sawmill.format_unknown | propext, Classical.choice, Quot.sound |
| C98 | Sawmill.unknown_crashes | propext, Classical.choice, Quot.sound |
| C98 | Sawmill.panic_unknown | propext, Classical.choice, Quot.sound |
| C99 | Sawmill.process_beside | propext, Classical.choice, Quot.sound |
| C99 | Sawmill.untouched | propext, Classical.choice, Quot.sound |
| C99 | Sawmill.beside_sample | propext, Classical.choice, Quot.sound |
| C99 | Sawmill.around_matters | propext, Classical.choice, Quot.sound |

# Axioms per property theorem

Generated by `tools/axioms.py` from `#print axioms`.

## none

* `LP.Config.C69_files_ignored`

## propext

* `LP.Plugin.C59_second_unload`
* `LP.Plugin.C59_throwing_deinitialize`
* `LP.Plugin.C61_unload_twice`
* `LP.Worker.C62_self_cleared_terminates`
* `LP.Worker.C62_destroy_while_running`
* `LP.Host.C63_which_json`
* `LP.Fs.C66_no_slash`
* `LP.Fs.C68_unreadable_is_empty`
* `LP.Overload.C114_compiles`
* `LP.Overload.C114_declare_compiles`
* `LP.C117_handlers`

## Quot.sound, propext

* `LP.C06_components_no_slash`
* `LP.Locks.C41_never_returns`
* `LP.Locks.C41_no_further_step`
* `LP.Locks.C41_blocks_at_once`
* `LP.Locks.C42_mutexes_given_back`
* `LP.Plugin.C58_no_collision`
* `LP.Plugin.C59_unload`
* `LP.Worker.C62_stop_joins`
* `LP.Worker.C62_stop_waits`
* `LP.Worker.C62_second_start_terminates`
* `LP.Fs.C66_parts_of_combined`
* `LP.Fs.C66_slash_in_name`
* `LP.Fs.C66_recombine`
* `LP.Fs.C66_filename_no_slash`
* `LP.Fs.C67_extension`
* `LP.Fs.C67_directory_irrelevant`
* `LP.Fs.C67_extension_plain`
* `LP.Fs.C68_files_and_directories`
* `LP.Fs.C68_nul_in_path`
* `LP.Fs.C68_directories_never_listed`
* `LP.Fs.C68_file_filter_right_iff`
* `LP.Config.C69_equal_iff_prefix`
* `LP.Config.C69_undefined_iff`
* `LP.Config.C69_not_symmetric`
* `LP.Config.C69_same_length`
* `LP.Uuid.C71_different_draws_same_uuid`
* `LP.Uuid.C71_only_2_32_uuids`
* `LP.Fs.C74_working_directory`
* `LP.Race.C91_containers`
* `LP.Race.C92_callback`
* `LP.Race.C92_provider`
* `LP.Race.C92_consumer`
* `LP.Race.C92_publisher`
* `LP.Race.C92_forward`
* `LP.Race.C92_requests`
* `LP.Race.C92_two_requests`
* `LP.Race.C92_handler`
* `LP.FsWin.C94_kinds`
* `LP.FsWin.C95_parts_of_combined`
* `LP.FsWin.C95_recombine`
* `LP.FsWin.C95_extension`
* `LP.FsWin.C95_executable_path`
* `LP.FsWin.C95_working_directory`
* `LP.Life.C102_publish`
* `LP.Life.C102_deliver`
* `LP.Life.C103_delete`
* `LP.Host.C105_destroyed`
* `LP.C112_cycle_leaks`
* `LP.LinkConc.C124_link_writes`
* `LP.Flat.C129_one_bad_byte`
* `LP.Flat.C129_misaligned`

## Classical.choice, Quot.sound, propext

* `LP.C01_copy_faithful`
* `LP.C01_copyCtor_faithful`
* `LP.C01_assign_faithful`
* `LP.C02_copy_does_not_leak`
* `LP.C02_original_does_not_leak`
* `LP.C02_sides_stay_apart`
* `LP.C03_nested_write_read_back`
* `LP.C03_chain_write_read_back`
* `LP.C04_off_position`
* `LP.C04_nested_write_off_path`
* `LP.C05_path_get_exact`
* `LP.C05_path_get_total`
* `LP.C06_trailing_slash`
* `LP.C06_slash_keys_unreachable`
* `LP.C07_one_kind`
* `LP.C07_only_active_content`
* `LP.C07_assign_forgets`
* `LP.C07_add_forgets`
* `LP.C08_finite_map`
* `LP.C09_sequence`
* `LP.C10_wrong_kind_throws`
* `LP.C10_key_index_converts`
* `LP.C10_number_index_destroys`
* `LP.C11_count`
* `LP.C11_count_after_adds`
* `LP.C12_equality_structural`
* `LP.C12_equality_structural_raw`
* `LP.C13_symmetric`
* `LP.C13_transitive`
* `LP.C13_reflexive_iff_no_nan`
* `LP.C13_copy_equal_iff_no_nan`
* `LP.C14_round_trip`
* `LP.C14_serialize_pure`
* `LP.C14_equal_iff`
* `LP.C14_stable`
* `LP.C15_cleared_container_lost`
* `LP.C16_meaning`
* `LP.C16_arbitrary_tables`
* `LP.C17_message_round_trip`
* `LP.C17_message_equality`
* `LP.C17_equal_iff`
* `LP.C17_unverified_buffers`
* `LP.C17_message_owns_copy`
* `LP.C18_json_import`
* `LP.C19_survives`
* `LP.C19_json_no_empty`
* `LP.C20_print_depends_on_content_only`
* `LP.C20_print_format`
* `LP.C21_programs_defined`
* `LP.C21_acyclic`
* `LP.C21_unshared`
* `LP.C21_reads_return`
* `LP.C22_part_to_whole`
* `LP.C22_whole_to_part`
* `LP.C23_cyclic_copy_never_returns`
* `LP.C23_cyclic_copy_exhausts_stack`
* `LP.C23_acyclic_copy_returns`
* `LP.C24_push_pop`
* `LP.C24_sent_by_iff`
* `LP.C24_head_unique`
* `LP.C24_push_pop_all`
* `LP.C25_remove_exact`
* `LP.C25_bare_name`
* `LP.C26_contents`
* `LP.C26_concatenation`
* `LP.C27_ownership`
* `LP.C27_no_leak`
* `LP.C27_null_refused`
* `LP.C27_copy_double_delete`
* `LP.Bus.C28_queue_conserved`
* `LP.Bus.C28_current_is_last_taken`
* `LP.Bus.C28_nothing_discarded`
* `LP.Bus.C28_stop_keeps_queue`
* `LP.Bus.C28_stop_window_discards_queue`
* `LP.Bus.C28_stop_window_reachable`
* `LP.Bus.C29_stable_subscriber_receives_in_order`
* `LP.Bus.C29_stable_subscriber_receives_all`
* `LP.Bus.C29_received_increasing`
* `LP.Bus.C30_no_spurious_delivery`
* `LP.Bus.C30_no_extra_copies`
* `LP.Bus.C31_no_delivery_after_delete`
* `LP.Bus.C32_detached_publishes_nothing`
* `LP.Bus.C32_detach_covers_subtree`
* `LP.Bus.C32_destructor_covers_hierarchy`
* `LP.Bus.C32_deleted_publisher_publishes_nothing`
* `LP.Bus.C33_only_current_after_stop`
* `LP.Bus.C33_exits_within_bound`
* `LP.Bus.C33_exits`
* `LP.Bus.C33_queued_stay_queued`
* `LP.Bus.C34_stop_before_start_lost`
* `LP.Bus.C35_never_blocked`
* `LP.Bus.C35_missed_wakeup_only_delays`
* `LP.Bus.C35_queue_taken_within_bound`
* `LP.Bus.C36_create_child_fails`
* `LP.Bus.C36_create_child_succeeds`
* `LP.Bus.C36_lookup_stable`
* `LP.Bus.C36_unknown_child`
* `LP.Bus.C37_reaches_whole_tree`
* `LP.Bus.C38_distribution_exact`
* `LP.Bus.C38_distribution_order`
* `LP.Bus.C38_bus_thread_distributes`
* `LP.Bus.C39_message_fields`
* `LP.Bus.C39_message_sent`
* `LP.Bus.C39_content_as_published`
* `LP.Bus.C40_publish_never_blocks`
* `LP.Bus.C40_delivered_after_batch`
* `LP.Locks.C42_no_deadlock`
* `LP.Locks.C42_no_circular_wait`
* `LP.Bus.C43_wrong_bus_delete`
* `LP.Bus.C43_silent_until_new_callback`
* `LP.Bus.C44_topic_rule`
* `LP.Bus.C44_no_other_wildcard`
* `LP.Action.C45_first_response_once`
* `LP.Action.C45_at_most_once`
* `LP.Action.C45_throwing_callback_runs_again`
* `LP.Action.C46_callback_only_for_own_response`
* `LP.Action.C46_one_message_one_callback`
* `LP.Action.C46_unknown_id_ignored`
* `LP.Action.C47_registered_before_published`
* `LP.Action.C47_response_finds_callback`
* `LP.Action.C48_request_response`
* `LP.Action.C49_envelope_entries`
* `LP.Action.C49_envelope_not_request`
* `LP.Action.C49_provider_sees_envelope`
* `LP.Action.C49_wrapping_builds_envelope`
* `LP.Action.C50_conversion_throws_iff`
* `LP.Action.C50_malformed_throws`
* `LP.Action.C50_null_callback_throws`
* `LP.Action.C51_returns_first_response_or_empty`
* `LP.Action.C51_result_final`
* `LP.Action.C51_always_finishes`
* `LP.Action.C51_signalled_returns_response`
* `LP.Action.C51_missed_notification`
* `LP.Action.C52_callback_stays_registered`
* `LP.Action.C52_late_response_undefined`
* `LP.Action.C52_only_returned_calls`
* `LP.Action.C52_timely_response_may_be_undefined`
* `LP.Action.C53_on_bus_thread_never_answered`
* `LP.Action.C53_only_timeout_ends_it`
* `LP.Link.C54_callback`
* `LP.Link.C54_no_echo`
* `LP.Link.C54_everything_else_sent_once`
* `LP.LinkConc.C54_sent_under_concurrency`
* `LP.LinkConc.C54_not_sent_under_concurrency`
* `LP.Link.C55_round_trip`
* `LP.Link.C55_worker`
* `LP.Link.C55_unreadable`
* `LP.Net.C56_tree_exactly_once`
* `LP.Net.C56_tree_ends`
* `LP.Net.C56_cycle_never_quiet`
* `LP.Net.C56_work_is_publication`
* `LP.Net.C56_cycle_for_ever`
* `LP.Plugin.C57_instance_names`
* `LP.Plugin.C57_instance_names_any_order`
* `LP.Plugin.C57_next_instance`
* `LP.Plugin.C57_last_instance`
* `LP.Plugin.C57_names_distinct`
* `LP.Plugin.C58_throws_iff`
* `LP.Plugin.C58_collision`
* `LP.Plugin.C59_histories_qualify`
* `LP.Plugin.C60_qualifying_file_loaded`
* `LP.Plugin.C60_other_file_rejected`
* `LP.Plugin.C60_loaded_iff`
* `LP.Plugin.C61_balanced`
* `LP.Plugin.C61_second_load_leaks`
* `LP.Worker.C62_never_abandoned`
* `LP.Host.C63_file_processed`
* `LP.Host.C63_views_exist`
* `LP.Host.C63_plugins_must_be_nonempty_list`
* `LP.Host.C63_plugins_instantiated`
* `LP.Host.C63_malformed_entry`
* `LP.Host.C64_after_start`
* `LP.Proc.C64_never_stopped`
* `LP.Proc.C65_undefined`
* `LP.Proc.C65_defined`
* `LP.Proc.C65_works_while_running`
* `LP.Proc.C65_works_within_bound`
* `LP.Proc.C65_lost_before_start`
* `LP.Proc.C65_no_effect_during_teardown`
* `LP.Proc.C65_root_bus_present`
* `LP.Fs.C66_combined`
* `LP.Config.C69_both_orders`
* `LP.Uuid.C70_well_formed`
* `LP.Uuid.C70_fourth_group_range`
* `LP.Uuid.C71_comparison`
* `LP.Log.C72_lines_not_interleaved`
* `LP.Log.C72_complete_output`
* `LP.Log.C72_progress`
* `LP.Locks.C73_never_returns`
* `LP.Fs.C74_executable_path`
* `LP.Plugin.C75_reloaded_template_fails`
* `LP.Plugin.C75_failed_creation_blocks`
* `LP.Plugin.C75_failed_creation_unload_undefined`
* `LP.Proc.C76_second_start`
* `LP.Proc.C76_start_after_failed_teardown`
* `LP.Host.C76_start_returns_once`
* `LP.Host.C77_configuration_exception`
* `LP.Host.C78_everything_released`
* `LP.Link.C79_sockets`
* `LP.Link.C80_shut_down`
* `LP.Net.C81_hub_not_passed`
* `LP.Net.C81_hub_does_not_relay`
* `LP.LinkConc.C82_sockets_properly_used`
* `LP.LinkConc.C82_everything_closed`
* `LP.LinkConc.C82_callback_over`
* `LP.LinkConc.C83_owner_can_go_on`
* `LP.LinkConc.C83_deinitialize_is_bounded`
* `LP.SysInfo.C84_each_request_answered_once`
* `LP.SysInfo.C84_code_can_go_on`
* `LP.SysInfo.C84_requester_gets_reply`
* `LP.SysInfo.C85_subscriber_silent`
* `LP.SysInfo.C85_provider_stays`
* `LP.SysInfo.C85_request_after_destruction`
* `LP.SysInfo.C85_never_at_rest_again`
* `LP.SysInfo.C85_defined_while_alive`
* `LP.SysInfo.C86_get_throws_iff`
* `LP.SysInfo.C86_only_strings`
* `LP.SysInfo.C87_configuration`
* `LP.SysInfo.C87_heartbeat`
* `LP.SysInfo.C87_no_heartbeat`
* `LP.Svc.C88_lost`
* `LP.Svc.C88_works`
* `LP.Svc.C88_acts`
* `LP.Svc.C89_undefined`
* `LP.Svc.C89_never_returns`
* `LP.Svc.C89_still_running`
* `LP.Svc.C90_orderly`
* `LP.Svc.C90_checkpoints`
* `LP.Svc.C90_stopped_last`
* `LP.Svc.C90_exit_undefined`
* `LP.Svc.C90_exit_defined`
* `LP.Svc.C90_stopped_not_reported`
* `LP.Svc.C90_unregistered`
* `LP.Race.C92_response`
* `LP.Race.C93_rules`
* `LP.FsWin.C94_listing`
* `LP.FsWin.C94_missing_directory`
* `LP.FsWin.C95_combined`
* `LP.FsWin.C95_executable_directory`
* `LP.Plugin.C96_search_order`
* `LP.Plugin.C96_no_executable`
* `LP.Plugin.C96_last_wins`
* `LP.Plugin.C97_own_bus`
* `LP.Plugin.C97_unknown_identifier`
* `LP.Plugin.C97_no_bus`
* `LP.Host.C98_plugins_unload_silent`
* `LP.Life.C99_bus_lifetime`
* `LP.Life.C99_publish`
* `LP.Life.C99_request`
* `LP.Life.C99_respond`
* `LP.Life.C99_created`
* `LP.Life.C100_bus_publish`
* `LP.Life.C100_orphan`
* `LP.Life.C101_never_destroyed`
* `LP.Life.C101_captured`
* `LP.Life.C101_released`
* `LP.Life.C101_destructors_end`
* `LP.Life.C102_left_code`
* `LP.Life.C102_teardown`
* `LP.Life.C102_created`
* `LP.Life.C103_careful`
* `LP.Life.C104_lives_with_bus`
* `LP.Host.C105_cannot_be_destroyed`
* `LP.Host.C105_iff`
* `LP.Host.C105_after_failed_teardown`
* `LP.Host.C105_after_return`
* `LP.Host.C105_after_throw`
* `LP.PluginWin.C106_loads`
* `LP.PluginWin.C106_rejects`
* `LP.PluginWin.C106_undecorated`
* `LP.PluginWin.C106_no_templates`
* `LP.PluginWin.C106_defined_iff`
* `LP.PluginWin.C106_search_order`
* `LP.PluginWin.C106_without_lib`
* `LP.Sig.C107_survivor`
* `LP.Sig.C107_killed`
* `LP.Sig.C107_handled`
* `LP.Sig.C107_unix`
* `LP.Sig.C107_windows`
* `LP.Sig.C107_osx`
* `LP.Main.C108_constructed`
* `LP.Main.C108_ignored`
* `LP.Main.C108_exit`
* `LP.Main.C108_exit_iff`
* `LP.Main.C108_exception`
* `LP.Main.C109_once`
* `LP.Main.C109_order`
* `LP.Main.C109_program`
* `LP.Life.C110_action_stays`
* `LP.Life.C110_message_undefined`
* `LP.Life.C110_origin`
* `LP.Life.C110_without_actions`
* `LP.Payload.C111_no_race`
* `LP.Payload.C111_undisturbed`
* `LP.C112_destroyed_exactly`
* `LP.C112_no_leak`
* `LP.C112_never_again`
* `LP.Main.C113_hierarchy`
* `LP.Main.C113_instances_hear_each_other`
* `LP.Overload.C114_assign`
* `LP.Overload.C114_declare`
* `LP.Overload.C114_declare_handle`
* `LP.Overload.C114_literal_is_true`
* `LP.Overload.C114_constructed_literal`
* `LP.Overload.C114_declare_versus_assign`
* `LP.Overload.C114_literal_default`
* `LP.Overload.C114_wire`
* `LP.Overload.C115_null_value`
* `LP.Overload.C115_poisons_whole`
* `LP.Overload.C115_assignment_heals`
* `LP.Remote.C116_answer_has_source`
* `LP.Remote.C116_remote_request`
* `LP.C117_exception_is_true`
* `LP.C117_reason_throws`
* `LP.C117_reading`
* `LP.C117_reported_index`
* `LP.C117_bus`
* `LP.C117_null_arguments`
* `LP.C117_configuration_handler`
* `LP.Bus.C118_exception_ends_run`
* `LP.Bus.C118_silent_until_start`
* `LP.Bus.C118_never_delivered`
* `LP.Bus.C118_lost_reach_nobody`
* `LP.Bus.C118_restart_goes_on`
* `LP.Bus.C118_null_datagram_callback`
* `LP.Bus.C118_one_null_call_per_start`
* `LP.Bus.C118_null_message_callback`
* `LP.Interleave.C119_determined`
* `LP.Interleave.C119_alone`
* `LP.Interleave.C119_commute`
* `LP.Bus.C120_one_order`
* `LP.Bus.C120_causal`
* `LP.Bus.C120_numbers`
* `LP.Bus.C120_answers_after_questions`
* `LP.Bus.C121_new_subscriber`
* `LP.Bus.C121_waiting_messages`
* `LP.Bus.C121_before_start`
* `LP.C122_message_text`
* `LP.C122_messages`
* `LP.C122_messages_ambiguous`
* `LP.C122_print_identifies`
* `LP.C122_integers`
* `LP.C122_booleans`
* `LP.C122_quotes`
* `LP.C122_keys`
* `LP.Installer.C123_request`
* `LP.Installer.C123_handles`
* `LP.Installer.C123_install`
* `LP.Installer.C123_uninstall`
* `LP.Installer.C123_history`
* `LP.Installer.C123_started`
* `LP.Installer.C123_started_other`
* `LP.Installer.C123_event`
* `LP.LinkConc.C124_link`
* `LP.Svc.C124_service`
* `LP.Svc.C124_service_raced`
* `LP.Svc.C124_service_raced_bus`
* `LP.Svc.C124_service_alone`
* `LP.LinkConc.C124_link_reads`
* `LP.Svc.C124_service_writes`
* `LP.Svc.C124_service_reads`
* `LP.Host.C125_configured`
* `LP.Main.C125_program`
* `LP.Grid.C126_hosts_refine_network`
* `LP.Grid.C126_tree_heard_once`
* `LP.Grid.C126_tree_published_once`
* `LP.Grid.C126_cycle_never_settles`
* `LP.Grid.C126_hub_does_not_relay`
* `LP.Grid.C126_tree_can_settle`
* `LP.Grid.C127_order_kept`
* `LP.Grid.C127_no_gaps`
* `LP.Grid.C127_causes_first`
* `LP.Grid.C127_no_common_order`
* `LP.Bus.C128_delivered`
* `LP.Bus.C128_dealt_with`
* `LP.Bus.C128_comes_to_rest`
* `LP.Bus.C128_busy_for_ever`
* `LP.Flat.C129_round_trip`
* `LP.Flat.C129_link`
* `LP.Flat.C129_size`
* `LP.Flat.C129_arrives`
* `LP.Flat.C129_any_bytes`
* `LP.Flat.C129_cut_off`
* `LP.Flat.C129_too_short`
* `LP.Flat.C129_blow_up`
* `LP.Flat.C129_same_bytes`
* `LP.Flat.C129_rewritten`
* `LP.Action.C130_shown`
* `LP.Action.C130_answered`
* `LP.Action.C130_blocking`
* `LP.Team.C131_one_distributes`
* `LP.Team.C131_conserved`
* `LP.Team.C131_received_increasing`
* `LP.Team.C131_no_spurious`
* `LP.Team.C131_one_order`
* `LP.Team.C131_stable_receives_all`
* `LP.Team.C131_undefined_iff`
* `LP.Team.C131_never_stuck`
* `LP.Team.C131_leave_within_bound`
* `LP.Team.C131_all_leave`
* `LP.Team.C131_stop_overtaken`
* `LP.Team.C131_exception_spares_others`
* `LP.Grid.C132_travels`
* `LP.Grid.C132_heard_everywhere`
* `LP.Grid.C132_comes_to_rest`
* `LP.Grid.C132_floods`
* `LP.Grid.C132_goes_on`
* `LP.Remote.C133_shown`
* `LP.Remote.C133_answered`
* `LP.Remote.C133_blocking`
* `LP.LinkLife.C134_defined_iff`
* `LP.LinkLife.C134_copies`
* `LP.LinkLife.C134_silent`
* `LP.LinkLife.C134_leak`
* `LP.LinkLife.C134_deaf`
* `LP.LinkLife.C134_as_new`
* `LP.Bus.C135_contains_subscriber`
* `LP.Bus.C135_contains_publisher`
* `LP.SysRemote.C136_answered`
* `LP.SysRemote.C136_blocking`
* `LP.SysRemote.C136_unloaded`
* `LP.SysRemote.C136_unloaded_witness`
* `LP.SysLife.C137_defined_iff`
* `LP.SysLife.C137_logged`
* `LP.SysLife.C137_answered`
* `LP.SysLife.C137_other`
* `LP.SysLife.C137_throws`
* `LP.SysLife.C137_leak`
* `LP.SysLife.C137_beat`
* `LP.Bus.C138_deleted_is_over`
* `LP.Bus.C138_waits_iff`
* `LP.Bus.C138_wait_ends`
* `LP.Bus.C138_returns_early`
* `LP.Bus.C138_publish_in_progress`
* `LP.C139_same_datagram`
* `LP.C139_never_released`
* `LP.Action.C140_open_exactly`
* `LP.Action.C140_until_return`
* `LP.Action.C140_size`
* `LP.Action.C141_overwritten`
* `LP.Action.C141_blocking`
* `LP.Action.C141_only_timeout`
* `LP.Action.C141_last`

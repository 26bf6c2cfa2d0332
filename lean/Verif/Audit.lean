-- Generated by tools/gen_manifest.py: axioms of every property theorem.
import Verif.Assets.New
import Verif.Assets.Program
import Verif.Assets.Props
import Verif.Async.Callbacks
import Verif.Async.EventEmitter
import Verif.Async.Executor
import Verif.Async.FutureBox
import Verif.Bind.Props
import Verif.Cells.Props
import Verif.Codec.Arguments
import Verif.Codec.Props
import Verif.Codec.TsTotal
import Verif.Css.MacroProps
import Verif.Css.Manager
import Verif.Css.Split
import Verif.Css.Transform
import Verif.Dom.Batch
import Verif.Dom.Children
import Verif.Dom.Inspect
import Verif.Dom.OrderedMapProps
import Verif.Dom.Reentrant
import Verif.Dom.ServerProps
import Verif.Driver.ClassMerge
import Verif.Driver.Gate
import Verif.Driver.Suspense
import Verif.Fetch.LazyCache
import Verif.Fetch.Resource
import Verif.Host.Access
import Verif.Host.CookiesProof
import Verif.Host.EventsProof
import Verif.Host.Fetch
import Verif.Host.Fields
import Verif.Host.Links
import Verif.Host.Logging
import Verif.Host.Options
import Verif.Host.Queries
import Verif.Host.RequestsProps
import Verif.Host.Router
import Verif.Host.Start
import Verif.Host.TimersProof
import Verif.Host.Websocket
import Verif.Host.WebsocketRef
import Verif.Host.WindowMacro
import Verif.Json.Commands
import Verif.Json.Dates
import Verif.Json.Equality
import Verif.Json.Errors
import Verif.Json.TypedProps
import Verif.Reactive.AutoMap
import Verif.Reactive.Conditions
import Verif.Reactive.Derived
import Verif.Reactive.GraphProps
import Verif.Reactive.Handles
import Verif.Reactive.Ids
import Verif.Reactive.MachineProps
import Verif.Reactive.OneRead
import Verif.Reactive.Owned
import Verif.Reactive.Panics
import Verif.Reactive.RefreshProps
import Verif.Reactive.SetProps
import Verif.Reactive.TxProps
import Verif.Reactive.WorkProps
import Verif.Render.List
import Verif.Render.Moves
import Verif.Serve.Props
import Verif.Ssr.Cli
import Verif.Ssr.Dispatch
import Verif.Ssr.Html
import Verif.Ssr.Loop
import Verif.Ssr.Memory
import Verif.Ssr.Page
import Verif.Ssr.Whole
import Verif.Unsafe.Memory
import Verif.Unsafe.Tasks
import Verif.View.Component
import Verif.View.Content
import Verif.View.ListenProps
import Verif.View.ListenSome
import Verif.View.MacroProps
import Verif.View.Props
import Verif.View.Read
import Verif.View.Sent
import Verif.View.SomePage
import Verif.View.Style
import Verif.View.StyledPage
import Verif.View.Takeover
import Verif.View.Untouched
import Verif.Watch.Props
import Verif.Whole.Props
#print axioms Verif.Reactive.C01_unmarked_reads_fresh_partial
#print axioms Verif.Reactive.C01_private_conditions_log_fresh
#print axioms Verif.Reactive.C01_private_conditions_read_fresh
#print axioms Verif.Reactive.C01_private_conditions_read_succeeds
#print axioms Verif.Reactive.C01_fixed_dependencies_log_fresh
#print axioms Verif.Reactive.C01_fixed_dependencies_read_fresh
#print axioms Verif.Reactive.C01_fixed_dependencies_read_succeeds
#print axioms Verif.Reactive.C01_dynamic_stale_violated
#print axioms Verif.Reactive.C02_edges_consistent
#print axioms Verif.Reactive.C03_invalidates_exactly_transitive
#print axioms Verif.Reactive.C04_update_terminates
#print axioms Verif.Reactive.C04_abandoned_released
#print axioms Verif.Reactive.C04_released_recursively
#print axioms Verif.Reactive.C04_observed_keeps_links
#print axioms Verif.Reactive.C04_bystander_keeps_links
#print axioms Verif.Reactive.C04_updated_node
#print axioms Verif.Reactive.C04_exact
#print axioms Verif.Reactive.C05_protocol
#print axioms Verif.Reactive.C05_callbacks_only_after_transactions
#print axioms Verif.Reactive.C05_each_affected_once_in_order
#print axioms Verif.Reactive.C05_affected_are_collected
#print axioms Verif.Reactive.C05_every_write_is_handled
#print axioms Verif.Reactive.C05_set_affects_dependents
#print axioms Verif.Reactive.C06_level_counts_open
#print axioms Verif.Reactive.C06_outermost_hands_out
#print axioms Verif.Reactive.C06_panic_iff
#print axioms Verif.Reactive.C07_first_call_at_once
#print axioms Verif.Reactive.C07_only_changes
#print axioms Verif.Reactive.C07_all_changes_unmarked_partial
#print axioms Verif.Reactive.C07_all_changes_private_conditions
#print axioms Verif.Reactive.C07_all_changes_fixed_dependencies
#print axioms Verif.Reactive.C07_all_changes_violated
#print axioms Verif.Reactive.C07_first_read_releases_violated
#print axioms Verif.Reactive.C08_silent_after_drop
#print axioms Verif.Reactive.C08_drop_takes_effect
#print axioms Verif.Reactive.C08_no_links_after_drop
#print axioms Verif.Reactive.C08_owned_dropped
#print axioms Verif.Reactive.C08_replaced_resource_dropped
#print axioms Verif.Reactive.C08_kept_until_next_call
#print axioms Verif.Reactive.C08_nothing_left
#print axioms Verif.Reactive.C09_at_most_one_connection
#print axioms Verif.Reactive.C09_open_iff_consumed
#print axioms Verif.Reactive.C09_open_while_observed_private
#print axioms Verif.Reactive.C09_open_while_observed_fixed
#print axioms Verif.Reactive.C09_closed_when_all_gone
#print axioms Verif.Reactive.C09_created
#print axioms Verif.Reactive.C10_ids_unique_ordered
#print axioms Verif.Reactive.C10_kind_order
#print axioms Verif.Reactive.C10_sets_oldest_first
#print axioms Verif.Reactive.C11_equal_changes_nothing
#print axioms Verif.Reactive.C11_equal_changes_nothing_nested
#print axioms Verif.Reactive.C11_different_is_set
#print axioms Verif.Reactive.C11_set_is_one_set
#print axioms Verif.Reactive.C11_change_is_one_set
#print axioms Verif.AutoMap.C12_created_once
#print axioms Verif.AutoMap.C12_entries_persist
#print axioms Verif.AutoMap.C12_reentrant_violated
#print axioms Verif.Codec.C13_json_roundtrip
#print axioms Verif.Codec.C13_object_limit_violated
#print axioms Verif.Codec.C14_size_exact
#print axioms Verif.Codec.C14_json_size_exact
#print axioms Verif.Codec.C14_no_overrun
#print axioms Verif.Codec.C15_value_roundtrip_partial
#print axioms Verif.Codec.C15_object_violated
#print axioms Verif.Codec.C15_roundtrip_iff
#print axioms Verif.Codec.C16_decode_total
#print axioms Verif.Codec.C16_decode_json_total
#print axioms Verif.Codec.C16_last_entry_counts
#print axioms Verif.Codec.Ts.C16_browser_total
#print axioms Verif.Codec.C17_same_bytes
#print axioms Verif.Codec.C17_rust_to_ts_partial
#print axioms Verif.Codec.C17_ts_to_rust_partial
#print axioms Verif.Codec.C17_ts_object_violated
#print axioms Verif.Codec.C17_bom_violated
#print axioms Verif.Codec.C17_proto_violated
#print axioms Verif.Json.C18_typed_roundtrip
#print axioms Verif.Json.C18_integers
#print axioms Verif.Json.C18_no_panic
#print axioms Verif.Json.C18_nested_option_violated
#print axioms Verif.Json.C18_u64_violated
#print axioms Verif.Json.C19_derive_roundtrip
#print axioms Verif.Json.C19_variants_distinct
#print axioms Verif.Json.C19_fields_by_name
#print axioms Verif.Ssr.C20_recognised
#print axioms Verif.Ssr.C20_nothing_else
#print axioms Verif.Ssr.C20_answers
#print axioms Verif.Ssr.C20_random_violated
#print axioms Verif.Dom.C21_sort_is_stable
#print axioms Verif.Dom.C21_sorted_batch
#print axioms Verif.Dom.C21_sorted_session
#print axioms Verif.Dom.C21_insert_below_removed_violated
#print axioms Verif.Driver.C22_nothing_before_open
#print axioms Verif.Driver.C22_each_command_once_in_batches
#print axioms Verif.Driver.C22_open_delivers_everything
#print axioms Verif.Driver.C22_never_closes
#print axioms Verif.Driver.C22_panics_iff
#print axioms Verif.Driver.C22_page
#print axioms Verif.Driver.C22_log
#print axioms Verif.Render.C23_shows_partial
#print axioms Verif.Render.C23_reuse_partial
#print axioms Verif.Render.C23_history_partial
#print axioms Verif.Render.C23_fragments_violated
#print axioms Verif.Driver.C24_contains_exactly
#print axioms Verif.Driver.C24_sent_iff_changed
#print axioms Verif.Driver.C24_sent_only_when_changed_partial
#print axioms Verif.Driver.C24_sent_only_when_changed_violated
#print axioms Verif.Driver.C24_suspense_class_stays
#print axioms Verif.Driver.Suspense.C25_exact_after_operation
#print axioms Verif.Driver.Suspense.C25_exact_kept_by_removal
#print axioms Verif.Driver.Suspense.C25_only_changes
#print axioms Verif.Driver.Suspense.C25_attach_limit
#print axioms Verif.Driver.Suspense.C25_removed_subtree_violated
#print axioms Verif.Driver.Suspense.C25_replaced_handler_violated
#print axioms Verif.Dom.C26_children_behave_as_list
#print axioms Verif.Dom.C26_insert_position
#print axioms Verif.Dom.C26_bad_reference_panics
#print axioms Verif.Dom.C27_server_document
#print axioms Verif.Dom.C27_server_forest
#print axioms Verif.Json.C28_command_accepted_partial
#print axioms Verif.Json.C28_batch_accepted_partial
#print axioms Verif.Json.C28_remove_attr_violated
#print axioms Verif.Json.C28_accepted_iff
#print axioms Verif.Ssr.C29_page_partial
#print axioms Verif.Ssr.C29_style_violated
#print axioms Verif.Ssr.C29_carriage_return_violated
#print axioms Verif.Ssr.C29_void_violated
#print axioms Verif.Dom.C30_lists_last_writes
#print axioms Verif.Dom.C30_names_once_last_value
#print axioms Verif.Ssr.C31_sent_once_partial
#print axioms Verif.Ssr.C31_answered
#print axioms Verif.Ssr.C31_one_response
#print axioms Verif.Ssr.C31_finished
#print axioms Verif.Ssr.C31_document
#print axioms Verif.Ssr.C31_answers
#print axioms Verif.Ssr.C31_reachable
#print axioms Verif.Ssr.C31_equal_once_partial
#print axioms Verif.Ssr.C31_equal_violated
#print axioms Verif.Ssr.C32_page
#print axioms Verif.Ssr.C32_loader
#print axioms Verif.Ssr.C32_errors
#print axioms Verif.Ssr.C32_read_partial
#print axioms Verif.Css.C33_classes
#print axioms Verif.Css.C33_names
#print axioms Verif.Css.C33_own_rule
#print axioms Verif.Css.C34_rows
#print axioms Verif.Css.C34_split_join_partial
#print axioms Verif.Css.C34_rules_partial
#print axioms Verif.Css.C34_media_print_violated
#print axioms Verif.Css.C34_nonascii_violated
#print axioms Verif.Css.C34_nonascii_panics_violated
#print axioms Verif.Fetch.C35_one_at_a_time
#print axioms Verif.Fetch.C35_read_partial
#print axioms Verif.Fetch.C35_sent
#print axioms Verif.Fetch.C35_forced_partial
#print axioms Verif.Fetch.C35_lost_answer_violated
#print axioms Verif.Async.C36_poll
#print axioms Verif.Async.C36_publish
#print axioms Verif.Async.C36_no_lost_wakeup
#print axioms Verif.Async.C36_once
#print axioms Verif.Async.C37_trigger
#print axioms Verif.Async.C37_dropped
#print axioms Verif.Async.C38_dispatch
#print axioms Verif.Async.C38_only_called
#print axioms Verif.Async.C38_ids
#print axioms Verif.Async.C38_once
#print axioms Verif.Async.C38_once_reentrant_violated
#print axioms Verif.Async.C39_no_lost_wakeup
#print axioms Verif.Async.C39_pending
#print axioms Verif.Async.C39_completed
#print axioms Verif.Host.C40_mirrors_partial
#print axioms Verif.Host.C40_keeps_mirroring
#print axioms Verif.Host.C40_set
#print axioms Verif.Host.C40_identical
#print axioms Verif.Host.C40_only_changes
#print axioms Verif.Host.C40_listeners
#print axioms Verif.Host.C40_unobserved_violated
#print axioms Verif.Codec.C41_taken
#print axioms Verif.Codec.C41_result_partial
#print axioms Verif.Codec.C41_result_violated
#print axioms Verif.Codec.C41_callback_partial
#print axioms Verif.Ssr.C42_prefix
#print axioms Verif.Ssr.C42_wasm
#print axioms Verif.Ssr.C42_below_partial
#print axioms Verif.Ssr.C42_boundary_violated
#print axioms Verif.Ssr.C43_inserted_partial
#print axioms Verif.Ssr.C43_others
#print axioms Verif.Ssr.C43_twice_violated
#print axioms Verif.Ssr.C44_split
#print axioms Verif.Ssr.C44_strings
#print axioms Verif.Dom.C45_structure
#print axioms Verif.Dom.C45_text_partial
#print axioms Verif.Dom.C45_class_violated
#print axioms Verif.Dom.C45_class_removed_violated
#print axioms Verif.Dom.C45_listeners_violated
#print axioms Verif.Dom.C45_app_violated
#print axioms Verif.Host.C46_silent
#print axioms Verif.Host.C46_closed_partial
#print axioms Verif.Host.C46_dropped_inside
#print axioms Verif.Host.C46_protocol
#print axioms Verif.Host.C46_send
#print axioms Verif.Host.C46_closed_violated
#print axioms Verif.Host.C47_response_kind
#print axioms Verif.Host.C47_response_partial
#print axioms Verif.Host.C47_response_parameter_violated
#print axioms Verif.Host.C47_response_twice_violated
#print axioms Verif.Host.C47_request_browser
#print axioms Verif.Host.C47_request_partial
#print axioms Verif.Host.C47_request_binary_violated
#print axioms Verif.Host.C47_request_names_violated
#print axioms Verif.Fetch.C48_map
#print axioms Verif.Fetch.C48_map_laws
#print axioms Verif.Fetch.C48_question
#print axioms Verif.Fetch.C48_question_laws
#print axioms Verif.Fetch.C48_eq
#print axioms Verif.View.C49_shows_partial
#print axioms Verif.View.C49_batches_partial
#print axioms Verif.View.C49_content_partial
#print axioms Verif.View.C49_fragment_violated
#print axioms Verif.View.C49_item_violated
#print axioms Verif.View.C49_key_violated
#print axioms Verif.View.C50_commands
#print axioms Verif.View.C50_silent
#print axioms Verif.View.C50_document
#print axioms Verif.Host.C51_chain_partial
#print axioms Verif.Host.C51_props_partial
#print axioms Verif.Host.C51_element_violated
#print axioms Verif.Host.C51_props_violated
#print axioms Verif.Host.C51_result_violated
#print axioms Verif.Host.C51_props_function_violated
#print axioms Verif.Host.Cookies.C52_string_partial
#print axioms Verif.Host.Cookies.C52_json_partial
#print axioms Verif.Host.Cookies.C52_others
#print axioms Verif.Host.Cookies.C52_server
#print axioms Verif.Host.Cookies.C52_json_violated
#print axioms Verif.Host.Cookies.C52_name_violated
#print axioms Verif.Host.Cookies.C52_foreign_violated
#print axioms Verif.Host.Cookies.C52_expiry_violated
#print axioms Verif.Host.Timers.C53_refines_partial
#print axioms Verif.Host.Timers.C53_trace_partial
#print axioms Verif.Host.Timers.C53_fires_partial
#print axioms Verif.Host.Timers.C53_released_partial
#print axioms Verif.Host.Timers.C53_long_violated
#print axioms Verif.Host.Queries.C54_random_partial
#print axioms Verif.Host.Queries.C54_random_from
#print axioms Verif.Host.Queries.C54_clock_partial
#print axioms Verif.Host.Queries.C54_elapsed_partial
#print axioms Verif.Host.Queries.C54_zone
#print axioms Verif.Host.Queries.C54_is_browser
#print axioms Verif.Host.Queries.C54_env_partial
#print axioms Verif.Host.Queries.C54_random_violated
#print axioms Verif.Host.Queries.C54_clock_violated
#print axioms Verif.Host.Queries.C54_elapsed_violated
#print axioms Verif.Host.Queries.C54_env_violated
#print axioms Verif.Host.Events.C55_refines
#print axioms Verif.Host.Events.C55_quiet
#print axioms Verif.Host.Events.C55_dropped
#print axioms Verif.Host.Links.C56_which_partial
#print axioms Verif.Host.Links.C56_follows
#print axioms Verif.Host.Links.C56_same
#print axioms Verif.Host.Links.C56_refused
#print axioms Verif.Host.Links.C56_others
#print axioms Verif.Host.Links.C56_names
#print axioms Verif.Host.Links.C56_scheme_violated
#print axioms Verif.Host.Links.C56_case_violated
#print axioms Verif.Host.Links.C56_elsewhere_violated
#print axioms Verif.View.C57_page_partial
#print axioms Verif.View.C57_content_partial
#print axioms Verif.View.C57_absent_violated
#print axioms Verif.View.C58_replaced
#print axioms Verif.View.C58_takeover_partial
#print axioms Verif.View.C58_content_partial
#print axioms Verif.View.C58_attributes_violated
#print axioms Verif.Host.Requests.C59_refines_partial
#print axioms Verif.Host.Requests.C59_sent_partial
#print axioms Verif.Host.Requests.C59_answers_partial
#print axioms Verif.Host.Requests.C59_woken_partial
#print axioms Verif.Host.Requests.C59_server_request_partial
#print axioms Verif.Host.Requests.C59_server_answer_partial
#print axioms Verif.Host.Requests.C59_json_text_violated
#print axioms Verif.Host.Requests.C59_headers_violated
#print axioms Verif.Host.Requests.C59_server_method_violated
#print axioms Verif.Host.Requests.C59_server_number_violated
#print axioms Verif.Host.Requests.C59_server_mark_violated
#print axioms Verif.Host.Requests.C59_server_utf8_violated
#print axioms Verif.Css.Macro.C60_text_partial
#print axioms Verif.Css.Macro.C60_rules_partial
#print axioms Verif.Css.Macro.C60_unit_violated
#print axioms Verif.Css.Macro.C60_not_replaced_violated
#print axioms Verif.Css.Macro.C60_color_violated
#print axioms Verif.Css.Macro.C60_ref_violated
#print axioms Verif.Css.Macro.C60_rejected_violated
#print axioms Verif.View.Macro.C61_builds
#print axioms Verif.View.Macro.C61_element
#print axioms Verif.View.Macro.C61_accepts
#print axioms Verif.View.Macro.C61_shows_partial
#print axioms Verif.View.Macro.C61_component_content_violated
#print axioms Verif.Watch.C62_no_edit_lost
#print axioms Verif.Watch.C62_excluded
#print axioms Verif.Watch.C62_builds
#print axioms Verif.Watch.C62_stream
#print axioms Verif.Watch.C62_covered
#print axioms Verif.Watch.C62_reload
#print axioms Verif.Watch.C62_reported_partial
#print axioms Verif.Watch.C62_page_partial
#print axioms Verif.Watch.C62_stale_status_violated
#print axioms Verif.Watch.C62_stale_state_violated
#print axioms Verif.Watch.C62_overlay_violated
#print axioms Verif.Watch.C62_stale_page_violated
#print axioms Verif.Watch.C62_needless_reload_violated
#print axioms Verif.Watch.C62_port_violated
#print axioms Verif.Assets.C63_window
#print axioms Verif.Assets.C63_names
#print axioms Verif.Assets.C63_succeeds
#print axioms Verif.Assets.C63_served_partial
#print axioms Verif.Assets.C63_only
#print axioms Verif.Assets.C63_same_url
#print axioms Verif.Assets.C63_leading_zeros_violated
#print axioms Verif.Assets.C63_source_map_violated
#print axioms Verif.Assets.C63_failed_build_violated
#print axioms Verif.Assets.C63_public_path_violated
#print axioms Verif.Assets.C63_fragment_violated
#print axioms Verif.View.C64_looks_partial
#print axioms Verif.View.C64_batches_partial
#print axioms Verif.View.C64_takeover_partial
#print axioms Verif.View.C64_content_partial
#print axioms Verif.View.C64_takeover_content_partial
#print axioms Verif.View.C64_empty_class_violated
#print axioms Verif.View.C65_page_partial
#print axioms Verif.View.C65_content_partial
#print axioms Verif.View.C66_nothing_left
#print axioms Verif.View.C67_answers_partial
#print axioms Verif.View.C67_listeners_partial
#print axioms Verif.View.C67_content_partial
#print axioms Verif.Serve.C68_starts
#print axioms Verif.Serve.C68_pages
#print axioms Verif.Serve.C68_files
#print axioms Verif.Serve.C68_proxy_get_partial
#print axioms Verif.Serve.C68_proxy_post_partial
#print axioms Verif.Serve.C68_bare_violated
#print axioms Verif.Serve.C68_get_headers_violated
#print axioms Verif.Serve.C68_method_violated
#print axioms Verif.Serve.C68_post_type_violated
#print axioms Verif.Serve.C68_post_headers_violated
#print axioms Verif.Serve.C68_root_violated
#print axioms Verif.Bind.C69_bind_partial
#print axioms Verif.Bind.C69_block_partial
#print axioms Verif.Bind.C69_spawn_partial
#print axioms Verif.Bind.C69_rc_partial
#print axioms Verif.Bind.C69_conflict
#print axioms Verif.Bind.C69_order_violated
#print axioms Verif.Bind.C69_spawn_order_violated
#print axioms Verif.Bind.C69_pipe_violated
#print axioms Verif.Bind.C69_rc_path_violated
#print axioms Verif.Whole.C70_shows_partial
#print axioms Verif.Whole.C70_no_subscription_left_partial
#print axioms Verif.Cells.C71_cells_partial
#print axioms Verif.Cells.C71_plain_partial
#print axioms Verif.Cells.C71_unguarded_violated
#print axioms Verif.Cells.C71_suspense_violated
#print axioms Verif.Json.C72_answers
#print axioms Verif.Json.C72_fits
#print axioms Verif.Json.C72_place_partial
#print axioms Verif.Json.C72_address_partial
#print axioms Verif.Json.C72_tuple_violated
#print axioms Verif.Json.C73_equal
#print axioms Verif.Json.C73_equivalence
#print axioms Verif.Json.C73_hash_partial
#print axioms Verif.Json.C73_hash_violated
#print axioms Verif.Ssr.Memory.C74_arrives_partial
#print axioms Verif.Ssr.Memory.C74_messages_partial
#print axioms Verif.Ssr.Memory.C74_result_violated
#print axioms Verif.Ssr.Memory.C74_panic_violated
#print axioms Verif.Ssr.Memory.C74_object_violated
#print axioms Verif.Host.Logging.C75_console_partial
#print axioms Verif.Host.Logging.C75_server_partial
#print axioms Verif.Host.Logging.C75_server_violated
#print axioms Verif.Host.Logging.C75_file_violated
#print axioms Verif.Host.Logging.C75_mark_violated
#print axioms Verif.Host.Start.C76_started
#print axioms Verif.Host.Start.C76_page
#print axioms Verif.Host.Start.C76_entry
#print axioms Verif.Assets.New.C77_kept_partial
#print axioms Verif.Assets.New.C77_occupied
#print axioms Verif.Assets.New.C77_created
#print axioms Verif.Assets.New.C77_kept_violated
#print axioms Verif.Json.Dates.C78_date
#print axioms Verif.Json.Dates.C78_date_read
#print axioms Verif.Json.Dates.C78_moment_partial
#print axioms Verif.Json.Dates.C78_moment_read
#print axioms Verif.Json.Dates.C78_moment_violated
#print axioms Verif.Assets.Program.C79_package
#print axioms Verif.Assets.Program.C79_one
#print axioms Verif.Assets.Program.C79_program_partial
#print axioms Verif.Assets.Program.C79_program_violated
#print axioms Verif.Assets.Program.C79_rest
#print axioms Verif.Assets.Program.C79_compiled_again
#print axioms Verif.Host.WindowMacro.C80_call_partial
#print axioms Verif.Host.WindowMacro.C80_get_partial
#print axioms Verif.Host.WindowMacro.C80_rejected
#print axioms Verif.Host.WindowMacro.C80_other_literals_violated
#print axioms Verif.Unsafe.C81_memory_partial
#print axioms Verif.Unsafe.C81_layout_violated
#print axioms Verif.Unsafe.C81_write_violated
#print axioms Verif.Unsafe.C81_read_violated
#print axioms Verif.Unsafe.Tasks.C82_tasks_partial
#print axioms Verif.Unsafe.Tasks.C82_forgotten_violated
#print axioms Verif.Reactive.C83_runs_needed_partial
#print axioms Verif.Reactive.C83_one_read_partial
#print axioms Verif.Reactive.C83_one_read_private_partial
#print axioms Verif.Reactive.C83_one_read_violated
#print axioms Verif.Host.C84_reference
#print axioms Verif.Host.C84_listeners
#print axioms Verif.Host.C84_one_listener
#print axioms Verif.View.Component.C85_accepted
#print axioms Verif.View.Component.C85_called
#print axioms Verif.View.Component.C85_properties
#print axioms Verif.View.Component.C85_visible_partial
#print axioms Verif.View.Component.C85_restricted_violated
#print axioms Verif.View.Component.C85_modifiers_violated
#print axioms Verif.Reactive.C86_tuple
#print axioms Verif.Reactive.C86_mapped
#print axioms Verif.Reactive.C86_nested
#print axioms Verif.Reactive.C86_never_torn
#print axioms Verif.Reactive.C86_never_torn_private
#print axioms Verif.Reactive.Handles.C87_alive
#print axioms Verif.Reactive.Handles.C87_exact
#print axioms Verif.Reactive.Handles.C87_returned
#print axioms Verif.Reactive.Handles.C87_captured
#print axioms Verif.Reactive.Handles.C87_kept
#print axioms Verif.Reactive.Handles.C87_clones
#print axioms Verif.Reactive.Handles.C87_no_leak_partial
#print axioms Verif.Reactive.Handles.C87_all_freed_partial
#print axioms Verif.Reactive.Handles.C87_once
#print axioms Verif.Reactive.Handles.C87_connect_violated
#print axioms Verif.Reactive.Panics.C88_working_partial
#print axioms Verif.Reactive.Panics.C88_frozen_violated
#print axioms Verif.Reactive.Panics.C88_lost_violated
#print axioms Verif.Reactive.Panics.C88_recovers_partial
#print axioms Verif.Dom.C89_events_partial
#print axioms Verif.Dom.C89_sent
#print axioms Verif.Dom.C89_move_violated
#print axioms Verif.Host.Fields.C90_shows_partial
#print axioms Verif.Host.Fields.C90_bound
#print axioms Verif.Host.Fields.C90_typing
#print axioms Verif.Host.Fields.C90_told
#print axioms Verif.Host.Fields.C90_cursor
#print axioms Verif.Host.Fields.C90_box_partial
#print axioms Verif.Host.Fields.C90_served_partial
#print axioms Verif.Host.Fields.C90_served_violated
#print axioms Verif.Host.Fields.C90_flag_violated
#print axioms Verif.Host.Fields.C90_rejected_violated
#print axioms Verif.Host.Fields.C90_jump_violated
#print axioms Verif.Host.Fields.C90_select_violated
#print axioms Verif.Host.Fields.C90_box_violated
#print axioms Verif.Host.Options.C90_options_partial
#print axioms Verif.Host.Options.C90_options_attributes
#print axioms Verif.Host.Options.C90_options_violated
#print axioms Verif.Render.C91_focus_partial
#print axioms Verif.Render.C91_outside
#print axioms Verif.Render.C91_section
#print axioms Verif.Render.C91_history
#print axioms Verif.Render.C91_once
#print axioms Verif.Render.C91_edit_violated
#print axioms Verif.Render.C91_between_violated

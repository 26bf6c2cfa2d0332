{
 "claims": [
  {
   "property": "C01",
   "status": "partial",
   "theorems": [
    "Verif.Reactive.C01_unmarked_reads_fresh_partial",
    "Verif.Reactive.C01_private_conditions_log_fresh",
    "Verif.Reactive.C01_private_conditions_read_fresh",
    "Verif.Reactive.C01_private_conditions_read_succeeds",
    "Verif.Reactive.C01_fixed_dependencies_log_fresh",
    "Verif.Reactive.C01_fixed_dependencies_read_fresh",
    "Verif.Reactive.C01_fixed_dependencies_read_succeeds",
    "Verif.Reactive.C01_dynamic_stale_violated"
   ],
   "note": "Full property is false (C01_dynamic_stale_violated: a computed stays stale after a dependency was dropped during its own evaluation). Proved for all programs whose conditional dependencies are private (values may be read in any way; if y reads a computed z only sometimes, nothing that depends on y reads z, or a computed below z, by itself), in particular for those whose closures read a fixed set of nodes; and for every read of a node that the model has not marked as having lost a dependency."
  },
  {
   "property": "C02",
   "status": "proved",
   "theorems": [
    "Verif.Reactive.C02_edges_consistent"
   ],
   "note": ""
  },
  {
   "property": "C03",
   "status": "proved",
   "theorems": [
    "Verif.Reactive.C03_invalidates_exactly_transitive"
   ],
   "note": "The set computed for invalidation; its effect on caches and subscribers is part of the machine theorems (C01, C05)."
  },
  {
   "property": "C04",
   "status": "proved",
   "theorems": [
    "Verif.Reactive.C04_update_terminates",
    "Verif.Reactive.C04_abandoned_released",
    "Verif.Reactive.C04_released_recursively",
    "Verif.Reactive.C04_observed_keeps_links",
    "Verif.Reactive.C04_bystander_keeps_links",
    "Verif.Reactive.C04_updated_node",
    "Verif.Reactive.C04_exact"
   ],
   "note": "Termination, release and keep hold for all graphs, also cyclic ones; the exact effect for acyclic ones."
  },
  {
   "property": "C05",
   "status": "proved",
   "theorems": [
    "Verif.Reactive.C05_protocol",
    "Verif.Reactive.C05_callbacks_only_after_transactions",
    "Verif.Reactive.C05_each_affected_once_in_order",
    "Verif.Reactive.C05_affected_are_collected",
    "Verif.Reactive.C05_every_write_is_handled",
    "Verif.Reactive.C05_set_affects_dependents"
   ],
   "note": "Callbacks of existing subscribers; the first call of a new subscription happens at once (C07)."
  },
  {
   "property": "C06",
   "status": "proved",
   "theorems": [
    "Verif.Reactive.C06_level_counts_open",
    "Verif.Reactive.C06_outermost_hands_out",
    "Verif.Reactive.C06_panic_iff"
   ],
   "note": "Nesting up to 65535."
  },
  {
   "property": "C07",
   "status": "partial",
   "theorems": [
    "Verif.Reactive.C07_first_call_at_once",
    "Verif.Reactive.C07_only_changes",
    "Verif.Reactive.C07_all_changes_unmarked_partial",
    "Verif.Reactive.C07_all_changes_private_conditions",
    "Verif.Reactive.C07_all_changes_fixed_dependencies",
    "Verif.Reactive.C07_all_changes_violated",
    "Verif.Reactive.C07_first_read_releases_violated"
   ],
   "note": "First call and no-equal-deliveries hold for all programs. That no change is missed is false in general (C07_all_changes_violated) and proved for programs whose conditional dependencies are private (see C01) and whose first callback run is quiet, if the subscribed computed is not itself below a conditional dependency or the first run reads nothing; without the last condition it is false again (C07_first_read_releases_violated)."
  },
  {
   "property": "C08",
   "status": "proved",
   "theorems": [
    "Verif.Reactive.C08_silent_after_drop",
    "Verif.Reactive.C08_drop_takes_effect",
    "Verif.Reactive.C08_no_links_after_drop",
    "Verif.Reactive.C08_owned_dropped",
    "Verif.Reactive.C08_replaced_resource_dropped",
    "Verif.Reactive.C08_kept_until_next_call",
    "Verif.Reactive.C08_nothing_left"
   ],
   "note": "The last two are for programs whose callbacks return the resources of all subscriptions they make, and are stated about the log of the execution alone."
  },
  {
   "property": "C09",
   "status": "proved",
   "theorems": [
    "Verif.Reactive.C09_at_most_one_connection",
    "Verif.Reactive.C09_open_iff_consumed",
    "Verif.Reactive.C09_open_while_observed_private",
    "Verif.Reactive.C09_open_while_observed_fixed",
    "Verif.Reactive.C09_closed_when_all_gone",
    "Verif.Reactive.C09_created"
   ],
   "note": "Consumer means: a computed or subscription holding an edge to the value."
  },
  {
   "property": "C10",
   "status": "proved",
   "theorems": [
    "Verif.Reactive.C10_ids_unique_ordered",
    "Verif.Reactive.C10_kind_order",
    "Verif.Reactive.C10_sets_oldest_first"
   ],
   "note": "Fewer than 2^64 nodes."
  },
  {
   "property": "C11",
   "status": "proved",
   "theorems": [
    "Verif.Reactive.C11_equal_changes_nothing",
    "Verif.Reactive.C11_equal_changes_nothing_nested",
    "Verif.Reactive.C11_different_is_set",
    "Verif.Reactive.C11_set_is_one_set",
    "Verif.Reactive.C11_change_is_one_set"
   ],
   "note": ""
  },
  {
   "property": "C12",
   "status": "proved",
   "theorems": [
    "Verif.AutoMap.C12_created_once",
    "Verif.AutoMap.C12_entries_persist",
    "Verif.AutoMap.C12_reentrant_violated"
   ],
   "note": "Provided no constructor looks up the key it is constructing; without this it is false (C12_reentrant_violated)."
  },
  {
   "property": "C13",
   "status": "proved",
   "theorems": [
    "Verif.Codec.C13_json_roundtrip",
    "Verif.Codec.C13_object_limit_violated"
   ],
   "note": "Objects with at most 65535 entries, encodings below 4 GiB; the entry limit is sharp (C13_object_limit_violated)."
  },
  {
   "property": "C14",
   "status": "proved",
   "theorems": [
    "Verif.Codec.C14_size_exact",
    "Verif.Codec.C14_json_size_exact",
    "Verif.Codec.C14_no_overrun"
   ],
   "note": "Encodings below 4 GiB (sizes are u32)."
  },
  {
   "property": "C15",
   "status": "partial",
   "theorems": [
    "Verif.Codec.C15_value_roundtrip_partial",
    "Verif.Codec.C15_object_violated",
    "Verif.Codec.C15_roundtrip_iff"
   ],
   "note": "Full property is false: a value containing a non-empty JsValue::Object never decodes. The round trip holds exactly for the other values."
  },
  {
   "property": "C16",
   "status": "proved",
   "theorems": [
    "Verif.Codec.C16_decode_total",
    "Verif.Codec.C16_decode_json_total",
    "Verif.Codec.C16_last_entry_counts",
    "Verif.Codec.Ts.C16_browser_total"
   ],
   "note": "Truncated input is reported by a bounds check panic, not by an error value."
  },
  {
   "property": "C17",
   "status": "partial",
   "theorems": [
    "Verif.Codec.C17_same_bytes",
    "Verif.Codec.C17_rust_to_ts_partial",
    "Verif.Codec.C17_ts_to_rust_partial",
    "Verif.Codec.C17_ts_object_violated",
    "Verif.Codec.C17_bom_violated",
    "Verif.Codec.C17_proto_violated"
   ],
   "note": "Both encoders agree on all values. Rust->TS holds except for strings starting with U+FEFF and keys __proto__; TS->Rust except for JsValue objects. The exceptions are proved to break."
  },
  {
   "property": "C18",
   "status": "proved",
   "theorems": [
    "Verif.Json.C18_typed_roundtrip",
    "Verif.Json.C18_integers",
    "Verif.Json.C18_no_panic",
    "Verif.Json.C18_nested_option_violated",
    "Verif.Json.C18_u64_violated"
   ],
   "note": "The chrono types are the subject of C78. Options of options and 64 bit integers without exact f64 are proved not to round-trip."
  },
  {
   "property": "C19",
   "status": "proved",
   "theorems": [
    "Verif.Json.C19_derive_roundtrip",
    "Verif.Json.C19_variants_distinct",
    "Verif.Json.C19_fields_by_name"
   ],
   "note": "All environments of definitions, also recursive types; field types round-trip as in C18."
  },
  {
   "property": "C20",
   "status": "proved",
   "theorems": [
    "Verif.Ssr.C20_recognised",
    "Verif.Ssr.C20_nothing_else",
    "Verif.Ssr.C20_answers",
    "Verif.Ssr.C20_random_violated"
   ],
   "note": "C20_random_violated: get_random and timezone_offset are unsupported and end the rendering."
  },
  {
   "property": "C21",
   "status": "partial",
   "theorems": [
    "Verif.Dom.C21_sort_is_stable",
    "Verif.Dom.C21_sorted_batch",
    "Verif.Dom.C21_sorted_session",
    "Verif.Dom.C21_insert_below_removed_violated"
   ],
   "note": "Batches that insert nothing below a node they remove; without this the reordering changes the result or makes the interpreter fail (C21_insert_below_removed_violated)."
  },
  {
   "property": "C22",
   "status": "proved",
   "theorems": [
    "Verif.Driver.C22_nothing_before_open",
    "Verif.Driver.C22_each_command_once_in_batches",
    "Verif.Driver.C22_open_delivers_everything",
    "Verif.Driver.C22_never_closes",
    "Verif.Driver.C22_panics_iff",
    "Verif.Driver.C22_page",
    "Verif.Driver.C22_log"
   ],
   "note": ""
  },
  {
   "property": "C23",
   "status": "partial",
   "theorems": [
    "Verif.Render.C23_shows_partial",
    "Verif.Render.C23_reuse_partial",
    "Verif.Render.C23_history_partial",
    "Verif.Render.C23_fragments_violated"
   ],
   "note": "For all lists and keys (also duplicate ones), all orders of dropping and all histories, when items are rendered to elements or texts: the children are one node per item in order, render is called exactly max(0, new - old) times per key, exactly the unused nodes are dropped. Missing because false: items rendered to a marker (fragment, value, list) are shown in the wrong order (C23_fragments_violated)."
  },
  {
   "property": "C24",
   "status": "partial",
   "theorems": [
    "Verif.Driver.C24_contains_exactly",
    "Verif.Driver.C24_sent_iff_changed",
    "Verif.Driver.C24_sent_only_when_changed_partial",
    "Verif.Driver.C24_sent_only_when_changed_violated",
    "Verif.Driver.C24_suspense_class_stays"
   ],
   "note": "The attribute always has exactly the current classes. That it is only sent when it changes fails for an empty class attribute that is removed (C24_sent_only_when_changed_violated)."
  },
  {
   "property": "C25",
   "status": "partial",
   "theorems": [
    "Verif.Driver.Suspense.C25_exact_after_operation",
    "Verif.Driver.Suspense.C25_exact_kept_by_removal",
    "Verif.Driver.Suspense.C25_only_changes",
    "Verif.Driver.Suspense.C25_attach_limit",
    "Verif.Driver.Suspense.C25_removed_subtree_violated",
    "Verif.Driver.Suspense.C25_replaced_handler_violated"
   ],
   "note": "Exact after every operation except the removal of an ordinary node above a marker (C25_removed_subtree_violated: until the marker itself is removed). Replacing a handler silences the new one (C25_replaced_handler_violated)."
  },
  {
   "property": "C26",
   "status": "proved",
   "theorems": [
    "Verif.Dom.C26_children_behave_as_list",
    "Verif.Dom.C26_insert_position",
    "Verif.Dom.C26_bad_reference_panics"
   ],
   "note": "A reference that is not a child (or the child itself) panics."
  },
  {
   "property": "C27",
   "status": "proved",
   "theorems": [
    "Verif.Dom.C27_server_document",
    "Verif.Dom.C27_server_forest"
   ],
   "note": "Streams that the browser executes without an exception and that use html, head and body as the library does; styles are compared as lists, because the two sides put them at different places on purpose."
  },
  {
   "property": "C28",
   "status": "partial",
   "theorems": [
    "Verif.Json.C28_command_accepted_partial",
    "Verif.Json.C28_batch_accepted_partial",
    "Verif.Json.C28_remove_attr_violated",
    "Verif.Json.C28_accepted_iff"
   ],
   "note": "Every command but RemoveAttr, and every batch without it, is read back; the server panics on RemoveAttr (C28_remove_attr_violated)."
  },
  {
   "property": "C29",
   "status": "partial",
   "theorems": [
    "Verif.Ssr.C29_page_partial",
    "Verif.Ssr.C29_style_violated",
    "Verif.Ssr.C29_carriage_return_violated",
    "Verif.Ssr.C29_void_violated"
   ],
   "note": "A browser (the states of the WHATWG tokenizer the pages need) reads the rendered page as the document, for every document with sensible names and arbitrary texts and attribute values, with and without formatting. Missing because false: text of style and script elements is written unescaped (witness: a class text closes the style element and opens a script) and a carriage return reads back as a newline. The documented table of html_escape is an assumption."
  },
  {
   "property": "C30",
   "status": "proved",
   "theorems": [
    "Verif.Dom.C30_lists_last_writes",
    "Verif.Dom.C30_names_once_last_value"
   ],
   "note": ""
  },
  {
   "property": "C31",
   "status": "partial",
   "theorems": [
    "Verif.Ssr.C31_sent_once_partial",
    "Verif.Ssr.C31_answered",
    "Verif.Ssr.C31_one_response",
    "Verif.Ssr.C31_finished",
    "Verif.Ssr.C31_document",
    "Verif.Ssr.C31_answers",
    "Verif.Ssr.C31_reachable",
    "Verif.Ssr.C31_equal_once_partial",
    "Verif.Ssr.C31_equal_violated"
   ],
   "note": "Over all programs, all arrival orders of responses and all points of the ten second timeout: a request key is given to the network once; callbacks of an outstanding request are not called, afterwards each has been called once, in order, with the response of the network; a page sent because nothing is awaited has every callback answered and is built from all document commands the program ever sent, in order; the other answers are the plain text the program gave, an error, and the page so far when the time is up. Missing because false: equal requests with two or more headers can hash differently (HashMap iteration order) and are then sent again; proved for at most one header. After the timeout the page is sent regardless."
  },
  {
   "property": "C32",
   "status": "proved",
   "theorems": [
    "Verif.Ssr.C32_page",
    "Verif.Ssr.C32_loader",
    "Verif.Ssr.C32_errors",
    "Verif.Ssr.C32_read_partial"
   ],
   "note": "The document given to the renderer: styles first in insertion order, then the content of body, then the loader script; an attribute for each environment variable; 500 without html or body."
  },
  {
   "property": "C33",
   "status": "proved",
   "theorems": [
    "Verif.Css.C33_classes",
    "Verif.Css.C33_names",
    "Verif.Css.C33_own_rule"
   ],
   "note": "Over all histories of get_class_name that do not panic (see C34). The same text as static and as dynamic css gets two classes (see the example)."
  },
  {
   "property": "C34",
   "status": "partial",
   "theorems": [
    "Verif.Css.C34_rows",
    "Verif.Css.C34_split_join_partial",
    "Verif.Css.C34_rules_partial",
    "Verif.Css.C34_media_print_violated",
    "Verif.Css.C34_nonascii_violated",
    "Verif.Css.C34_nonascii_panics_violated"
   ],
   "note": "Splitting: every text that is split, and every text joined from pieces. Rules: css written from declarations, animations, pseudo selectors and media queries gives exactly their rules. Missing because false: a bracket without ':' or '.' before it panics ('@media print {'), and text in brackets that is not ASCII is cut at the wrong place or panics."
  },
  {
   "property": "C35",
   "status": "partial",
   "theorems": [
    "Verif.Fetch.C35_one_at_a_time",
    "Verif.Fetch.C35_read_partial",
    "Verif.Fetch.C35_sent",
    "Verif.Fetch.C35_forced_partial",
    "Verif.Fetch.C35_lost_answer_violated"
   ],
   "note": "For all histories: one request at a time; for all histories without a lost answer, exactly which reads start an update and what they return. Missing because false: after an answer that cannot be decoded (or a header name the browser rejects) the lock is never released and no request is ever sent again (C35_lost_answer_violated)."
  },
  {
   "property": "C36",
   "status": "proved",
   "theorems": [
    "Verif.Async.C36_poll",
    "Verif.Async.C36_publish",
    "Verif.Async.C36_no_lost_wakeup",
    "Verif.Async.C36_once"
   ],
   "note": ""
  },
  {
   "property": "C37",
   "status": "proved",
   "theorems": [
    "Verif.Async.C37_trigger",
    "Verif.Async.C37_dropped"
   ],
   "note": "Listeners may add, drop and trigger."
  },
  {
   "property": "C38",
   "status": "proved",
   "theorems": [
    "Verif.Async.C38_dispatch",
    "Verif.Async.C38_only_called",
    "Verif.Async.C38_ids",
    "Verif.Async.C38_once",
    "Verif.Async.C38_once_reentrant_violated"
   ],
   "note": "Callbacks may register, drop and be called again by the host while they run. C38_once_reentrant_violated: the exception in the statement is real."
  },
  {
   "property": "C39",
   "status": "proved",
   "theorems": [
    "Verif.Async.C39_no_lost_wakeup",
    "Verif.Async.C39_pending",
    "Verif.Async.C39_completed"
   ],
   "note": "The host calls a zero timeout once after it was set; wakers may be called at any time, also after the task has ended."
  },
  {
   "property": "C40",
   "status": "partial",
   "theorems": [
    "Verif.Host.C40_mirrors_partial",
    "Verif.Host.C40_keeps_mirroring",
    "Verif.Host.C40_set",
    "Verif.Host.C40_identical",
    "Verif.Host.C40_only_changes",
    "Verif.Host.C40_listeners",
    "Verif.Host.C40_unobserved_violated"
   ],
   "note": "For all histories in which the location does not change while the router is unobserved. Missing because false: the location is read only when the router is created, so a router observed again after a navigation it did not see shows the old route (C40_unobserved_violated)."
  },
  {
   "property": "C41",
   "status": "partial",
   "theorems": [
    "Verif.Codec.C41_taken",
    "Verif.Codec.C41_result_partial",
    "Verif.Codec.C41_result_violated",
    "Verif.Codec.C41_callback_partial"
   ],
   "note": "For an allocator that returns unused blocks below 2^31. Missing because false: JavaScript reads the packed 64 bit result as a signed number, so a block at 2^31 or above gives a negative address (C41_result_violated)."
  },
  {
   "property": "C42",
   "status": "partial",
   "theorems": [
    "Verif.Ssr.C42_prefix",
    "Verif.Ssr.C42_wasm",
    "Verif.Ssr.C42_below_partial",
    "Verif.Ssr.C42_boundary_violated"
   ],
   "note": "The prefix is replaced exactly; the one path the server translates (the wasm file of the index) is found directly in the destination directory. Missing because false: a path that continues the last component of the public path is translated as well."
  },
  {
   "property": "C43",
   "status": "partial",
   "theorems": [
    "Verif.Ssr.C43_inserted_partial",
    "Verif.Ssr.C43_others",
    "Verif.Ssr.C43_twice_violated"
   ],
   "note": "One closing body tag: the script is inserted before it; none: at the end; other responses unchanged. Missing because false: every occurrence of </body> is replaced, also inside a style."
  },
  {
   "property": "C44",
   "status": "proved",
   "theorems": [
    "Verif.Ssr.C44_split",
    "Verif.Ssr.C44_strings"
   ],
   "note": "For every key without '=' and every value, and any two parsers."
  },
  {
   "property": "C45",
   "status": "partial",
   "theorems": [
    "Verif.Dom.C45_structure",
    "Verif.Dom.C45_text_partial",
    "Verif.Dom.C45_class_violated",
    "Verif.Dom.C45_class_removed_violated",
    "Verif.Dom.C45_listeners_violated",
    "Verif.Dom.C45_app_violated"
   ],
   "note": "All logs of a fragment that the browser executes, all orders of the hash maps: the nodes, children, parents, texts, listeners and attributes other than class and style agree; the text shows a topmost node with everything below it when each class is set once, after its rule. Missing because false: changed and removed classes, two listeners for one event, logs that create html, head and body (the root is then head or body, by the order of a hash map)."
  },
  {
   "property": "C46",
   "status": "partial",
   "theorems": [
    "Verif.Host.C46_silent",
    "Verif.Host.C46_closed_partial",
    "Verif.Host.C46_dropped_inside",
    "Verif.Host.C46_protocol",
    "Verif.Host.C46_send",
    "Verif.Host.C46_closed_violated"
   ],
   "note": "Silence: all schedules. Closing: all schedules in which the socket is not connecting when it is dropped. Missing because false: a connection attempt that succeeds after the drop opens a socket nobody closes (C46_closed_violated)."
  },
  {
   "property": "C47",
   "status": "partial",
   "theorems": [
    "Verif.Host.C47_response_kind",
    "Verif.Host.C47_response_partial",
    "Verif.Host.C47_response_parameter_violated",
    "Verif.Host.C47_response_twice_violated",
    "Verif.Host.C47_request_browser",
    "Verif.Host.C47_request_partial",
    "Verif.Host.C47_request_binary_violated",
    "Verif.Host.C47_request_names_violated"
   ],
   "note": "Responses: every content-type of visible ASCII characters. Requests: every header record with names distinct when case is ignored. Missing because false: content types with other characters, repeated headers, binary bodies without a content type, names differing only in case."
  },
  {
   "property": "C48",
   "status": "proved",
   "theorems": [
    "Verif.Fetch.C48_map",
    "Verif.Fetch.C48_map_laws",
    "Verif.Fetch.C48_question",
    "Verif.Fetch.C48_question_laws",
    "Verif.Fetch.C48_eq"
   ],
   "note": ""
  },
  {
   "property": "C49",
   "status": "partial",
   "theorems": [
    "Verif.View.C49_shows_partial",
    "Verif.View.C49_batches_partial",
    "Verif.View.C49_content_partial",
    "Verif.View.C49_fragment_violated",
    "Verif.View.C49_item_violated",
    "Verif.View.C49_key_violated"
   ],
   "note": "In order: all views in which list items and the nodes of fragments after the first are elements or texts and items with equal keys are rendered equally; all histories, all orders of the subscriptions and of dropping. Up to the order of siblings (C49_content_partial): all views in which items with equal keys are rendered equally. Missing because false: markers as list items or later nodes of a fragment are placed in the wrong order, and an item that changes under the same key is not updated."
  },
  {
   "property": "C50",
   "status": "proved",
   "theorems": [
    "Verif.View.C50_commands",
    "Verif.View.C50_silent",
    "Verif.View.C50_document"
   ],
   "note": "All views, all states, all sets and orders of subscriptions that run, and all orders of dropping; the page may be any page, also one on which commands fail."
  },
  {
   "property": "C51",
   "status": "partial",
   "theorems": [
    "Verif.Host.C51_chain_partial",
    "Verif.Host.C51_props_partial",
    "Verif.Host.C51_element_violated",
    "Verif.Host.C51_props_violated",
    "Verif.Host.C51_result_violated",
    "Verif.Host.C51_props_function_violated"
   ],
   "note": "All chains of api, root, get, set and call, in any browser, through the bytes in both directions. Missing because false: an access to a node never does anything (the id is sent as U64, the browser accepts U32 and I32), get_props converts numbers and objects twice, objects with undefined in them do not arrive."
  },
  {
   "property": "C52",
   "status": "partial",
   "theorems": [
    "Verif.Host.Cookies.C52_string_partial",
    "Verif.Host.Cookies.C52_json_partial",
    "Verif.Host.Cookies.C52_others",
    "Verif.Host.Cookies.C52_server",
    "Verif.Host.Cookies.C52_json_violated",
    "Verif.Host.Cookies.C52_name_violated",
    "Verif.Host.Cookies.C52_foreign_violated",
    "Verif.Host.Cookies.C52_expiry_violated"
   ],
   "note": "All histories of writes and time, from any cookies, through the access chains and bytes of C51; percent encoding, JSON and dates of the platform are assumed to be inverse to their readers (Platform.Ok, which examplePlatform meets). Missing because false: JSON strings, numbers and booleans are read as Null, names that contain =, values with = written by others, expiry dates beyond the range of dates."
  },
  {
   "property": "C53",
   "status": "partial",
   "theorems": [
    "Verif.Host.Timers.C53_refines_partial",
    "Verif.Host.Timers.C53_trace_partial",
    "Verif.Host.Timers.C53_fires_partial",
    "Verif.Host.Timers.C53_released_partial",
    "Verif.Host.Timers.C53_long_violated"
   ],
   "note": "All programs and schedules: timers set and dropped anywhere, also inside of callbacks, any order in which due timers fire, through the access chains and bytes of C51. Missing because false: delays of 2^31 ms and more (fire at once); assumed: fewer than 2^31 timers."
  },
  {
   "property": "C54",
   "status": "partial",
   "theorems": [
    "Verif.Host.Queries.C54_random_partial",
    "Verif.Host.Queries.C54_random_from",
    "Verif.Host.Queries.C54_clock_partial",
    "Verif.Host.Queries.C54_elapsed_partial",
    "Verif.Host.Queries.C54_zone",
    "Verif.Host.Queries.C54_is_browser",
    "Verif.Host.Queries.C54_env_partial",
    "Verif.Host.Queries.C54_random_violated",
    "Verif.Host.Queries.C54_clock_violated",
    "Verif.Host.Queries.C54_elapsed_violated",
    "Verif.Host.Queries.C54_env_violated"
   ],
   "note": "All browsers, through the access chains and bytes of C51; the environment through the page that the server sends (C32) and the way it is read (C29). Missing because false: random numbers of 2^31 and more, times in January 1970, a clock that is set back, names of variables that differ only in case; names with capital letters are not covered."
  },
  {
   "property": "C55",
   "status": "proved",
   "theorems": [
    "Verif.Host.Events.C55_refines",
    "Verif.Host.Events.C55_quiet",
    "Verif.Host.Events.C55_dropped"
   ],
   "note": "All programs (what a handler answers and does may depend on all that has happened), all histories of events, transactions and files that are read; data of an event below 1 GB. The way an event takes through the tree is a parameter; a browser calls listeners of a place in the order in which they were added and not once they are removed."
  },
  {
   "property": "C56",
   "status": "partial",
   "theorems": [
    "Verif.Host.Links.C56_which_partial",
    "Verif.Host.Links.C56_follows",
    "Verif.Host.Links.C56_same",
    "Verif.Host.Links.C56_refused",
    "Verif.Host.Links.C56_others",
    "Verif.Host.Links.C56_names",
    "Verif.Host.Links.C56_scheme_violated",
    "Verif.Host.Links.C56_case_violated",
    "Verif.Host.Links.C56_elsewhere_violated"
   ],
   "note": "All links, locations, histories of navigation (C40) and browsers. Missing because false: links with another scheme (mailto:, tel:) or with a scheme in capital letters are taken for links of the application and do nothing; links to be opened in another tab are opened in this one."
  },
  {
   "property": "C57",
   "status": "partial",
   "theorems": [
    "Verif.View.C57_page_partial",
    "Verif.View.C57_content_partial",
    "Verif.View.C57_absent_violated"
   ],
   "note": "The commands of C49 sorted as in C21, sent as in C28, collected as in C31, executed as in C27, written as in C32 and read as in C29, for all views of C49, all histories, batches, environments and escapers that meet their documentation; C57_content_partial for lists and fragments of anything, up to the order of siblings (that the order is right is false: C49). Missing because false: attributes that have no value in some state (the server panics). Missing besides: class and style sheets (C65), names and texts that HTML cannot hold (Readable)."
  },
  {
   "property": "C58",
   "status": "partial",
   "theorems": [
    "Verif.View.C58_replaced",
    "Verif.View.C58_takeover_partial",
    "Verif.View.C58_content_partial",
    "Verif.View.C58_attributes_violated"
   ],
   "note": "All pages that a browser can have read and all streams of batches that can be executed (C58_replaced); for applications all views, histories and batches of C49, and in C58_content_partial lists and fragments of anything, up to the order of siblings. Missing because false: attributes of html, head and body and nodes outside of head and body that came with the page stay."
  },
  {
   "property": "C59",
   "status": "partial",
   "theorems": [
    "Verif.Host.Requests.C59_refines_partial",
    "Verif.Host.Requests.C59_sent_partial",
    "Verif.Host.Requests.C59_answers_partial",
    "Verif.Host.Requests.C59_woken_partial",
    "Verif.Host.Requests.C59_server_request_partial",
    "Verif.Host.Requests.C59_server_answer_partial",
    "Verif.Host.Requests.C59_json_text_violated",
    "Verif.Host.Requests.C59_headers_violated",
    "Verif.Host.Requests.C59_server_method_violated",
    "Verif.Host.Requests.C59_server_number_violated",
    "Verif.Host.Requests.C59_server_mark_violated",
    "Verif.Host.Requests.C59_server_utf8_violated"
   ],
   "note": "All programs and schedules: requests, outcomes in any order, timeouts, other wake-ups and futures that are dropped, through the access chains and bytes of C51. Missing because false: JSON texts as body (sent as plain text), headers that the browser rejects (never answered); on the server methods other than GET and POST and numbers that are not finite (panics), texts with a byte order mark or that are not UTF-8."
  },
  {
   "property": "C60",
   "status": "partial",
   "theorems": [
    "Verif.Css.Macro.C60_text_partial",
    "Verif.Css.Macro.C60_rules_partial",
    "Verif.Css.Macro.C60_unit_violated",
    "Verif.Css.Macro.C60_not_replaced_violated",
    "Verif.Css.Macro.C60_color_violated",
    "Verif.Css.Macro.C60_ref_violated",
    "Verif.Css.Macro.C60_rejected_violated"
   ],
   "note": "All blocks of the grammar in MacroSpec.lean: declarations, selectors with references, animations and media queries with any white space and comments; all values of the expressions. Missing because false: units other than px directly behind an expression, expressions behind text, a color followed by a word that begins with two hexadecimal digits, a reference directly behind a selector, and css that the macro rejects (animation-*, ::before, quoted brackets and separators, text behind url). Not covered: text directly behind rgb()/hsl() of one-digit numbers, more than 676 expressions, values with a bracket [ when there are references."
  },
  {
   "property": "C61",
   "status": "partial",
   "theorems": [
    "Verif.View.Macro.C61_builds",
    "Verif.View.Macro.C61_element",
    "Verif.View.Macro.C61_accepts",
    "Verif.View.Macro.C61_shows_partial",
    "Verif.View.Macro.C61_component_content_violated"
   ],
   "note": "All markup of MacroSpec.lean (elements, components, texts, blocks, spread lists, attributes and properties in all their forms), all meanings of the Rust expressions. How syn_rsx reads the markup, how tokens are printed and is_uppercase are parameters with contracts. C61_shows_partial composes it with C49 and needs what C49 needs. Missing because false: what is written inside of a component is dropped without an error."
  },
  {
   "property": "C62",
   "status": "partial",
   "theorems": [
    "Verif.Watch.C62_no_edit_lost",
    "Verif.Watch.C62_excluded",
    "Verif.Watch.C62_builds",
    "Verif.Watch.C62_stream",
    "Verif.Watch.C62_covered",
    "Verif.Watch.C62_reload",
    "Verif.Watch.C62_reported_partial",
    "Verif.Watch.C62_page_partial",
    "Verif.Watch.C62_stale_status_violated",
    "Verif.Watch.C62_stale_state_violated",
    "Verif.Watch.C62_overlay_violated",
    "Verif.Watch.C62_stale_page_violated",
    "Verif.Watch.C62_needless_reload_violated",
    "Verif.Watch.C62_port_violated"
   ],
   "note": "All schedules of edits, notifications, the loop, builds, server starts, checks, and pages with their streams (C62_no_edit_lost, C62_excluded, C62_builds, C62_stream, C62_reload). What is reported and shown in the end: schedules in which no edit is noticed during a build, and pages that are told their own version first. Missing because false: the other schedules and pages (six witnesses). Assumed: the events server could bind its port, nobody else uses the port of the server, tokio's Notify, watch channel and abort as documented."
  },
  {
   "property": "C63",
   "status": "partial",
   "theorems": [
    "Verif.Assets.C63_window",
    "Verif.Assets.C63_names",
    "Verif.Assets.C63_succeeds",
    "Verif.Assets.C63_served_partial",
    "Verif.Assets.C63_only",
    "Verif.Assets.C63_same_url",
    "Verif.Assets.C63_leading_zeros_violated",
    "Verif.Assets.C63_source_map_violated",
    "Verif.Assets.C63_failed_build_violated",
    "Verif.Assets.C63_public_path_violated",
    "Verif.Assets.C63_fragment_violated"
   ],
   "note": "All contents (the checksum and its text are modelled bit by bit), all names, all sequences of builds, all sets of expanded invocations. C63_served_partial: names without ?, # (percent signs and backslashes are outside of the model), files without collisions of checksums; C63_window says which changes can never collide. Missing because false: contents that differ in leading zero bytes, the source map, failed builds, a changed public path, names with # (five witnesses). Assumed: cargo, wasm-opt, the file system and ServeDir as documented, CARGO_TARGET_DIR not set."
  },
  {
   "property": "C64",
   "status": "partial",
   "theorems": [
    "Verif.View.C64_looks_partial",
    "Verif.View.C64_batches_partial",
    "Verif.View.C64_takeover_partial",
    "Verif.View.C64_content_partial",
    "Verif.View.C64_takeover_content_partial",
    "Verif.View.C64_empty_class_violated"
   ],
   "note": "All views of C49 with any class and css on every element, all css values whose texts do not panic (styling_items: those of C34 do not), all histories, orders of subscriptions and batches, on an empty page and on one from the server. For lists and fragments of anything the same up to the order of siblings (C64_content_partial, C64_takeover_content_partial). Missing because false: the order in them (C49), and a class that is taken away leaves the empty class (witness). Suspense css is in C24 only; class and css of html, head and body are left out."
  },
  {
   "property": "C65",
   "status": "partial",
   "theorems": [
    "Verif.View.C65_page_partial",
    "Verif.View.C65_content_partial"
   ],
   "note": "All views of C49 with classes and css, all histories and batches, all environments and css texts that can be written as HTML. Missing: attributes other than class and css that are without a value (false: C57_absent_violated), void elements with content, css with `<` or carriage returns; lists and fragments of anything are in C65_content_partial, up to the order of siblings (the order is wrong: C49). Suspense css is in C24 only."
  },
  {
   "property": "C66",
   "status": "proved",
   "theorems": [
    "Verif.View.C66_nothing_left"
   ],
   "note": "All views, whatever is in their lists and fragments, with any attributes; all histories, also those in which only some subscriptions are run, all orders and batches. The elements html, head and body, whose ids are fixed, are not in the views. C66_nothing_left_partial is the earlier form, from the invariant of C49."
  },
  {
   "property": "C67",
   "status": "partial",
   "theorems": [
    "Verif.View.C67_answers_partial",
    "Verif.View.C67_listeners_partial",
    "Verif.View.C67_content_partial"
   ],
   "note": "All views of C49 with handlers, all programs, all histories of transactions and events along any paths. Up to the order of siblings (C67_content_partial): all views in which items with equal keys are rendered equally. Missing: two handlers for the same event at one element, on_dropfile and hook_key_down (for these see C55), class and css."
  },
  {
   "property": "C68",
   "status": "partial",
   "theorems": [
    "Verif.Serve.C68_starts",
    "Verif.Serve.C68_pages",
    "Verif.Serve.C68_files",
    "Verif.Serve.C68_proxy_get_partial",
    "Verif.Serve.C68_proxy_post_partial",
    "Verif.Serve.C68_bare_violated",
    "Verif.Serve.C68_get_headers_violated",
    "Verif.Serve.C68_method_violated",
    "Verif.Serve.C68_post_type_violated",
    "Verif.Serve.C68_post_headers_violated",
    "Verif.Serve.C68_root_violated"
   ],
   "note": "All configurations with different plain prefixes, all requests. Missing because false: headers of GET requests, other methods and other bodies are not sent on, the headers of POST requests do not fit the new body and name the wrong host, a request for the prefix itself gets a slash, and with an empty public path no page is rendered (six witnesses). Parameters: ServeDir, the application, reqwest, serde_json. The router of axum 0.6 is modelled from its documentation; prefixes with parameters or a slash at the end are left out."
  },
  {
   "property": "C69",
   "status": "partial",
   "theorems": [
    "Verif.Bind.C69_bind_partial",
    "Verif.Bind.C69_block_partial",
    "Verif.Bind.C69_spawn_partial",
    "Verif.Bind.C69_rc_partial",
    "Verif.Bind.C69_conflict",
    "Verif.Bind.C69_order_violated",
    "Verif.Bind.C69_spawn_order_violated",
    "Verif.Bind.C69_pipe_violated",
    "Verif.Bind.C69_rc_path_violated"
   ],
   "note": "All lists of captures, closures and blocks. Missing because false: captures that begin with the name of another one (in bind! of one before it) take the new variable, a closure with a `|` in its body or parameters is rejected, bind_rc! rejects types with `::` (four witnesses). Values, fields and clone are parameters; the compiler is modelled as a sequence of lets."
  },
  {
   "property": "C70",
   "status": "partial",
   "theorems": [
    "Verif.Whole.C70_shows_partial",
    "Verif.Whole.C70_no_subscription_left_partial"
   ],
   "note": "All applications, all sequences of operations, all nestings of transactions and first runs, all orders in which subscriptions are opened and closed. Which subscribers run is decided by the modelled core, not assumed (C49 assumed it). Missing: views outside of View.Ok (as in C49), computeds whose conditional dependencies are not private (see C01; false for them: C01_dynamic_stale_violated), node parts whose computed is below a conditional dependency of another one, rendering code that writes values or subscribes, computeds that are destroyed."
  },
  {
   "property": "C71",
   "status": "partial",
   "theorems": [
    "Verif.Cells.C71_cells_partial",
    "Verif.Cells.C71_plain_partial",
    "Verif.Cells.C71_unguarded_violated",
    "Verif.Cells.C71_suspense_violated"
   ],
   "note": "The full property is false. C71_cells_partial shows it for every cell but those in Habits.guards, C71_unguarded_violated shows that for each of the others it is false: together the description is exact. C71_suspense_violated: every call of the suspense attribute that returns breaks it. Missing: whether a cell is freed while it is in use; the tests module; cells inside of the cli."
  },
  {
   "property": "C72",
   "status": "partial",
   "theorems": [
    "Verif.Json.C72_answers",
    "Verif.Json.C72_fits",
    "Verif.Json.C72_place_partial",
    "Verif.Json.C72_address_partial",
    "Verif.Json.C72_tuple_violated"
   ],
   "note": "The full property is false: indexes of tuples and names of variants are not in the messages (C72_tuple_violated). C72_answers and C72_fits settle which conversions fail; C72_place_partial says what each message is; C72_address_partial is the full property for types without tuples and variants with data. Missing: the name of the type in the message about a tuple struct of a wrong length."
  },
  {
   "property": "C73",
   "status": "partial",
   "theorems": [
    "Verif.Json.C73_equal",
    "Verif.Json.C73_equivalence",
    "Verif.Json.C73_hash_partial",
    "Verif.Json.C73_hash_violated"
   ],
   "note": "Equality is proved in full. Missing because false: equal objects with two or more entries can hash differently (HashMap iteration order), so that JSON values cannot be keys of a hash map; C73_hash_violated shows this for every such object, C73_hash_partial the property for values without one."
  },
  {
   "property": "C74",
   "status": "partial",
   "theorems": [
    "Verif.Ssr.Memory.C74_arrives_partial",
    "Verif.Ssr.Memory.C74_messages_partial",
    "Verif.Ssr.Memory.C74_result_violated",
    "Verif.Ssr.Memory.C74_panic_violated",
    "Verif.Ssr.Memory.C74_object_violated"
   ],
   "note": "All calls, programs (trees that branch on the answers), answers, allocators and memory contents; with the answers of C20 the messages for the page are those of the commands sent. Missing because false: a callback that returns a value stops the server (todo!()), a panic of the program stops the server instead of giving the error page, values with an object arrive as Undefined. If the program runs out of memory, what has arrived is the beginning of what was sent."
  },
  {
   "property": "C75",
   "status": "partial",
   "theorems": [
    "Verif.Host.Logging.C75_console_partial",
    "Verif.Host.Logging.C75_server_partial",
    "Verif.Host.Logging.C75_server_violated",
    "Verif.Host.Logging.C75_file_violated",
    "Verif.Host.Logging.C75_mark_violated"
   ],
   "note": "All sequences of log records and panics, all texts. In the browser the console is the Formatter of the Console Standard, and records travel as access chains over the wire (C51). Missing because false: names of files with a format specifier garble the line; on the server an error is logged as a warning and a warning as information. The message of a panic that begins with a byte order mark is shown without it (C75_mark_violated)."
  },
  {
   "property": "C76",
   "status": "proved",
   "theorems": [
    "Verif.Host.Start.C76_started",
    "Verif.Host.Start.C76_page",
    "Verif.Host.Start.C76_entry"
   ],
   "note": "All histories of searches of the page (load event, timer) and of answers of the browser, all documents; the page of C32 names exactly the program at the mount point if the view names none. If the program cannot be fetched at all it is not tried again: the statement says so."
  },
  {
   "property": "C77",
   "status": "partial",
   "theorems": [
    "Verif.Assets.New.C77_kept_partial",
    "Verif.Assets.New.C77_occupied",
    "Verif.Assets.New.C77_created",
    "Verif.Assets.New.C77_kept_violated"
   ],
   "note": "All file systems, names and destinations, all points at which a step fails or the command is killed. Missing because false: in a directory that may be written but not listed files are overwritten. Paths are taken after `..` and symbolic links have been followed; other programs do not change the file system meanwhile."
  },
  {
   "property": "C78",
   "status": "partial",
   "theorems": [
    "Verif.Json.Dates.C78_date",
    "Verif.Json.Dates.C78_date_read",
    "Verif.Json.Dates.C78_moment_partial",
    "Verif.Json.Dates.C78_moment_read",
    "Verif.Json.Dates.C78_moment_violated"
   ],
   "note": "All dates of `NaiveDate`, all moments and all JSON values. Missing because false: moments outside of the years 0 to 9999 are not read back, nor are moments holding a second in their nanoseconds outside of a leap second. Writing and reading of dates is the crate `chrono`, modelled from its documentation and published source, which is not in /repo."
  },
  {
   "property": "C79",
   "status": "partial",
   "theorems": [
    "Verif.Assets.Program.C79_package",
    "Verif.Assets.Program.C79_one",
    "Verif.Assets.Program.C79_program_partial",
    "Verif.Assets.Program.C79_program_violated",
    "Verif.Assets.Program.C79_rest",
    "Verif.Assets.Program.C79_compiled_again"
   ],
   "note": "All workspaces, options, file systems with files of earlier builds, and results of cargo, rustup and wasm-opt. Missing because false: with a target directory elsewhere, or a library with a name of its own, the program of an earlier build is published. Directories that can not be written are not modelled, except for the cleaning of the destination."
  },
  {
   "property": "C80",
   "status": "partial",
   "theorems": [
    "Verif.Host.WindowMacro.C80_call_partial",
    "Verif.Host.WindowMacro.C80_get_partial",
    "Verif.Host.WindowMacro.C80_rejected",
    "Verif.Host.WindowMacro.C80_other_literals_violated"
   ],
   "note": "All names and arguments, in any browser, through the bytes in both directions (C51). Missing because false: literals with escapes or suffixes and raw literals; C80_other_literals_violated shows that none of them is taken for its value, so that the description is exact."
  },
  {
   "property": "C81",
   "status": "partial",
   "theorems": [
    "Verif.Unsafe.C81_memory_partial",
    "Verif.Unsafe.C81_layout_violated",
    "Verif.Unsafe.C81_write_violated",
    "Verif.Unsafe.C81_read_violated"
   ],
   "note": "All programs that use the safe functions, by an invariant over the memory. Missing because false: writes whose end is beyond 2^32 (C81_write_violated, every block), bytes that were not written (C81_read_violated, every such byte), and, where the alignment matters, blocks that become vectors (C81_layout_violated, every block). With the allocator of wasm32 the last one is harmless, and C81_memory_partial covers it."
  },
  {
   "property": "C82",
   "status": "partial",
   "theorems": [
    "Verif.Unsafe.Tasks.C82_tasks_partial",
    "Verif.Unsafe.Tasks.C82_forgotten_violated"
   ],
   "note": "All histories of spawns, polls with arbitrary actions, wakes, clones and drops of wakers, by an invariant over the counters. Missing because false: the memory of a task that nothing can wake any more; C82_forgotten_violated shows that none of them is ever given back, so that the description is exact. Panics in futures are not modelled."
  },
  {
   "property": "C83",
   "status": "partial",
   "theorems": [
    "Verif.Reactive.C83_runs_needed_partial",
    "Verif.Reactive.C83_one_read_partial",
    "Verif.Reactive.C83_one_read_private_partial",
    "Verif.Reactive.C83_one_read_violated"
   ],
   "note": "All programs whose computeds read nodes created before them, by an invariant that ties the history of cached values to the caches and to the links. One read running each closure at most once: proved for programs whose conditional dependencies are private (as in C01), and with nothing discarded for programs whose computeds always read the same nodes; false in general (C83_one_read_violated)."
  },
  {
   "property": "C84",
   "status": "proved",
   "theorems": [
    "Verif.Host.C84_reference",
    "Verif.Host.C84_listeners",
    "Verif.Host.C84_one_listener"
   ],
   "note": "All schedules of browser events, timers and application actions, and all applications, by refinement of a machine with four states. The application may drop the resource inside of its callback; it sends between callbacks only."
  },
  {
   "property": "C85",
   "status": "partial",
   "theorems": [
    "Verif.View.Component.C85_accepted",
    "Verif.View.Component.C85_called",
    "Verif.View.Component.C85_properties",
    "Verif.View.Component.C85_visible_partial",
    "Verif.View.Component.C85_restricted_violated",
    "Verif.View.Component.C85_modifiers_violated"
   ],
   "note": "All functions, modules and properties. Partial: false for restricted visibility and for functions with const, async, unsafe or extern. Types are not checked."
  },
  {
   "property": "C86",
   "status": "proved",
   "theorems": [
    "Verif.Reactive.C86_tuple",
    "Verif.Reactive.C86_mapped",
    "Verif.Reactive.C86_nested",
    "Verif.Reactive.C86_never_torn",
    "Verif.Reactive.C86_never_torn_private"
   ],
   "note": "All programs whose computeds are made with map, to_computed and computed_tuple! (or read other computeds conditionally only in the way of C01), all values and schedules of transactions."
  },
  {
   "property": "C87",
   "status": "partial",
   "theorems": [
    "Verif.Reactive.Handles.C87_alive",
    "Verif.Reactive.Handles.C87_exact",
    "Verif.Reactive.Handles.C87_returned",
    "Verif.Reactive.Handles.C87_captured",
    "Verif.Reactive.Handles.C87_kept",
    "Verif.Reactive.Handles.C87_clones",
    "Verif.Reactive.Handles.C87_no_leak_partial",
    "Verif.Reactive.Handles.C87_all_freed_partial",
    "Verif.Reactive.Handles.C87_once",
    "Verif.Reactive.Handles.C87_connect_violated"
   ],
   "note": "Full in all histories without with_connect. False with it: the value and all that the generator captures are never freed, which is proved for all histories. Contents of values and results of closures hold no handles in the model."
  },
  {
   "property": "C88",
   "status": "partial",
   "theorems": [
    "Verif.Reactive.Panics.C88_working_partial",
    "Verif.Reactive.Panics.C88_frozen_violated",
    "Verif.Reactive.Panics.C88_lost_violated",
    "Verif.Reactive.Panics.C88_recovers_partial"
   ],
   "note": "All sequences of calls of the browser, callbacks and subscribers that panic anywhere. The full property is false: after a panic of a callback nothing is ever shown again (C88_frozen_violated, for all histories and all panics in callbacks), after one of a subscriber the next call is lost (C88_lost_violated). It holds for subscribers that fail because they open a transaction (C88_recovers_partial) and without panics (C88_working_partial). Callbacks of on_after_transaction are taken not to panic."
  },
  {
   "property": "C89",
   "status": "partial",
   "theorems": [
    "Verif.Dom.C89_events_partial",
    "Verif.Dom.C89_sent",
    "Verif.Dom.C89_move_violated"
   ],
   "note": "All batches, any events reported at any removals, any nesting. The full property is false: an event reported while a node is moved is handled before the commands that follow the move are executed, and its own commands can fail (C89_move_violated). The conditions on roots and on insertions are those of C21, for all commands together. That browsers report an event at a removal at all is not part of the code: the theorem holds for every choice of the places."
  },
  {
   "property": "C90",
   "status": "partial",
   "theorems": [
    "Verif.Host.Fields.C90_shows_partial",
    "Verif.Host.Fields.C90_bound",
    "Verif.Host.Fields.C90_typing",
    "Verif.Host.Fields.C90_told",
    "Verif.Host.Fields.C90_cursor",
    "Verif.Host.Fields.C90_box_partial",
    "Verif.Host.Fields.C90_served_partial",
    "Verif.Host.Fields.C90_served_violated",
    "Verif.Host.Fields.C90_flag_violated",
    "Verif.Host.Fields.C90_rejected_violated",
    "Verif.Host.Fields.C90_jump_violated",
    "Verif.Host.Fields.C90_select_violated",
    "Verif.Host.Fields.C90_box_violated",
    "Verif.Host.Options.C90_options_partial",
    "Verif.Host.Options.C90_options_attributes",
    "Verif.Host.Options.C90_options_violated"
   ],
   "note": "All views with any number of fields, all programs and all histories of entering, leaving and other callbacks. In full for fields bound to values (C90_bound, C90_typing). The full property is false: a text that the program does not accept stays in the field (C90_rejected_violated: exactly the entries that are not answered), a select never shows its value (C90_select_violated), an option that the user has picked cannot be chosen by the program any more (C90_options_violated) and a check box that was clicked does not follow the program any more (C90_box_violated). The fields are modelled from the HTML Standard; input types other than plain text are not covered."
  },
  {
   "property": "C91",
   "status": "partial",
   "theorems": [
    "Verif.Render.C91_focus_partial",
    "Verif.Render.C91_outside",
    "Verif.Render.C91_section",
    "Verif.Render.C91_history",
    "Verif.Render.C91_once",
    "Verif.Render.C91_edit_violated",
    "Verif.Render.C91_between_violated"
   ],
   "note": "All lists of different items rendered to elements or texts, all changes and all histories. C91_focus_partial says exactly when the focus is kept. The full property is false: an item that is edited loses the focus, for all lists (C91_edit_violated), and so do items between two changes (C91_between_violated). That the browser takes the focus from a node that is inserted anew is taken from the HTML Standard. Lists with equal items and items rendered to markers are not covered."
  }
 ]
}

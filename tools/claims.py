ns("Verif.Codec")
c("C13", "proved", ["C13_json_roundtrip", "C13_object_limit_violated"],
  "Objects with at most 65535 entries, encodings below 4 GiB; the entry limit is sharp (C13_object_limit_violated).")
c("C14", "proved", ["C14_size_exact", "C14_json_size_exact", "C14_no_overrun"],
  "Encodings below 4 GiB (sizes are u32).")
c("C15", "partial", ["C15_value_roundtrip_partial", "C15_object_violated", "C15_roundtrip_iff"],
  "Full property is false: a value containing a non-empty JsValue::Object never decodes. The round trip holds exactly for the other values.")
c("C16", "proved", ["C16_decode_total", "C16_decode_json_total", "C16_last_entry_counts", "Ts.C16_browser_total"],
  "Truncated input is reported by a bounds check panic, not by an error value.")
c("C17", "partial", ["C17_same_bytes", "C17_rust_to_ts_partial", "C17_ts_to_rust_partial", "C17_ts_object_violated", "C17_bom_violated", "C17_proto_violated"],
  "Both encoders agree on all values. Rust->TS holds except for strings starting with U+FEFF and keys __proto__; TS->Rust except for JsValue objects. The exceptions are proved to break.")

ns("Verif.Reactive")
c("C02", "proved", ["C02_edges_consistent"], "")
c("C03", "proved", ["C03_invalidates_exactly_transitive"],
  "The set computed for invalidation; its effect on caches and subscribers is part of the machine theorems (C01, C05).")
c("C04", "proved", ["C04_update_terminates", "C04_abandoned_released", "C04_released_recursively", "C04_observed_keeps_links", "C04_bystander_keeps_links", "C04_updated_node", "C04_exact"],
  "Termination, release and keep hold for all graphs, also cyclic ones; the exact effect for acyclic ones.")
c("C06", "proved", ["C06_level_counts_open", "C06_outermost_hands_out", "C06_panic_iff"], "Nesting up to 65535.")
c("C10", "proved", ["C10_ids_unique_ordered", "C10_kind_order", "C10_sets_oldest_first"], "Fewer than 2^64 nodes.")
c("C01", "partial", ["C01_unmarked_reads_fresh_partial", "C01_private_conditions_log_fresh", "C01_private_conditions_read_fresh", "C01_private_conditions_read_succeeds", "C01_fixed_dependencies_log_fresh", "C01_fixed_dependencies_read_fresh", "C01_fixed_dependencies_read_succeeds", "C01_dynamic_stale_violated"],
  "Full property is false (C01_dynamic_stale_violated: a computed stays stale after a dependency was dropped during its own evaluation). Proved for all programs whose conditional dependencies are private (values may be read in any way; if y reads a computed z only sometimes, nothing that depends on y reads z, or a computed below z, by itself), in particular for those whose closures read a fixed set of nodes; and for every read of a node that the model has not marked as having lost a dependency.")
c("C05", "proved", ["C05_protocol", "C05_callbacks_only_after_transactions", "C05_each_affected_once_in_order", "C05_affected_are_collected", "C05_every_write_is_handled", "C05_set_affects_dependents"],
  "Callbacks of existing subscribers; the first call of a new subscription happens at once (C07).")
c("C07", "partial", ["C07_first_call_at_once", "C07_only_changes", "C07_all_changes_unmarked_partial", "C07_all_changes_private_conditions", "C07_all_changes_fixed_dependencies", "C07_all_changes_violated", "C07_first_read_releases_violated"],
  "First call and no-equal-deliveries hold for all programs. That no change is missed is false in general (C07_all_changes_violated) and proved for programs whose conditional dependencies are private (see C01) and whose first callback run is quiet, if the subscribed computed is not itself below a conditional dependency or the first run reads nothing; without the last condition it is false again (C07_first_read_releases_violated).")
c("C08", "proved", ["C08_silent_after_drop", "C08_drop_takes_effect", "C08_no_links_after_drop", "C08_owned_dropped", "C08_replaced_resource_dropped", "C08_kept_until_next_call", "C08_nothing_left"],
  "The last two are for programs whose callbacks return the resources of all subscriptions they make, and are stated about the log of the execution alone.")
c("C09", "proved", ["C09_at_most_one_connection", "C09_open_iff_consumed", "C09_open_while_observed_private", "C09_open_while_observed_fixed", "C09_closed_when_all_gone","C09_created"],
  "Consumer means: a computed or subscription holding an edge to the value.")
c("C11", "proved", ["C11_equal_changes_nothing", "C11_equal_changes_nothing_nested", "C11_different_is_set", "C11_set_is_one_set", "C11_change_is_one_set"], "")
ns("Verif.AutoMap")
c("C12", "proved", ["C12_created_once", "C12_entries_persist", "C12_reentrant_violated"],
  "Provided no constructor looks up the key it is constructing; without this it is false (C12_reentrant_violated).")

ns("Verif.Dom")
c("C26", "proved", ["C26_children_behave_as_list", "C26_insert_position", "C26_bad_reference_panics"],
  "A reference that is not a child (or the child itself) panics.")
c("C27", "proved", ["C27_server_document", "C27_server_forest"],
  "Streams that the browser executes without an exception and that use html, head and body as the library does; styles are compared as lists, because the two sides put them at different places on purpose.")
c("C30", "proved", ["C30_lists_last_writes", "C30_names_once_last_value"], "")
c("C21", "partial", ["C21_sort_is_stable", "C21_sorted_batch", "C21_sorted_session", "C21_insert_below_removed_violated"],
  "Batches that insert nothing below a node they remove; without this the reordering changes the result or makes the interpreter fail (C21_insert_below_removed_violated).")

ns("Verif.Driver")
c("C22", "proved", ["C22_nothing_before_open", "C22_each_command_once_in_batches", "C22_open_delivers_everything", "C22_never_closes", "C22_panics_iff", "C22_page", "C22_log"], "")
c("C24", "partial", ["C24_contains_exactly", "C24_sent_iff_changed", "C24_sent_only_when_changed_partial", "C24_sent_only_when_changed_violated", "C24_suspense_class_stays"],
  "The attribute always has exactly the current classes. That it is only sent when it changes fails for an empty class attribute that is removed (C24_sent_only_when_changed_violated).")
ns("Verif.Driver.Suspense")
c("C25", "partial", ["C25_exact_after_operation", "C25_exact_kept_by_removal", "C25_only_changes", "C25_attach_limit", "C25_removed_subtree_violated", "C25_replaced_handler_violated"],
  "Exact after every operation except the removal of an ordinary node above a marker (C25_removed_subtree_violated: until the marker itself is removed). Replacing a handler silences the new one (C25_replaced_handler_violated).")

ns("Verif.Json")
c("C18", "proved", ["C18_typed_roundtrip", "C18_integers", "C18_no_panic", "C18_nested_option_violated", "C18_u64_violated"],
  "The chrono types are the subject of C78. Options of options and 64 bit integers without exact f64 are proved not to round-trip.")
c("C19", "proved", ["C19_derive_roundtrip", "C19_variants_distinct", "C19_fields_by_name"],
  "All environments of definitions, also recursive types; field types round-trip as in C18.")
c("C28", "partial", ["C28_command_accepted_partial", "C28_batch_accepted_partial", "C28_remove_attr_violated", "C28_accepted_iff"],
  "Every command but RemoveAttr, and every batch without it, is read back; the server panics on RemoveAttr (C28_remove_attr_violated).")
ns("Verif.Ssr")
c("C20", "proved", ["C20_recognised", "C20_nothing_else", "C20_answers", "C20_random_violated"],
  "C20_random_violated: get_random and timezone_offset are unsupported and end the rendering.")
c("C29","partial",["C29_page_partial","C29_style_violated","C29_carriage_return_violated","C29_void_violated"],
  "A browser (the states of the WHATWG tokenizer the pages need) reads the rendered page as the document, for every document with sensible names and arbitrary texts and attribute values, with and without formatting. Missing because false: text of style and script elements is written unescaped (witness: a class text closes the style element and opens a script) and a carriage return reads back as a newline. The documented table of html_escape is an assumption.")
c("C31","partial",["C31_sent_once_partial","C31_answered","C31_one_response","C31_finished","C31_document","C31_answers","C31_reachable","C31_equal_once_partial","C31_equal_violated"],
  "Over all programs, all arrival orders of responses and all points of the ten second timeout: a request key is given to the network once; callbacks of an outstanding request are not called, afterwards each has been called once, in order, with the response of the network; a page sent because nothing is awaited has every callback answered and is built from all document commands the program ever sent, in order; the other answers are the plain text the program gave, an error, and the page so far when the time is up. Missing because false: equal requests with two or more headers can hash differently (HashMap iteration order) and are then sent again; proved for at most one header. After the timeout the page is sent regardless.")
c("C32","proved",["C32_page","C32_loader","C32_errors","C32_read_partial"],
  "The document given to the renderer: styles first in insertion order, then the content of body, then the loader script; an attribute for each environment variable; 500 without html or body.")
c("C42","partial",["C42_prefix","C42_wasm","C42_below_partial","C42_boundary_violated"],
  "The prefix is replaced exactly; the one path the server translates (the wasm file of the index) is found directly in the destination directory. Missing because false: a path that continues the last component of the public path is translated as well.")
c("C43","partial",["C43_inserted_partial","C43_others","C43_twice_violated"],
  "One closing body tag: the script is inserted before it; none: at the end; other responses unchanged. Missing because false: every occurrence of </body> is replaced, also inside a style.")
c("C44","proved",["C44_split","C44_strings"],"For every key without '=' and every value, and any two parsers.")

ns("Verif.Render")
c("C23","partial",["C23_shows_partial","C23_reuse_partial","C23_history_partial","C23_fragments_violated"],
  "For all lists and keys (also duplicate ones), all orders of dropping and all histories, when items are rendered to elements or texts: the children are one node per item in order, render is called exactly max(0, new - old) times per key, exactly the unused nodes are dropped. Missing because false: items rendered to a marker (fragment, value, list) are shown in the wrong order (C23_fragments_violated).")

ns("Verif.Css")
c("C33","proved",["C33_classes","C33_names","C33_own_rule"],
  "Over all histories of get_class_name that do not panic (see C34). The same text as static and as dynamic css gets two classes (see the example).")
c("C34","partial",["C34_rows","C34_split_join_partial","C34_rules_partial","C34_media_print_violated","C34_nonascii_violated","C34_nonascii_panics_violated"],
  "Splitting: every text that is split, and every text joined from pieces. Rules: css written from declarations, animations, pseudo selectors and media queries gives exactly their rules. Missing because false: a bracket without ':' or '.' before it panics ('@media print {'), and text in brackets that is not ASCII is cut at the wrong place or panics.")

ns("Verif.Async")
c("C36","proved",["C36_poll","C36_publish","C36_no_lost_wakeup","C36_once"],"")
c("C37","proved",["C37_trigger","C37_dropped"],"Listeners may add, drop and trigger.")
c("C38","proved",["C38_dispatch","C38_only_called","C38_ids","C38_once","C38_once_reentrant_violated"],
  "Callbacks may register, drop and be called again by the host while they run. C38_once_reentrant_violated: the exception in the statement is real.")
c("C39","proved",["C39_no_lost_wakeup","C39_pending","C39_completed"],
  "The host calls a zero timeout once after it was set; wakers may be called at any time, also after the task has ended.")
ns("Verif.Codec")
c("C41","partial",["C41_taken","C41_result_partial","C41_result_violated","C41_callback_partial"],
  "For an allocator that returns unused blocks below 2^31. Missing because false: JavaScript reads the packed 64 bit result as a signed number, so a block at 2^31 or above gives a negative address (C41_result_violated).")
ns("Verif.Fetch")
c("C35","partial",["C35_one_at_a_time","C35_read_partial","C35_sent","C35_forced_partial","C35_lost_answer_violated"],
  "For all histories: one request at a time; for all histories without a lost answer, exactly which reads start an update and what they return. Missing because false: after an answer that cannot be decoded (or a header name the browser rejects) the lock is never released and no request is ever sent again (C35_lost_answer_violated).")
c("C48","proved",["C48_map","C48_map_laws","C48_question","C48_question_laws","C48_eq"],"")

ns("Verif.Host")
c("C40","partial",["C40_mirrors_partial","C40_keeps_mirroring","C40_set","C40_identical","C40_only_changes","C40_listeners","C40_unobserved_violated"],
  "For all histories in which the location does not change while the router is unobserved. Missing because false: the location is read only when the router is created, so a router observed again after a navigation it did not see shows the old route (C40_unobserved_violated).")
c("C46","partial",["C46_silent","C46_closed_partial","C46_dropped_inside","C46_protocol","C46_send","C46_closed_violated"],
  "Silence: all schedules. Closing: all schedules in which the socket is not connecting when it is dropped. Missing because false: a connection attempt that succeeds after the drop opens a socket nobody closes (C46_closed_violated).")
c("C47","partial",["C47_response_kind","C47_response_partial","C47_response_parameter_violated","C47_response_twice_violated","C47_request_browser","C47_request_partial","C47_request_binary_violated","C47_request_names_violated"],
  "Responses: every content-type of visible ASCII characters. Requests: every header record with names distinct when case is ignored. Missing because false: content types with other characters, repeated headers, binary bodies without a content type, names differing only in case.")
ns("Verif.Dom")
c("C45","partial",["C45_structure","C45_text_partial","C45_class_violated","C45_class_removed_violated","C45_listeners_violated","C45_app_violated"],
  "All logs of a fragment that the browser executes, all orders of the hash maps: the nodes, children, parents, texts, listeners and attributes other than class and style agree; the text shows a topmost node with everything below it when each class is set once, after its rule. Missing because false: changed and removed classes, two listeners for one event, logs that create html, head and body (the root is then head or body, by the order of a hash map).")

ns("Verif.View")
c("C49","partial",["C49_shows_partial","C49_batches_partial","C49_content_partial","C49_fragment_violated","C49_item_violated","C49_key_violated"],
  "In order: all views in which list items and the nodes of fragments after the first are elements or texts and items with equal keys are rendered equally; all histories, all orders of the subscriptions and of dropping. Up to the order of siblings (C49_content_partial): all views in which items with equal keys are rendered equally. Missing because false: markers as list items or later nodes of a fragment are placed in the wrong order, and an item that changes under the same key is not updated.")
c("C50","proved",["C50_commands","C50_silent","C50_document"],
  "All views, all states, all sets and orders of subscriptions that run, and all orders of dropping; the page may be any page, also one on which commands fail.")
c("C57","partial",["C57_page_partial","C57_content_partial","C57_absent_violated"],
  "The commands of C49 sorted as in C21, sent as in C28, collected as in C31, executed as in C27, written as in C32 and read as in C29, for all views of C49, all histories, batches, environments and escapers that meet their documentation; C57_content_partial for lists and fragments of anything, up to the order of siblings (that the order is right is false: C49). Missing because false: attributes that have no value in some state (the server panics). Missing besides: class and style sheets (C65), names and texts that HTML cannot hold (Readable).")

ns("Verif.Host")
c("C51","partial",["C51_chain_partial","C51_props_partial","C51_element_violated","C51_props_violated","C51_result_violated","C51_props_function_violated"],
  "All chains of api, root, get, set and call, in any browser, through the bytes in both directions. Missing because false: an access to a node never does anything (the id is sent as U64, the browser accepts U32 and I32), get_props converts numbers and objects twice, objects with undefined in them do not arrive.")
ns("Verif.Host.Cookies")
c("C52","partial",["C52_string_partial","C52_json_partial","C52_others","C52_server","C52_json_violated","C52_name_violated","C52_foreign_violated","C52_expiry_violated"],
  "All histories of writes and time, from any cookies, through the access chains and bytes of C51; percent encoding, JSON and dates of the platform are assumed to be inverse to their readers (Platform.Ok, which examplePlatform meets). Missing because false: JSON strings, numbers and booleans are read as Null, names that contain =, values with = written by others, expiry dates beyond the range of dates.")
ns("Verif.Host.Timers")
c("C53","partial",["C53_refines_partial","C53_trace_partial","C53_fires_partial","C53_released_partial","C53_long_violated"],
  "All programs and schedules: timers set and dropped anywhere, also inside of callbacks, any order in which due timers fire, through the access chains and bytes of C51. Missing because false: delays of 2^31 ms and more (fire at once); assumed: fewer than 2^31 timers.")
ns("Verif.Host.Queries")
c("C54","partial",["C54_random_partial","C54_random_from","C54_clock_partial","C54_elapsed_partial","C54_zone","C54_is_browser","C54_env_partial","C54_random_violated","C54_clock_violated","C54_elapsed_violated","C54_env_violated"],
  "All browsers, through the access chains and bytes of C51; the environment through the page that the server sends (C32) and the way it is read (C29). Missing because false: random numbers of 2^31 and more, times in January 1970, a clock that is set back, names of variables that differ only in case; names with capital letters are not covered.")
ns("Verif.Host.Events")
c("C55","proved",["C55_refines","C55_quiet","C55_dropped"],
  "All programs (what a handler answers and does may depend on all that has happened), all histories of events, transactions and files that are read; data of an event below 1 GB. The way an event takes through the tree is a parameter; a browser calls listeners of a place in the order in which they were added and not once they are removed.")
ns("Verif.Host.Links")
c("C56","partial",["C56_which_partial","C56_follows","C56_same","C56_refused","C56_others","C56_names","C56_scheme_violated","C56_case_violated","C56_elsewhere_violated"],
  "All links, locations, histories of navigation (C40) and browsers. Missing because false: links with another scheme (mailto:, tel:) or with a scheme in capital letters are taken for links of the application and do nothing; links to be opened in another tab are opened in this one.")
ns("Verif.View")
c("C58","partial",["C58_replaced","C58_takeover_partial","C58_content_partial","C58_attributes_violated"],
  "All pages that a browser can have read and all streams of batches that can be executed (C58_replaced); for applications all views, histories and batches of C49, and in C58_content_partial lists and fragments of anything, up to the order of siblings. Missing because false: attributes of html, head and body and nodes outside of head and body that came with the page stay.")
ns("Verif.Host.Requests")
c("C59","partial",["C59_refines_partial","C59_sent_partial","C59_answers_partial","C59_woken_partial","C59_server_request_partial","C59_server_answer_partial","C59_json_text_violated","C59_headers_violated","C59_server_method_violated","C59_server_number_violated","C59_server_mark_violated","C59_server_utf8_violated"],
  "All programs and schedules: requests, outcomes in any order, timeouts, other wake-ups and futures that are dropped, through the access chains and bytes of C51. Missing because false: JSON texts as body (sent as plain text), headers that the browser rejects (never answered); on the server methods other than GET and POST and numbers that are not finite (panics), texts with a byte order mark or that are not UTF-8.")
ns("Verif.Css.Macro")
c("C60","partial",["C60_text_partial","C60_rules_partial","C60_unit_violated","C60_not_replaced_violated","C60_color_violated","C60_ref_violated","C60_rejected_violated"],
  "All blocks of the grammar in MacroSpec.lean: declarations, selectors with references, animations and media queries with any white space and comments; all values of the expressions. Missing because false: units other than px directly behind an expression, expressions behind text, a color followed by a word that begins with two hexadecimal digits, a reference directly behind a selector, and css that the macro rejects (animation-*, ::before, quoted brackets and separators, text behind url). Not covered: text directly behind rgb()/hsl() of one-digit numbers, more than 676 expressions, values with a bracket [ when there are references.")
ns("Verif.View.Macro")
c("C61","partial",["C61_builds","C61_element","C61_accepts","C61_shows_partial","C61_component_content_violated"],
  "All markup of MacroSpec.lean (elements, components, texts, blocks, spread lists, attributes and properties in all their forms), all meanings of the Rust expressions. How syn_rsx reads the markup, how tokens are printed and is_uppercase are parameters with contracts. C61_shows_partial composes it with C49 and needs what C49 needs. Missing because false: what is written inside of a component is dropped without an error.")
ns("Verif.Watch")
c("C62","partial",["C62_no_edit_lost","C62_excluded","C62_builds","C62_stream","C62_covered","C62_reload","C62_reported_partial","C62_page_partial","C62_stale_status_violated","C62_stale_state_violated","C62_overlay_violated","C62_stale_page_violated","C62_needless_reload_violated","C62_port_violated"],
  "All schedules of edits, notifications, the loop, builds, server starts, checks, and pages with their streams (C62_no_edit_lost, C62_excluded, C62_builds, C62_stream, C62_reload). What is reported and shown in the end: schedules in which no edit is noticed during a build, and pages that are told their own version first. Missing because false: the other schedules and pages (six witnesses). Assumed: the events server could bind its port, nobody else uses the port of the server, tokio's Notify, watch channel and abort as documented.")
ns("Verif.Assets")
c("C63","partial",["C63_window","C63_names","C63_succeeds","C63_served_partial","C63_only","C63_same_url","C63_leading_zeros_violated","C63_source_map_violated","C63_failed_build_violated","C63_public_path_violated","C63_fragment_violated"],
  "All contents (the checksum and its text are modelled bit by bit), all names, all sequences of builds, all sets of expanded invocations. C63_served_partial: names without ?, # (percent signs and backslashes are outside of the model), files without collisions of checksums; C63_window says which changes can never collide. Missing because false: contents that differ in leading zero bytes, the source map, failed builds, a changed public path, names with # (five witnesses). Assumed: cargo, wasm-opt, the file system and ServeDir as documented, CARGO_TARGET_DIR not set.")
ns("Verif.View")
c("C64","partial",["C64_looks_partial","C64_batches_partial","C64_takeover_partial","C64_content_partial","C64_takeover_content_partial","C64_empty_class_violated"],
  "All views of C49 with any class and css on every element, all css values whose texts do not panic (styling_items: those of C34 do not), all histories, orders of subscriptions and batches, on an empty page and on one from the server. For lists and fragments of anything the same up to the order of siblings (C64_content_partial, C64_takeover_content_partial). Missing because false: the order in them (C49), and a class that is taken away leaves the empty class (witness). Suspense css is in C24 only; class and css of html, head and body are left out.")
ns("Verif.View")
c("C65","partial",["C65_page_partial","C65_content_partial"],
  "All views of C49 with classes and css, all histories and batches, all environments and css texts that can be written as HTML. Missing: attributes other than class and css that are without a value (false: C57_absent_violated), void elements with content, css with `<` or carriage returns; lists and fragments of anything are in C65_content_partial, up to the order of siblings (the order is wrong: C49). Suspense css is in C24 only.")
ns("Verif.View")
c("C66","proved",["C66_nothing_left"],
  "All views, whatever is in their lists and fragments, with any attributes; all histories, also those in which only some subscriptions are run, all orders and batches. The elements html, head and body, whose ids are fixed, are not in the views. C66_nothing_left_partial is the earlier form, from the invariant of C49.")
ns("Verif.View")
c("C67","partial",["C67_answers_partial","C67_listeners_partial","C67_content_partial"],
  "All views of C49 with handlers, all programs, all histories of transactions and events along any paths. Up to the order of siblings (C67_content_partial): all views in which items with equal keys are rendered equally. Missing: two handlers for the same event at one element, on_dropfile and hook_key_down (for these see C55), class and css.")
ns("Verif.Serve")
c("C68","partial",["C68_starts","C68_pages","C68_files","C68_proxy_get_partial","C68_proxy_post_partial","C68_bare_violated","C68_get_headers_violated","C68_method_violated","C68_post_type_violated","C68_post_headers_violated","C68_root_violated"],
  "All configurations with different plain prefixes, all requests. Missing because false: headers of GET requests, other methods and other bodies are not sent on, the headers of POST requests do not fit the new body and name the wrong host, a request for the prefix itself gets a slash, and with an empty public path no page is rendered (six witnesses). Parameters: ServeDir, the application, reqwest, serde_json. The router of axum 0.6 is modelled from its documentation; prefixes with parameters or a slash at the end are left out.")
ns("Verif.Bind")
c("C69","partial",["C69_bind_partial","C69_block_partial","C69_spawn_partial","C69_rc_partial","C69_conflict","C69_order_violated","C69_spawn_order_violated","C69_pipe_violated","C69_rc_path_violated"],
  "All lists of captures, closures and blocks. Missing because false: captures that begin with the name of another one (in bind! of one before it) take the new variable, a closure with a `|` in its body or parameters is rejected, bind_rc! rejects types with `::` (four witnesses). Values, fields and clone are parameters; the compiler is modelled as a sequence of lets.")
ns("Verif.Whole")
c("C70","partial",["C70_shows_partial","C70_no_subscription_left_partial"],
  "All applications, all sequences of operations, all nestings of transactions and first runs, all orders in which subscriptions are opened and closed. Which subscribers run is decided by the modelled core, not assumed (C49 assumed it). Missing: views outside of View.Ok (as in C49), computeds whose conditional dependencies are not private (see C01; false for them: C01_dynamic_stale_violated), node parts whose computed is below a conditional dependency of another one, rendering code that writes values or subscribes, computeds that are destroyed.")
ns("Verif.Cells")
c("C71","partial",["C71_cells_partial","C71_plain_partial","C71_unguarded_violated","C71_suspense_violated"],
  "The full property is false. C71_cells_partial shows it for every cell but those in Habits.guards, C71_unguarded_violated shows that for each of the others it is false: together the description is exact. C71_suspense_violated: every call of the suspense attribute that returns breaks it. Missing: whether a cell is freed while it is in use; the tests module; cells inside of the cli.")
ns("Verif.Json")
c("C72","partial",["C72_answers","C72_fits","C72_place_partial","C72_address_partial","C72_tuple_violated"],
  "The full property is false: indexes of tuples and names of variants are not in the messages (C72_tuple_violated). C72_answers and C72_fits settle which conversions fail; C72_place_partial says what each message is; C72_address_partial is the full property for types without tuples and variants with data. Missing: the name of the type in the message about a tuple struct of a wrong length.")
ns("Verif.Json")
c("C73","partial",["C73_equal","C73_equivalence","C73_hash_partial","C73_hash_violated"],
  "Equality is proved in full. Missing because false: equal objects with two or more entries can hash differently (HashMap iteration order), so that JSON values cannot be keys of a hash map; C73_hash_violated shows this for every such object, C73_hash_partial the property for values without one.")
ns("Verif.Ssr.Memory")
c("C74","partial",["C74_arrives_partial","C74_messages_partial","C74_result_violated","C74_panic_violated","C74_object_violated"],
  "All calls, programs (trees that branch on the answers), answers, allocators and memory contents; with the answers of C20 the messages for the page are those of the commands sent. Missing because false: a callback that returns a value stops the server (todo!()), a panic of the program stops the server instead of giving the error page, values with an object arrive as Undefined. If the program runs out of memory, what has arrived is the beginning of what was sent.")
ns("Verif.Host.Logging")
c("C75","partial",["C75_console_partial","C75_server_partial","C75_server_violated","C75_file_violated","C75_mark_violated"],
  "All sequences of log records and panics, all texts. In the browser the console is the Formatter of the Console Standard, and records travel as access chains over the wire (C51). Missing because false: names of files with a format specifier garble the line; on the server an error is logged as a warning and a warning as information. The message of a panic that begins with a byte order mark is shown without it (C75_mark_violated).")
ns("Verif.Host.Start")
c("C76","proved",["C76_started","C76_page","C76_entry"],
  "All histories of searches of the page (load event, timer) and of answers of the browser, all documents; the page of C32 names exactly the program at the mount point if the view names none. If the program cannot be fetched at all it is not tried again: the statement says so.")
ns("Verif.Assets.New")
c("C77","partial",["C77_kept_partial","C77_occupied","C77_created","C77_kept_violated"],
  "All file systems, names and destinations, all points at which a step fails or the command is killed. Missing because false: in a directory that may be written but not listed files are overwritten. Paths are taken after `..` and symbolic links have been followed; other programs do not change the file system meanwhile.")
ns("Verif.Json.Dates")
c("C78","partial",["C78_date","C78_date_read","C78_moment_partial","C78_moment_read","C78_moment_violated"],
  "All dates of `NaiveDate`, all moments and all JSON values. Missing because false: moments outside of the years 0 to 9999 are not read back, nor are moments holding a second in their nanoseconds outside of a leap second. Writing and reading of dates is the crate `chrono`, modelled from its documentation and published source, which is not in /repo.")
ns("Verif.Assets.Program")
c("C79","partial",["C79_package","C79_one","C79_program_partial","C79_program_violated","C79_rest","C79_compiled_again"],
  "All workspaces, options, file systems with files of earlier builds, and results of cargo, rustup and wasm-opt. Missing because false: with a target directory elsewhere, or a library with a name of its own, the program of an earlier build is published. Directories that can not be written are not modelled, except for the cleaning of the destination.")
ns("Verif.Host.WindowMacro")
c("C80","partial",["C80_call_partial","C80_get_partial","C80_rejected","C80_other_literals_violated"],
  "All names and arguments, in any browser, through the bytes in both directions (C51). Missing because false: literals with escapes or suffixes and raw literals; C80_other_literals_violated shows that none of them is taken for its value, so that the description is exact.")
ns("Verif.Unsafe")
c("C81","partial",["C81_memory_partial","C81_layout_violated","C81_write_violated","C81_read_violated"],
  "All programs that use the safe functions, by an invariant over the memory. Missing because false: writes whose end is beyond 2^32 (C81_write_violated, every block), bytes that were not written (C81_read_violated, every such byte), and, where the alignment matters, blocks that become vectors (C81_layout_violated, every block). With the allocator of wasm32 the last one is harmless, and C81_memory_partial covers it.")
ns("Verif.Unsafe.Tasks")
c("C82","partial",["C82_tasks_partial","C82_forgotten_violated"],
  "All histories of spawns, polls with arbitrary actions, wakes, clones and drops of wakers, by an invariant over the counters. Missing because false: the memory of a task that nothing can wake any more; C82_forgotten_violated shows that none of them is ever given back, so that the description is exact. Panics in futures are not modelled.")
ns("Verif.Reactive")
c("C83","partial",["C83_runs_needed_partial","C83_one_read_partial","C83_one_read_private_partial","C83_one_read_violated"],
  "All programs whose computeds read nodes created before them, by an invariant that ties the history of cached values to the caches and to the links. One read running each closure at most once: proved for programs whose conditional dependencies are private (as in C01), and with nothing discarded for programs whose computeds always read the same nodes; false in general (C83_one_read_violated).")
ns("Verif.Host")
c("C84","proved",["C84_reference","C84_listeners","C84_one_listener"],
  "All schedules of browser events, timers and application actions, and all applications, by refinement of a machine with four states. The application may drop the resource inside of its callback; it sends between callbacks only.")
ns("Verif.View.Component")
c("C85","partial",["C85_accepted","C85_called","C85_properties","C85_visible_partial","C85_restricted_violated","C85_modifiers_violated"],
  "All functions, modules and properties. Partial: false for restricted visibility and for functions with const, async, unsafe or extern. Types are not checked.")
ns("Verif.Reactive")
c("C86","proved",["C86_tuple","C86_mapped","C86_nested","C86_never_torn","C86_never_torn_private"],
  "All programs whose computeds are made with map, to_computed and computed_tuple! (or read other computeds conditionally only in the way of C01), all values and schedules of transactions.")
ns("Verif.Reactive.Handles")
c("C87","partial",["C87_alive","C87_exact","C87_returned","C87_captured","C87_kept","C87_clones","C87_no_leak_partial","C87_all_freed_partial","C87_once","C87_connect_violated"],
  "Full in all histories without with_connect. False with it: the value and all that the generator captures are never freed, which is proved for all histories. Contents of values and results of closures hold no handles in the model.")
ns("Verif.Reactive.Panics")
c("C88","partial",["C88_working_partial","C88_frozen_violated","C88_lost_violated","C88_recovers_partial"],
  "All sequences of calls of the browser, callbacks and subscribers that panic anywhere. The full property is false: after a panic of a callback nothing is ever shown again (C88_frozen_violated, for all histories and all panics in callbacks), after one of a subscriber the next call is lost (C88_lost_violated). It holds for subscribers that fail because they open a transaction (C88_recovers_partial) and without panics (C88_working_partial). Callbacks of on_after_transaction are taken not to panic.")
ns("Verif.Dom")
c("C89","partial",["C89_events_partial","C89_sent","C89_move_violated"],
  "All batches, any events reported at any removals, any nesting. The full property is false: an event reported while a node is moved is handled before the commands that follow the move are executed, and its own commands can fail (C89_move_violated). The conditions on roots and on insertions are those of C21, for all commands together. That browsers report an event at a removal at all is not part of the code: the theorem holds for every choice of the places.")
ns("Verif.Host")
c("C90","partial",["Fields.C90_shows_partial","Fields.C90_bound","Fields.C90_typing","Fields.C90_told","Fields.C90_cursor","Fields.C90_box_partial","Fields.C90_served_partial","Fields.C90_served_violated","Fields.C90_flag_violated","Fields.C90_rejected_violated","Fields.C90_jump_violated","Fields.C90_select_violated","Fields.C90_box_violated","Options.C90_options_partial","Options.C90_options_attributes","Options.C90_options_violated"],
  "All views with any number of fields, all programs and all histories of entering, leaving and other callbacks. In full for fields bound to values (C90_bound, C90_typing). The full property is false: a text that the program does not accept stays in the field (C90_rejected_violated: exactly the entries that are not answered), a select never shows its value (C90_select_violated), an option that the user has picked cannot be chosen by the program any more (C90_options_violated) and a check box that was clicked does not follow the program any more (C90_box_violated). The fields are modelled from the HTML Standard; input types other than plain text are not covered.")
ns("Verif.Render")
c("C91","partial",["C91_focus_partial","C91_outside","C91_section","C91_history","C91_once","C91_edit_violated","C91_between_violated"],
  "All lists of different items rendered to elements or texts, all changes and all histories. C91_focus_partial says exactly when the focus is kept. The full property is false: an item that is edited loses the focus, for all lists (C91_edit_violated), and so do items between two changes (C91_between_violated). That the browser takes the focus from a node that is inserted anew is taken from the HTML Standard. Lists with equal items and items rendered to markers are not covered.")

# A formal model of vertigo-web/vertigo in Lean 4

This file is the plan and the trusted base. Properties are in `properties.jsonl`
(generated by `tools/gen_properties.py`), the status of each one in
`MANIFEST.json`, tests of the theorems against wrong programs in
`seeded/LOG.jsonl`.

## 1. Layout

`lean/Verif/<Area>/` holds the model, the specification and the proofs of an
area. Small areas are one file with sections `Model`, `Specification`, `Proofs`,
`Theorems`; larger ones (`Reactive`, `Codec`, `Dom`, `Json`) are split into
several files. Each definition of a model carries the file and lines of `/repo`
it models, and says where it simplifies. Property theorems carry the id of the
property (`C13_...`). The suffix `_partial` marks a theorem that covers part of
a property; what is missing is said in its comment and in `MANIFEST.json`. The
suffix `_violated` marks a proof that the code as it stands breaks the
unrestricted property, on a concrete witness. Beside the theorems are
`example`s showing that their hypotheses are met by a concrete, non-trivial
case.

| area | code |
|------|------|
| `Reactive` | `vertigo/src/computed/**` (graph, values, computed, subscriptions, transactions, refresh, external connections, ids, `AutoMap`) |
| `Codec` | `driver_module/js_value/{memory_block*,js_json_struct,js_value_struct}.rs`, `src_js/{buffer_cursor,jsjson,jsvalue}.ts`, `api/arguments.rs`, `wasm_module.ts` |
| `Json` | `js_value/serialize.rs`, code generated by `vertigo-macro/src/jsjson/*`, `dom_command.rs` of both sides |
| `Dom` | `src_js/api_browser/dom/{dom,map_nodes}.ts`, `vertigo-cli/src/serve/html/{element,element_children,ordered_map}.rs`, `dom_command.rs` (`sort_commands`), `inspect.rs` |
| `Driver` | `driver_module/dom.rs`, `dom/dom_element_class.rs`, `driver_module/dom_suspense/*` |
| `Render` | `render/*`, `dom/dom_comment.rs` |
| `View` | the macros `dom!` and `#[component]` (`vertigo-macro/src/{html_parser,component}.rs`) and what a view does: `dom/{dom_element,dom_text,dom_comment,dom_node}.rs`, `render/{dom_value,dom_list}.rs` with the browser of `Dom` |
| `Css` | `css/*`, and the macro `css!` (`vertigo-macro/src/{css_parser.rs,css.pest}`) |
| `Async` | `future_box.rs`, `event_emitter.rs`, `api/callbacks.rs`, `utils/futures_spawn.rs` with the timers of `api_import.rs` |
| `Fetch` | `fetch/{resource,lazy_cache}.rs` |
| `Host` | `router.rs` with `historyLocation.ts` / `hashrouter.ts`, `websocket/*.ts`, `fetch.ts` and `send_request.rs`, and other browser side modules |
| `Watch` | `vertigo-cli/src/watch/{watch_run,sse}.rs`, `serve/watch.js`, the global state of `serve/serve_run.rs` |
| `Assets` | `vertigo-cli/src/build/{wasm_path,build_run,build_opts}.rs`, `vertigo-macro/src/{wasm_path,include_static}.rs`, the static route of `serve/serve_run.rs` |
| `Cells` | which of the cells of `struct_mut` every function of `vertigo/src` uses and what runs meanwhile |
| `Unsafe` | what the raw pointers of `js_value/memory_block*.rs` and `utils/futures_spawn.rs` do to the memory |
| `Bind` | the macros `bind!`, `bind_rc!`, `bind_spawn!` (`vertigo-macro/src/bind.rs`) |
| `Serve` | the routes and the proxy of `vertigo-cli/src/serve/serve_run.rs` |
| `Whole` | `Reactive` and `View` together: an application from its values to the page |
| `Ssr` | `vertigo-cli/src/serve/**`, `commons/parse_key_val.rs` |

## 2. Trusted base

* The Lean 4.33.0 kernel. No `sorry`, no `native_decide`, no `bv_decide`; the
  axioms of every property theorem are among `propext`, `Classical.choice` and
  `Quot.sound` (`lean/Verif/Audit.lean` prints them).
* That the model says what the code says. The definitions follow the Rust and
  TypeScript functions one by one; the comments cite the lines.
* The standard libraries are modelled, not verified: `HashMap` and `BTreeMap`
  (finite maps; where the iteration order of a `HashMap` can be seen it is a
  parameter, so theorems hold for every order), `Vec`, `String` (a list of
  characters or of UTF-8 bytes), `Rc` and the order of `Drop`, the cells of
  `struct_mut` (single threaded; that references to their contents do not
  exclude each other is C71), `f64::to_be_bytes` / `from_be_bytes` (numbers
  are carried as their 64 bits).
* Contracts of things outside of the repository, each stated where it is used:
  * `html_escape`: the documented replacements (`Escape.Ok`, C29);
  * HTML: the tokenizer states of WHATWG HTML 13.2.5 that the pages need; any
    other state is `stuck`, so nothing is claimed by omission (C29);
  * the DOM of the browser: `insertBefore`, `remove`, `setAttribute`, ... on a
    forest of nodes (C21, C27, C45);
  * the allocator returns unused blocks (C41);
  * a timer of 0 ms is called once, some time after it was set, in any order
    with others (C39); microtasks run before the next event (C46);
  * events: a browser visits the places of a path in turn; at each it calls the
    listeners for the type of the event that were there when it came, in the
    order in which they were added, unless removed meanwhile, and goes no further
    after `stopPropagation` (C55; the path itself is a parameter);
  * the location of the browser: an abstract type with a getter and a
    navigation function, both of which may throw (C40);
  * headers: names are ASCII, values are bytes shown as Latin-1 in the browser;
    `Headers` joins repeated values (C47);
  * wasm programs and the network are arbitrary state machines (C20, C31).
  * the memory of Rust: allocations with a layout, whose bytes are initialised or
    not, and the counters of `Rc`; undefined behaviour is an outcome of the model
    (C81, C82).
* Counters are unbounded in the models of C10, C37, C38 (`u64`, `u32` in the
  code), the nesting of transactions is bounded by 65535 as in the code (C06).

## 3. Plan per property

| id | modelled | proof |
|----|----------|-------|
| C01 | the whole reactive core as one state machine: values, caches, both edge maps, contexts, closures as decision trees over reads, refresh tokens, transactions, subscriptions | the unrestricted property is false: witness. For programs whose conditional dependencies are private (`Reactive/Static.lean`: values may be read in any way; what a computed reads only sometimes is not read by those that depend on it) invariant by induction on evaluation and on histories: a node that loses a dependency while a computed is evaluated is never one that this computed has read or will read by itself |
| C02-C04 | `graph_one_to_many`, `graph_connections` literally, loops by fuel with a proof that the fuel given is never exhausted | invariant (the maps are converse relations), `get_all_deps` = reflexive free transitive closure, cascade = greatest fixpoint characterisation |
| C05-C08, C11 | the same state machine as C01 | refinement of a history to an abstract log of deliveries; what callbacks subscribe (C08): the log says who was running when a subscription was made, an invariant says that every living one is held by the latest call of its maker |
| C06 | `transaction_state.rs` | invariant |
| C09 | `external_connections.rs` and its use in `graph.rs` | invariant on histories |
| C10, C12 | `graph_id.rs`, `auto_map.rs` | invariants |
| C13-C16 | `memory_block_{read,write}.rs`, `js_json_struct.rs`, `js_value_struct.rs` over byte lists; `HashMap` as association list in iteration order without duplicate keys | structural induction; round trip with arbitrary tail; totality of the decoder |
| C17 | `buffer_cursor.ts`, `jsjson.ts`, `jsvalue.ts` as a second codec | the two encoders produce the same bytes / the decoders agree; the `Object` case of `JsValue` fails: witness |
| C18-C19 | `serialize.rs`, the code generated by the derive macro as a deep embedding of type shapes | induction on type codes |
| C20 | `api_dom_access.rs`/`api_import.rs` builders, `js_value_match.rs`, `decode_commands.rs`, dispatch of `wasm_instance.rs` | case analysis, for all arguments |
| C21, C27, C45 | browser DOM interpreter (`dom.ts`, `map_nodes.ts`), server interpreter (`element.rs`), debug interpreter (`inspect.rs`) | simulation between interpreters; commutation of removals |
| C22 | `dom.rs` | invariant over histories |
| C23 | `dom_list.rs` | refinement to "children = list of items" |
| C24 | `dom_element_class.rs` | invariant |
| C25 | `dom_suspense/*` | invariant |
| C26, C30 | `element_children.rs`, `ordered_map.rs` | refinement to lists |
| C28 | command JSON serialiser and parser | round trip; `remove_attr` fails: witness |
| C29 | escaping and rendering of `html_element.rs` | tokenizer specification + round trip |
| C31 | `html_response.rs`, request loop of `server_state.rs` | invariant over all message histories |
| C32 | `build_response` | equation |
| C33, C34 | `css_manager.rs`, `transform_css/*` | invariants / induction on strings |
| C35 | `lazy_cache.rs` with clock and an adversarial scheduler | invariant |
| C36-C39, C41 | `future_box.rs`, `event_emitter.rs`, `callbacks.rs`, `futures_spawn.rs`, `arguments.rs` | invariants over histories |
| C40 | `router.rs` plus browser history | invariant |
| C42-C44, C47, C48 | decision logic, literally | direct |
| C46 | `connection.ts`, `websocket.ts` as a state machine with an adversarial scheduler | silence proved; "closes" false: witness |
| C49 | views (elements, attributes, texts, values, lists, fragments) as trees with functions of the state; creation, insertion, subscriptions and dropping as functions that give commands; the browser of C21 | invariant: the page holds the nodes of the application, each node was made from its view; by induction over histories, for any order of the subscriptions. With C21: nothing changes if the commands are sent in sorted batches, wherever the batches end. For views whose nodes are not placed in order, a second invariant without the order (`Sits`, `Near`): the page has the nodes of the application, each below the right element |
| C50 | the same model as C49, without restrictions on views; the page executes commands that fail as no-ops | a relation says which commands may be sent for a node, by cases of the node and the values shown; induction over the views and the subscriptions; each step of the browser keeps the nodes it is not about |
| C51 | `DomAccess` as a list of values; the steps of `JsNode` on a browser whose objects are opaque; the conversions of values in both directions; the bytes of C17 | the chain as a relation on values and states of the browser; induction over the chain; tables for arguments and results |
| C52 | `Cookies` of cookies.ts on a cookie store after RFC 6265 (assignment, replacement, expiry, `document.cookie`); the four functions of `ApiImport`, through the chains of C51. Percent encoding, `JSON` and dates are functions of the platform with assumed properties (`Platform.Ok`); a platform that has them is given | the last write of a name in a history, as a function of the operations; an invariant for what the jar finds for each name at each later time |
| C53 | The timers of the browser after the HTML standard (one list, fresh ids, delay to signed 32 bit), interval.ts, `interval_set`, `timeout_set`, `set_timeout_and_detach` and the callback store, through the chains of C51. The specification is a list of timers by callback number, and a predicate on what has happened (`Allowed`). | simulation between the model and the list of timers over all events, also inside of callbacks; an invariant of the list that relates it to the log |
| C54 | `get_random`, `get_random_from`, `utc_now`, `now`, `Instant`, `timezone_offset`, `is_browser` and `get_env` on both sides, through the chains of C51; the environment through the response (C32) as a browser reads it (C29). | evaluation of the chains for all numbers, with the format in which each number arrives; for the environment the composition of C32 and C29 (`C32_read_partial`) with the lookup of attributes |
| C55 | The twelve handlers of `DomElement`, `Callback` with functions given as computeds, `CallbackStore`, the commands `callback_add`, `callback_remove`, `create_node` and `remove_node` with their order, `dom.ts` `callback_add` with the closure for each name, the bytes of the data and the result, and the algorithm by which a browser calls listeners. | refinement: a relation between the browser, the store, the cells and the queue on one side and a list of handlers on the other, kept by every operation, transaction, call, event and read; `C55_quiet` is the closed form for programs that change nothing |
| C56 | the listener that `create_node` of `dom.ts` gives to links, over the router of C40. What a link is (scheme, authority) is specified after RFC 3986. | case analysis on prefixes, then the invariant of C40 |
| C57 | nothing new: C49 (views), C21 (sorted batches), C28 (JSON), C31 (the loop of the server, with `fullProgram`), C27 (the tree on the server), C32 (the response) and C29 (the tokenizer of a browser) put together | the commands of an application satisfy the conditions of each part: html, head and body are treated properly, ids are small, no attribute is removed; the rendered nodes match the view; the tokens of nodes are those of the document. What is used of the page is collected in `Stays` and `Settles`, which also hold for lists and fragments of anything (`Shuffled`: up to the order of siblings) |
| C58 | `Driver.update` (dom.ts `dom_bulk_update`): the nodes of head and body are noted before the first batch, commands that throw are skipped, then the noted nodes are removed; the page before is any page (`Arrived`) whose nodes the driver does not know | simulation: the page without the old nodes is the page that starts empty (`Over`), kept by every command; the removal of old nodes empties what is left of them in head and body; C49 for applications, in order or up to the order of siblings |
| C59 | `call`, `answer`, `wasmCallback`, `publish`, `poll` (api_import.rs `fetch`, callbacks.rs, future_box.rs, futures_spawn.rs), fetch.ts as a world of access chains, send_request.rs for the server; parameters: `JSON.stringify`, `response.json`, `response.text`, what `new Headers` accepts, serde_json | refinement by a specification with waiting, listened-to and ready requests (`Rel`), trace invariants of the specification (`Inv`), C17, C47 and C51 for the boundary |
| C60 | the grammar `css.pest` as functions on texts, `generate_*` and `ParamsEnumerator` of css_parser.rs, `format!` and the replacement of references; `eval` (values of expressions) and `cls` (classes) are parameters | a grammar of what is written (`Block`), by induction: it is read as written, generated texts stand for the css under every assignment of the parameters (`Txt`), references are replaced (`Mixed`), composition with C34 |
| C61 | `dom_inner`, `dom_element_inner`, `convert_node` and its helpers on the nodes of `syn_rsx`, the builder methods of `DomElement`, `AttrValue`, `EmbedDom`; what Rust expressions stand for is a parameter (`Env`), printing of tokens too (`Lang`) | induction over markup; the accepted inputs by induction over nodes; composition with C49 |
| C62 | the loop of `run`, `Notify`, the tasks of `build_and_watch` with `abort` (synchronous code runs on), `STATE` and the address of the server, `MyStream` with its helper, `start_watch` in any number of pages, as one state machine whose steps are taken in any order | invariants over all runs; a second invariant for runs in which no edit is noticed during a build; the rest is false: witnesses |
| C63 | CRC-64/ECMA-182 over bit vectors, url safe Base64, `file_stem`/`extension`, `save_with_hash`, `bundle_file`, the steps of `run_with_ws` over directories, the static route | linearity and invertibility of the checksum; injectivity of the encodings; invariant of the directory of included files over all sequences of builds; the rest is false: witnesses |
| C64 | the views of C49 where class and css are calls; `DomElementClassMerge` of every element and the shared css manager turn calls into commands | simulation between the browser of C49 and the one that executes the commands; the invariant of C33 says which class each text has; then C21 and C58; the same for the page up to the order of siblings |
| C65 | nothing new: the commands of C64, through the pipeline of C57 | the lemma behind C57, for any commands that are calm or rules; every character of a rule comes from the css text or is written by the manager (Css/Chars.lean); class commands are only sent where a class or css was set |
| C66 | nothing new: the model of C49 | every node that a function of the model creates or is given is in the tree that it returns, or is in a removal that it sends (by induction over views and nodes); with C21 and the invariant of C49 without the order of siblings, which all views keep |
| C67 | `Listens` (which handlers exist, what is sent for them), `Site` (the application with its page: transactions, events along a path) | the page is that of C49 without the handlers and with the listeners of the elements in its map (`veil`, `Wired`); kept by every batch, with C21 and C66 (the map has no other nodes); an event by induction over its path. `C67_content_partial`: the same from the invariant of `C49_content_partial`, where the handlers are at the nodes that stand for their elements (`Presents`) |
| C68 | the routes that `run` registers (three for each prefix), the choice of the router, the stripped path, the handlers | the routes are those of all prefixes; the route that is chosen has the longest prefix, which is the only one that the others are above; computation of the stripped path |
| C69 | the functions of bind.rs over lists of tokens, and a compiler for the lets they write | splitting what is written gives the captures back (induction over them); running the lets keeps the values of later paths because their roots are not yet shadowed |
| C70 | the reactive core of C01-C08 and the view of C49 side by side, linked by a list that says which subscription of the core belongs to which node; moves are operations of the core, and the refresh of a subscriber changes the document | invariant: every computed part of the document is linked to a subscription that has last seen what the part shows, its computed stands for the function of the part, no first run was disturbed; kept by opening and closing subscriptions in any order; when idle, C07 (private conditional dependencies) says that what was last seen is current |
| C71 | which cells each function uses, in which order, and where code of the program can run; the contents of cells are left out and all possibilities allowed; code of the program is any sequence of calls; executions can stop anywhere | invariant over executions: the references in use while code of the program runs belong to clients in their first run or being refreshed, markers placed again, tasks, or cells the program makes unsafe; a client is not refreshed during its first run, and no transaction starts while clients are refreshed |
| C72 | the conversion of C18 and C19 with its contexts; specification: what JSON suits a type, which steps lead to a place, what is wrong at a place | induction over the depth of the conversion for both outcomes; well-founded induction over the JSON and the nesting of newtypes for termination |
| C73 | an object is the list of its entries in the order of iteration; the calls that hash makes of the hasher | induction over the values; equality against Same, the specification of C18 |
| C74 | data_context.rs, the imports and `wasm_callback` of wasm_instance.rs on the memory model of C41; the program is a tree that branches on answers, the allocator and the answers are parameters | induction over the program and the calls: what arrives (log) against what is sent without memory in between; composed with C15 and C20 |
| C75 | the logger of init_env.rs, `console_*_4`, the panic hook, the call through the access chain of C51 with a console as the world, the Formatter of the Console Standard; on the server the memory of C74 and the dispatch of C20 | induction over what is logged; the three `%c` of the format are consumed by the three styles before the text of the message |
| C76 | index.ts with its set of modules, the waiting calls of `runModule` and the answers of the browser as events; `fetchModule`; the entry function | induction over histories: before, while and after the program is waited for; the page of C32 searched |
| C77 | new/mod.rs as a list of steps on a file system that is a list of entries, each step with an answer (works, or fails after some characters); all states on the way are kept | invariant over the steps: additions only, because nothing was below the target; what successful steps did, in order, gives the project |
| C78 | serialize_chrono.rs, and the writing and reading of dates by `chrono` (fields, digits, signs, fractions, offsets) as functions on characters | for each reading function: it accepts exactly the texts of a declarative grammar; what is written is in the grammar |
| C79 | build_run.rs, cargo_workspace.rs and find_target.rs on a file system that is a function from paths; cargo, rustup and wasm-opt as parameters | what each step leaves alone, and where the program is read from, step by step; induction over the members of the workspace |
| C80 | api_access.rs on the text of the literal, the conversions of arguments; composed with the access chains of C51 | literals by a grammar (pieces, escapes, raw literals) and induction over it; the rest by C51 |
| C81 | memory_block.rs and the writes of to_snapshot on a memory of allocations with layouts and bytes that may be uninitialised; undefined behaviour is an outcome | a small language of variables with bytes of their own as the specification; simulation by induction over the program |
| C82 | futures_spawn.rs with the counters of Rc, raw wakers and timers; undefined behaviour is an outcome | the counter of each task is the number of its wakers, timers and its own waker, by induction over the history |
| C83 | the reactive core with a history of runs and discarded values (`St.work`) | the history agrees with the caches, and the links are those of the last runs, by induction over evaluation and over the steps; what one read has run is linked to a node that a running closure has read, so it is not released (`OneRead`) |
| C84 | `connection.ts`, `websocket.ts`, `event_emiter.ts` as in C46 | refinement of a reference machine with four states; the loop over the listeners by induction |
| C85 | `component.rs`, and `html_parser.rs` as in C61; struct literals, visibility and `let` of the compiler | the fields are read back as the parameters (induction), `mount` by evaluation of the `let`s |
| C86 | `value.rs`, `computed_box.rs`, `computed_tuple!` of `mod.rs`, on top of the core of C01 | the closures read a fixed list of nodes (induction); then the theorem of C01 |
| C87 | `value.rs`, `computed_box.rs`, `graph_value.rs`, `refresh.rs`, `external_connections.rs`, `Rc` | references and objects agree in all histories (invariant); closures capture only what is older and own only what is younger, so there are no cycles of references |
| C88 | `wasm_callback`, `transaction` and `TransactionState` as in C06, traps without unwinding; the callbacks and subscribers are trees | induction over the callback for each state of the transaction, then over the calls |
| C89 | the removals of a batch with the batches of events between them, as a tree; page and commands as in C21 | induction over the tree with the removals of all open batches still to do (the relation of C21, for permutations of them) |
| C90 | fields as the HTML Standard describes them (value, dirty flag, cursor), the commands for `value` and `checked`, a program with a state and handlers | induction over histories |
| C91 | the list of C23, and a page that takes the focus from nodes that are inserted anew or removed | which nodes the commands are about: those between the common beginning and the common end; induction over histories |

## 4. Not modelled

Rendering by the browser itself, wasmtime, tokio, axum, sockets, TLS; running
cargo, wasm-opt and the file watcher (`vertigo-cli/src/{build,watch,new}` except
what section 3 names); the token plumbing of the procedural macros
(`vertigo-macro` except the code the `AutoJsJson` derive generates and what
section 3 names); the crate `chrono` itself (C78 models its text formats from its documentation); threads (wakers can
be sent to other threads, and are made of `Rc`); performance. The blocks marked `unsafe` are in C71, C81 and C82, except for the two
calls of imported functions in `external_api.rs`.

## 5. Disagreements between code and property

Each of these is proved on a witness in the theorem named, unless it says
otherwise.

| theorem | what happens |
|---------|--------------|
| `C01_dynamic_stale_violated` | a computed whose closure creates and drops a computed, or stops reading one while it runs, keeps an old value for ever |
| `C07_all_changes_violated` | a `set` inside the first run of a subscription is not delivered to it |
| `C07_first_read_releases_violated` | the first run of a subscription only reads another computed, which has stopped reading the subscribed one: the subscription gets no later change |
| `C12_reentrant_violated` | an `AutoMap` constructor that looks up its own key is called twice |
| `C13_object_limit_violated` | an object with 65536 entries reads back empty |
| `C15_object_violated`, `C17_ts_object_violated` | a non-empty `JsValue::Object` never decodes |
| `C17_bom_violated`, `C17_proto_violated` | strings starting with U+FEFF and keys `__proto__` are lost in the browser |
| `C18_nested_option_violated`, `C18_u64_violated` | `Some(None)` reads back as `None`; integers above 2^53 are rounded |
| `C20_random_violated` | random numbers and the timezone offset end the rendering on the server |
| `C21_insert_below_removed_violated` | removals are moved to the end of a batch; a batch that inserts below a removed node means something else then |
| `C23_fragments_violated` | list items rendered to markers (fragments, values, lists) are shown in the wrong order |
| `C24_sent_only_when_changed_violated` | an empty class that is removed is sent twice |
| `C25_removed_subtree_violated`, `C25_replaced_handler_violated` | suspense counts of removed subtrees stay; a replaced handler is not called |
| `C28_remove_attr_violated` | the server panics on `RemoveAttr` |
| `C29_style_violated`, `C29_carriage_return_violated`, `C29_void_violated` | style and script text is not escaped; a carriage return reads back as a newline; `BR` is written with an end tag |
| `C31_equal_violated` | the hash of a request depends on the order of a hash map: equal requests are sent twice |
| `C34_media_print_violated`, `C34_nonascii_violated`, `C34_nonascii_panics_violated` | `@media print {` panics; brackets after text that is not ASCII are cut at the wrong place or panic |
| `C35_lost_answer_violated` | a lazy cache is dead after an answer that cannot be decoded |
| `C38_once_reentrant_violated` | a callback registered once and called again while it runs, runs twice |
| `C40_unobserved_violated` | a router observed again after a navigation shows the old route |
| `C41_result_violated` | results at addresses of 2^31 and above are read at a negative address |
| `C42_boundary_violated`, `C43_twice_violated` | path prefixes are cut inside a component; the watch script is inserted at every `</body>` |
| `C45_*_violated` | changed and removed classes, two listeners for one event, and whole pages are shown wrongly in the debug rendering |
| `C46_closed_violated` | a websocket dropped while it connects is opened and never closed |
| `C47_*_violated` | content types with characters outside of ASCII, repeated headers, binary bodies without content type and names that differ in case are treated differently by browser and server |
| `C49_fragment_violated`, `C49_item_violated`, `C49_key_violated` | a fragment whose second node is a value or list, and a list whose items are, are in the wrong order from the start; a list item that changes while its key stays is not updated |
| `C51_element_violated` | `DomElementRef::dom_access` never does anything: the id of the node is sent as `U64`, `nextRoot` accepts `U32` and `I32` |
| `C51_props_violated` | `get_props` gives `{"type": 2, "value": 640}` in place of 640: values are converted twice |
| `C51_result_violated` | an object with an `undefined` property arrives as `Undefined`, a function ends the call with an exception |
| `C51_props_function_violated` | `get_props` with a property that is a function ends the whole call with an exception |
| `C52_json_violated` | `cookie_set_json` of a string, number or boolean: `cookie_get_json` gives `Null`, because these arrive as `JsValue::String`, `I32`, `True`, and only `JsValue::Json` is accepted |
| `C52_name_violated` | the name `a=b` is written into the cookie as it is; what is set under it cannot be read |
| `C52_foreign_violated` | a cookie with `=` in its value (padded base64 from a server) reads as the empty string: `get` wants exactly two parts |
| `C52_expiry_violated` | with an expiry beyond the range of dates the attribute is `Invalid Date`, and the cookie ends with the session of the browser |
| `C53_long_violated` | a timeout of 2^31 ms (25 days) or more fires at once: `u32` in Rust, `long` in the browser |
| `C54_random_violated` | a random number of 2^31 or more arrives as `F64`, which `get_random` does not accept: a panic message, and the answer is `min` |
| `C54_clock_violated` | a time below 2^31 ms (January 1970) arrives as `I32`, which `utc_now` does not accept: a panic message, and the answer is 0 |
| `C54_elapsed_violated` | `Instant` says it is monotonic but is the clock of the day: when that is set back `elapsed` overflows |
| `C54_env_violated` | variables of the environment whose names differ only in case are one in the browser, because they are sent as names of attributes |
| `C56_scheme_violated` | links with `mailto:`, `tel:` or any scheme but `http://`, `https://` are taken for links of the application: the default is prevented, `pushState` throws, nothing happens |
| `C56_case_violated` | the same for `HTTPS://` in capital letters |
| `C56_elsewhere_violated` | a link with `target="_blank"`, or clicked with the ctrl key, is opened in the same tab |
| `C57_absent_violated` | the server panics on an application in which an attribute has no value when it is rendered, e.g. an optional `disabled` |
| `C58_attributes_violated` | attributes of html, head and body in the page of the server stay in the browser although the application there does not have them, as do texts outside of head and body |
| `C59_json_text_violated` | `body_json("a")` is sent in the browser as the plain text `a` with `text/plain`, because fetch.ts cannot tell a JSON text from a text |
| `C59_headers_violated` | a header that `new Headers` rejects: the exception is thrown outside of the `try`, nothing is sent, the future never resolves and `on_fetch_stop` is never triggered |
| `C59_server_method_violated`, `C59_server_number_violated` | on the server a PUT, DELETE, ... request is `unreachable!()`, and a JSON number that is not finite is an `unwrap` of `None` |
| `C59_server_mark_violated`, `C59_server_utf8_violated` | a response text with a byte order mark keeps it on the server only; text that is not UTF-8 is an error on the server only |
| `C60_unit_violated` | `height: {h}%;` becomes `height: 50 %;` (a space before every unit but `px`), which a browser rejects |
| `C60_not_replaced_violated` | `border: 1px solid {c};`: an expression behind text is not replaced, the css contains `{c}` |
| `C60_color_violated` | `outline: #ff0000 dashed 1px;` becomes `outline: #ff0000 da shed 1px;` (white space is skipped inside the color, and two more hexadecimal digits are taken for it) |
| `C60_ref_violated` | `:hover[a]` becomes `:hover .a`: a descendant instead of the same element |
| `C60_rejected_violated` | `animation-delay: …`, `::before {…}`, `content: ';'` and `url('x') no-repeat` do not compile |
| `C61_component_content_violated` | `<Hello>"text"</Hello>`: what is written inside of a component is accepted and dropped |
| `C62_stale_status_violated` | the build that was going on when an edit was noticed is not stopped; its errors are reported after the version of the next build |
| `C62_stale_state_violated` | in the same way it replaces what the server of the newest build serves |
| `C62_overlay_violated` | a page opened between the start of the server and its check is told `Building` first: it is never reloaded and 'Build in progress' stays over it |
| `C62_stale_page_violated` | a page that connects after the next build takes its version for its own and stays out of date |
| `C62_needless_reload_violated` | a page whose connection is lost is reloaded when it connects again, although nothing was built |
| `C62_port_violated` | `--port-watch` other than 5555: the events are always served on 5555, no page is told anything |
| `C63_leading_zeros_violated` | zero bytes at the beginning of a file do not change its checksum: such versions share a url |
| `C63_source_map_violated` | the source map has no hash in its name but may be cached for a day like the rest |
| `C63_failed_build_violated` | the destination is emptied before cargo runs: after a failed build nothing is served, and the 404 may be cached for a day |
| `C63_public_path_violated` | changing `--public-path` does not make cargo compile other crates again: their urls of included files are no longer served |
| `C63_fragment_violated` | a file with `#` in its name gets a url whose rest is a fragment: not found |
| `C64_empty_class_violated` | a class that is taken away leaves `class=""` on the element; `[class]` still matches it |
| `C68_get_headers_violated`, `C68_method_violated`, `C68_post_type_violated`, `C68_post_headers_violated`, `C68_bare_violated`, `C68_root_violated` | the proxy drops the headers of GET requests, refuses other methods and bodies that are not JSON, sends POST headers (content-length, host) that do not fit, adds a slash to the bare prefix; with an empty public path no page is rendered |
| `C69_order_violated`, `C69_spawn_order_violated`, `C69_pipe_violated`, `C69_rc_path_violated` | `bind!(x.a, a.b, ..)` takes `x.a.b`; in bind_spawn! the order does not matter, the inner copy sees all new names; closures with `|` in the body are rejected; bind_rc! rejects `std::..` types |
| `C71_suspense_violated` | `set_suspense_attr` calls the callback of the layer while it holds `&mut` to the class of the element, and the callback takes `&mut` to the same class: undefined behaviour in every use of the suspense attribute |
| `C71_unguarded_violated` | safe code can get two `&mut`: `Value::set` drops the old contents in place (a `Drop` that reads the value), the same for caches of computeds, handlers that are computed and keys of an `AutoMap`; the function of the suspense attribute runs inside of the state of suspense; `vertigo::struct_mut` is public; `start_app` can be called by a `Drop` |
| `C74_result_violated` | a callback that returns a value other than `Undefined` stops the server (`todo!()`) |
| `C74_panic_violated` | a panic in the program: its message arrives, then `unwrap` stops the server instead of the error page of C31 |
| `C74_object_violated` | a command with an object in it arrives as `Undefined` |
| `C75_server_violated` | while rendering on the server, `log::error!` gives a warning, `log::warn!` an information (and the `%c` marks are in the text) |
| `C75_file_violated` | a file name such as `50%cent.rs` takes a style: the line on the console is garbled |
| `C75_mark_violated` | the message of a panic that begins with a byte order mark is shown without it |
| `C77_kept_violated` | `vertigo new` ignores an error of `read_dir`: in a directory that may not be listed files are overwritten |
| `C78_moment_violated` | `DateTime<Utc>`: years after 9999 or before 0 are written with a sign, which `parse_from_rfc3339` refuses: the JSON cannot be read back; with 10⁹ nanoseconds or more outside of second 59, another moment is read |
| `C79_program_violated` | `vertigo build` looks for the program in `target/` of the current directory, under the name of the package, not where cargo has put it: with another target directory or library name it publishes the program of an earlier build (or panics) |
| `C80_other_literals_violated` | `window!` and `document!` take the source text of their literal for its value: with escapes or a raw literal (`window!(r"title")`) they silently access another name |
| `C81_write_violated` | `MemoryBlock::write` adds the offset and the length with wrap-around: `block.write(u32::MAX, &[7])` writes in front of every block, from safe code |
| `C81_read_violated` | `MemoryBlock::new(n)` is not initialised, and can be read by safe code (`JsValue::from_block`, `convert_to_vec`) |
| `C81_layout_violated` | `convert_to_vec` makes a `Vec<u8>` (alignment 1) of memory with the alignment of `usize`; each message from JavaScript is freed with a layout it was not allocated with |
| `C82_forgotten_violated` | a spawned future that waits for something that will never come (its wakers are gone) is never dropped: the task holds a waker of itself |
| `C83_one_read_violated` | one read can run the closure of a computed twice: `a` reads `x`, then `b`, whose new run does not read `x` any more; `x` is released although the running closure of `a` has read it; a later read of `x` runs its closure again |
| `C85_restricted_violated` | a `pub(crate)` component cannot be used in another module of the crate |
| `C85_modifiers_violated` | `const`, `async`, `unsafe` and `extern` at a component are dropped without an error |
| `C87_connect_violated` | the value made by `Value::with_connect`, and all that its generator captures, is never freed: the registered closure holds the value, and is only removed when the value is freed |
| `C88_frozen_violated` | a panic of an event handler, timer or other callback leaves its transaction open (every call of the browser runs in one): no subscriber is called and no change of the document is sent ever again, although later handlers run |
| `C88_lost_violated` | a panic of a subscriber leaves the state `Refreshing`: the next call of the browser panics at once, whatever it is; by accident this repairs the state |
| `C89_move_violated` | an event that the browser reports while an element is moved (the focused item of a list that is reordered) is handled before the rest of the update is carried out: commands for nodes created in the rest fail |
| `C90_rejected_violated` | a field whose handler does not accept what is entered (a limit of length) goes on showing it: the value of the program has not changed, so nothing is sent |
| `C90_jump_violated` | a handler that changes the text (capital letters) moves the cursor to its end |
| `C90_select_violated` | the attribute `value` of a `select` has no effect |
| `C90_options_violated` | an option of a select that the user has picked once cannot be chosen by the program any more: its attribute `selected` is ignored |
| `C90_box_violated` | the attribute `checked` has no effect once the user has clicked the box: it shows the parity of the clicks |
| `C90_served_violated` | a text area in the page that the server sends is empty until the program starts: its value is only an attribute |
| `C90_flag_violated` | `checked={false}` checks the box: truth values become the texts true and false, and an attribute that is present is on |
| `C91_edit_violated` | an item of a list that is edited (the same key, another value) is taken out of the document and put back in the same place: a field in it loses the focus with each character entered |
| `C91_between_violated` | items between two changes of a list are all moved, though their order is the same |

Seen while reading, not part of a property: the derive for a unit struct accepts
any JSON; the `default` attribute swallows every decoding error;
`get_class_name` puts the text of a media query into the class attribute
(`CssMedia` is never constructed in the repository); a JSON body with NaN panics
on the server.
#!/usr/bin/env python3
"""Source of properties.jsonl: one tuple per property."""
import json, pathlib
P = []
def p(title, statement, quantifier, why, anchors):
    P.append(dict(id="C%02d" % (len(P)+1), title=title, statement=statement,
                  quantifier=quantifier, why_tests_cant=why, anchors=anchors))

V="crates/vertigo/src/"
D=V+"computed/dependencies/"
J=V+"driver_module/js_value/"
S="crates/vertigo-cli/src/serve/"
T=V+"driver_module/src_js/"

# ---------------------------------------------------------------- reactive core
p("Computed values are never stale",
  "Whenever user code reads a Value or a Computed (inside or outside of a transaction), the result is the one obtained by evaluating the definition from scratch over the current contents of all Values: caches are never observable.",
  "all dependency graphs (acyclic, with data dependent reads), all histories of set / transaction / read / subscribe / drop",
  "The defect only shows for particular shapes of data dependent reads combined with a particular order of cache drops; a test samples a few graphs.",
  [V+"computed/graph_value.rs:GraphValueData::get_value", D+"graph.rs:Graph::push_context", D+"mod.rs:Dependencies::report_set"])
p("Edges between producers and consumers are stored consistently",
  "After any history of dependency updates the producer->consumers index and the consumer->producers index describe the same relation, and no empty entry is left behind.",
  "all histories of dependency updates over all ids",
  "Holds for every sequence of updates; a mismatch appears only after specific add/remove interleavings.",
  [D+"graph_connections.rs:GraphConnections", D+"graph_one_to_many.rs:GraphOneToMany"])
p("Invalidation reaches exactly the transitive consumers",
  "Setting a Value invalidates every Computed / subscriber that is reachable from it through recorded reads, each one once, and nothing else.",
  "all dependency graphs including ones with shared sub-graphs (diamonds), all values set",
  "Reachability over arbitrary graphs is not enumerable by tests.",
  [D+"graph_connections.rs:GraphConnections::get_all_deps", D+"mod.rs:Dependencies::report_set"])
p("Abandoned sub-graphs are fully released",
  "When a consumer stops reading a producer and nobody else reads it, the producer stops being a consumer of its own producers, recursively; producers with a remaining consumer keep all their links. The update always terminates.",
  "all graphs, all new dependency sets of a node",
  "Cascades of arbitrary depth and shape; termination is a liveness property that no finite test establishes.",
  [D+"graph_connections.rs:GraphConnections::set_parent_for_client"])
p("Subscribers run after the outermost transaction, once, in creation order",
  "During a (possibly nested) transaction no subscriber runs; when the outermost transaction ends every affected subscriber is refreshed exactly once, in order of creation, however many Values were set and however many times.",
  "all nestings of transactions, all sequences of sets, all sets of subscribers",
  "Unbounded nesting and arbitrary multiplicity of sets.",
  [D+"mod.rs:Dependencies::transaction", D+"transaction_state.rs:TransactionState"])
p("The transaction state machine never gets stuck or panics outside of refreshing",
  "A balanced use of transactions returns to the idle state, the nesting level equals the number of open transactions, and the only way to hit the panic is to open a transaction while subscribers are being refreshed.",
  "all sequences of transaction begin/end up to the u16 nesting limit",
  "Invariant over all histories.",
  [D+"transaction_state.rs:TransactionState"])
p("subscribe delivers exactly the changes",
  "A callback given to subscribe is called once at subscription with the current value and afterwards exactly when, at the end of a transaction, the observed value differs from the last one delivered; consecutive deliveries are never equal.",
  "all histories of transactions and all observed computeds",
  "Universal over histories.",
  [V+"computed/computed_box.rs:Computed::subscribe", V+"computed/struct_mut/value_mut.rs:ValueMut::set_and_check"])
p("A dropped subscription stays silent",
  "After the resource returned by subscribe has been dropped its callback is never called again and it no longer keeps any producer active. What a callback has subscribed, returning the resources, is dropped when the callback is called again and when its own subscription is dropped.",
  "all histories that contain the drop at any point",
  "Safety over every continuation of the history.",
  [V+"computed/graph_value.rs:GraphValueData::drop", V+"computed/graph_value.rs:GraphValue::drop", D+"graph.rs:Graph::remove_client"])
p("External sources are connected exactly while observed",
  "For a Value created with with_connect the connect function runs when the value gains its first consumer, at most one connection exists at any time, and the connection resource is dropped when the last consumer is gone.",
  "all histories of subscriptions, dependency switches and drops",
  "Resource protocol over all histories.",
  [D+"external_connections.rs:ExternalConnections::set_connection", D+"graph.rs:Graph::push_context", V+"computed/value.rs:Value::with_connect"])
p("Ids are unique and ordered by kind",
  "Every node id is fresh; ids compare first by kind (value < computed < client) and then by age, so iteration over any set of ids visits older clients first.",
  "all sequences of id allocation",
  "Universal over allocation histories.",
  [V+"computed/graph_id.rs:GraphId"])
p("set_value_and_compare suppresses no-op writes, change applies a function",
  "set_value_and_compare(v) with v equal to the current value changes nothing and notifies nobody; with a different value it behaves as set. change(f) leaves f(old) in the Value and behaves as one set.",
  "all values and all states",
  "Universal over states.",
  [V+"computed/value.rs:Value::set_value_and_compare", V+"computed/value.rs:Value::change"])
p("AutoMap creates each entry once",
  "get for a key calls the constructor at most once per key over the life of the map, later lookups return the identical entry, and entries of other keys are not affected.",
  "all sequences of lookups",
  "Universal over histories.",
  [V+"computed/auto_map.rs:AutoMap"])
# ---------------------------------------------------------------- codec
p("JsJson survives its binary encoding",
  "Decoding the bytes written for a JsJson yields the same JsJson (numbers bit for bit), and consumes exactly these bytes, whatever follows them.",
  "all JsJson trees within the length limits of the format (u16 object size, u32 string and list sizes)",
  "Unbounded recursive data; limits are only reached on inputs too large for tests.",
  [J+"js_json_struct.rs:JsJson::write_to", J+"js_json_struct.rs:decode_js_json_inner"])
p("The announced buffer size is the size written",
  "get_size of a JsJson / JsValue equals the number of bytes write_to emits, so the exactly sized buffer allocated for a snapshot neither overflows nor has a tail.",
  "all JsJson and JsValue trees",
  "Unbounded recursive data; an error of one byte in one branch is a memory error.",
  [J+"js_json_struct.rs:JsJson::get_size", J+"js_value_struct.rs:JsValue::get_size", J+"js_value_struct.rs:JsValue::to_snapshot"])
p("JsValue survives its binary encoding",
  "Decoding the snapshot of a JsValue yields the same JsValue.",
  "all JsValue trees within the length limits of the format",
  "Unbounded recursive data.",
  [J+"js_value_struct.rs:JsValue::write_to", J+"js_value_struct.rs:decode_js_value_inner"])
p("Decoding arbitrary bytes is total",
  "Decoding any byte string either yields a value, having consumed a prefix of the input, or an error message, or (truncated input) stops at a bounds check; it never reads outside of the block and never loops.",
  "all byte strings",
  "All inputs, including hostile ones.",
  [J+"memory_block_read.rs:MemoryBlockRead", J+"js_value_struct.rs:decode_js_value", J+"js_json_struct.rs:decode_js_json_inner"])
p("Rust and the browser glue agree on the wire format",
  "What the Rust side encodes, the TypeScript decoder reads as the same value, and what the TypeScript side encodes, the Rust decoder reads as the same value.",
  "all JsValue / JsJson trees within the length limits",
  "Two independently written codecs over unbounded data.",
  [T+"jsvalue.ts:jsValueDecodeItem", T+"jsvalue.ts:saveToBufferItem", T+"jsjson.ts:jsJsonDecodeItem", T+"jsjson.ts:saveJsJsonToBufferItem", J+"js_value_struct.rs:decode_js_value_inner"])
p("Typed JSON conversion round-trips",
  "from_json(to_json(x)) = x for strings, booleans, unit, 32 bit integers, vectors, options (of a type without null representation) and string-keyed maps built from them; 64 bit integers round-trip exactly when they are exactly representable as f64 or the largest value of their type.",
  "all values of the supported types",
  "Infinite types, nested arbitrarily.",
  [J+"serialize.rs:JsJsonSerialize", J+"serialize.rs:JsJsonDeserialize"])
p("AutoJsJson derives a faithful representation",
  "For a derived struct, newtype, tuple struct or enum from_json(to_json(x)) = x provided its field types round-trip; different variants never share a representation.",
  "all shapes of derived types (any number of fields and variants with distinct names) and all their values",
  "Quantifies over every user defined type.",
  ["crates/vertigo-macro/src/jsjson/enums.rs:impl_js_json_enum", "crates/vertigo-macro/src/jsjson/structs.rs:impl_js_json_struct", "crates/vertigo-macro/src/jsjson/newtypes.rs:impl_js_json_newtype", J+"js_json_struct.rs:JsJson::get_property"])
p("Server side rendering understands every request of the client library",
  "Every host call the client library makes is recognised by the server side dispatcher as that very call with the same arguments, or is explicitly answered as unsupported; no call is taken for a different one.",
  "all calls with all arguments",
  "All argument values; the dispatcher is a cascade of pattern matches whose order matters.",
  [S+"wasm/decode_commands.rs", S+"wasm/js_value_match.rs:Match", V+"driver_module/api/api_import.rs:ApiImport", V+"driver_module/api/api_dom_access.rs:DomAccess"])
# ---------------------------------------------------------------- DOM
p("Batched DOM commands give the document that immediate execution would give",
  "Reordering a batch so that removals come last and executing it yields the same document as executing the commands in the order they were issued, for batches that do not reuse an id after removing it.",
  "all documents and all batches of commands",
  "Commutation of arbitrary command sequences.",
  [V+"driver_module/dom_command.rs:sort_commands", V+"driver_module/dom.rs:DriverDom::flush_dom_changes"])
p("DOM output is held back during start-up and then delivered completely",
  "No DOM command is sent to the host while initial requests are outstanding; from the moment the last one completes, every command issued is sent exactly once, in batches, and the gate never closes again.",
  "all interleavings of commands, flushes and request starts / ends",
  "All schedules.",
  [V+"driver_module/dom.rs:StateInitiation", V+"driver_module/dom.rs:Commands"])
p("render_list shows the current list",
  "After each change of the list the children rendered between the markers are exactly one node per item in list order; nodes whose key is kept are reused (not re-rendered), nodes without an item are removed, and no node is rendered for a key that is still available.",
  "all old and new lists, with arbitrary (also duplicate) keys",
  "All pairs of lists; reordering bugs need specific permutations.",
  [V+"render/dom_list.rs:reorder_nodes", V+"render/dom_list.rs:get_pairs_middle"])
p("Class attribute merging keeps every class",
  "The class attribute sent to the host contains exactly the css classes and the user supplied class, and it is only sent when it changed.",
  "all histories of css / class / suspense updates of an element",
  "All histories.",
  [V+"dom/dom_element_class.rs:DomElementClassMerge"])
p("Suspense handlers are told exactly when a frame is loading",
  "The last thing a suspense handler of an attached node has been told is loading = true exactly if some existing vertigo-suspense element lies in the sub-tree of the parent of that node; it is only called when this changes.",
  "all trees up to the supported depth and all sequences of updates",
  "All trees and histories.",
  [V+"driver_module/dom_suspense/"])
# ---------------------------------------------------------------- SSR
p("The server keeps children in DOM order",
  "The linked structure that holds the children of an element behaves as a list: insert_before places the child directly before the reference (or last), moving it if it was already a child; remove deletes it; listing returns the sequence.",
  "all sequences of inserts and removals that only refer to existing children",
  "Pointer structure over all operation sequences.",
  [S+"html/element_children.rs:ElementChildren"])
p("The server document is a forest and mirrors the client",
  "After any stream of commands every node occurs in at most one children list, and its recorded parent is that element; the resulting tree is the one the browser builds from the same stream.",
  "all command streams of a well behaved client",
  "All streams.",
  [S+"html/element.rs:AllElements", T+"api_browser/dom/dom.ts:DriverDom"])
p("The server accepts every command the client emits",
  "Every DOM command serialised by the client library is parsed by the server to the same command.",
  "all commands with all payloads",
  "All payloads; also a missing case is silent until that command is used on the server.",
  [S+"html/dom_command.rs:DomCommand", V+"driver_module/dom_command.rs:DriverDomCommand"])
p("Rendered HTML cannot be broken out of",
  "Text, attribute values and comments are emitted so that an HTML tokenizer sees no markup originating from them: reading back the rendered text / attribute yields the original string.",
  "all strings and all documents",
  "Security property over all strings.",
  [S+"html/html_element.rs:html_node_to_string", S+"html/html_element.rs:attributes_to_string"])
p("Attributes keep the last value and a stable order",
  "The ordered attribute map returns the last value set for a name, lists every name once, in the order of the last write.",
  "all sequences of set / get",
  "All histories.",
  [S+"html/ordered_map.rs:OrderedMap"])
p("Each server side fetch is issued once and answers every waiter once",
  "Equal requests made while rendering are sent to the network at most once; every callback registered for a request is called exactly once with its response, in registration order; the page is not finished while a request is outstanding.",
  "all interleavings of requests and responses",
  "All schedules.",
  [S+"html/html_response.rs:HtmlResponse::process_message", S+"server_state.rs:ServerState::request"])
p("The finished page contains styles first and the loader last",
  "In the page the collected css rules are placed at the start of body in the order of insertion, the wasm loader script is the last child of body, environment variables are attributes of html; without html or body an error page with status 500 is produced.",
  "all documents, rule lists and environments",
  "All documents.",
  [S+"html/html_response.rs:HtmlResponse::build_response"])
# ---------------------------------------------------------------- CSS
p("Each style gets one class and is emitted once",
  "Asking for the class of equal css texts (of the same kind) returns the same class and its rules are sent once; different texts get different classes.",
  "all sequences of class requests",
  "All histories.",
  [V+"css/css_manager.rs:CssManager", V+"css/next_id.rs:NextId"])
p("Css splitting never loses or invents declarations",
  "Splitting a css text into rows at the separators that are outside of brackets and joining the rows gives back the text up to trimming and empty rows; separators inside brackets never split.",
  "all css texts",
  "All strings, arbitrary bracket nesting.",
  [V+"css/transform_css/splits.rs", V+"css/transform_css/mod.rs:transform_css"])
# ---------------------------------------------------------------- async / fetch
p("LazyCache sends at most one request at a time and refreshes after expiry",
  "While a request is in flight no further request is started; a read never starts a request when fresh data is present and always starts one (if none is in flight) when data is absent or expired; the value read afterwards is the one of the last completed request.",
  "all interleavings of reads, forced updates, forgets, completions and clock advances",
  "All schedules and clock values.",
  [V+"fetch/lazy_cache.rs:LazyCache"])
p("FutureBox delivers the published value exactly once",
  "Whatever the order of publish and poll, a polled future either completes with the published value or has its latest waker woken when the value is published; no wake-up is lost.",
  "all interleavings of publish and poll",
  "All schedules.",
  [V+"future_box.rs:FutureBox"])
p("EventEmitter calls the listeners registered at trigger time, in order",
  "trigger calls exactly the listeners present when it starts, in registration order, and a dropped listener is not called by later triggers.",
  "all histories of add / drop / trigger",
  "All histories.",
  [V+"driver_module/event_emitter.rs:EventEmitter"])
p("Host callbacks are dispatched to the registered function",
  "A callback id handed to the host always invokes the function registered under it until it is dropped, ids are never reused, and a register_once callback runs at most once and frees its slot, unless the host calls it again while it is still running.",
  "all histories of registrations, drops and host calls",
  "All histories.",
  [V+"driver_module/api/callbacks.rs:CallbackStore"])
p("The task executor loses no wake-up",
  "Every wake of a spawned task leads to a later poll of it until it completes, and a completed task is never polled again.",
  "all interleavings of wakes and executor runs",
  "All schedules.",
  [V+"driver_module/utils/futures_spawn.rs"])
p("The router mirrors the location",
  "While observed, the route always equals the route parsed from the current location; set navigates to the url of the route, and identical navigation does not notify.",
  "all sequences of navigations and route changes",
  "All histories.",
  [V+"router.rs:Router", T+"api_browser/historyLocation.ts", T+"api_browser/hashrouter.ts"])
p("Argument blocks are handed over exactly once",
  "A memory block allocated by the host for arguments is returned by get_by_ptr exactly once for its pointer and is then gone; block sizes and pointers packed into the 64 bit result are recovered by the other side.",
  "all allocations and pointers below 2^32",
  "All histories and numbers.",
  [V+"driver_module/api/arguments.rs:Arguments", T+"wasm_init.ts:wasm_callback"])
# ---------------------------------------------------------------- small decision logic
p("Static files are mapped inside the mount point",
  "Mapping a public http path to a path on disk replaces exactly the configured prefix and yields a path only for urls below it.",
  "all urls and mount points",
  "All strings.",
  [S+"mount_path.rs:MountPathConfig"])
p("The watch script is inserted exactly once and nothing else changes",
  "For a successful html response the live reload script is inserted before the closing body tag; any other response is unchanged.",
  "all responses",
  "All strings.",
  [S+"response_state.rs:ResponseState::add_watch_script"])
p("key=value options split at the first equals sign",
  "parse_key_val(k + '=' + v) = (k, v) whenever k has no '='; v may contain any characters; a string without '=' is an error.",
  "all strings",
  "All strings.",
  ["crates/vertigo-cli/src/commons/parse_key_val.rs"])
p("The debug rendering agrees with the document",
  "The tree shown by DomDebugFragment for a command log is the tree the browser builds from the same log.",
  "all command logs of a well behaved client",
  "All logs.",
  [V+"inspect.rs:DomDebugFragment::from_cmds"])
p("A disposed websocket stays silent and closes",
  "After the websocket resource has been dropped no further message is delivered to the application and the underlying socket is closed, whatever state the connection was in.",
  "all schedules of open / message / close / error / timeout / dispose",
  "All schedules.",
  [T+"api_browser/websocket/connection.ts", T+"api_browser/websocket/websocket.ts"])
p("Request and response bodies are classified consistently",
  "Browser and server choose the same content-type for a request body (an explicit header always wins) and the same body kind for a response content-type.",
  "all header sets, bodies and content-type strings",
  "All strings; two implementations.",
  [S+"html/send_request.rs", T+"api_browser/fetch.ts"])
p("Resource mapping respects the state",
  "map and ref_map keep Loading and Error unchanged and apply the function exactly to Ready; the ? operator continues exactly on Ready.",
  "all resources and functions",
  "All functions.",
  [V+"fetch/resource.rs:Resource"])

p("The document shows the current state of the view",
  "After every transaction, once the subscriptions whose values changed have run, the document in the browser is what it would be if the application had been started in the current state: elements with the current attributes, texts with the current values, the parts rendered by render_value, and one node per item of render_list, in order. No command fails in the browser.",
  "all views built from elements, attributes, texts, computed texts, render_value, render_list and fragments, all states, all histories of transactions and all orders in which the subscriptions of a transaction run",
  "All views and all histories: nested markers are created and dropped while others are updated.",
  [V+"dom/dom_comment.rs:DomComment::new_marker", V+"dom/dom_comment.rs:DomComment::dom_fragment", V+"render/dom_value.rs:render_value_option", V+"render/dom_list.rs:render_list", V+"dom/dom_element.rs:DomElement", V+"dom/dom_text.rs:DomText", T+"api_browser/dom/dom.ts"])
p("An update touches nothing else",
  "A transaction changes only the nodes whose values changed: a command is sent only to set a text or an attribute to a value other than the one shown, or about nodes inside of a render_value or render_list whose value is another one. If no value is another one no command is sent. All other nodes on the page stay the same nodes, with the same content and parents, in the same order.",
  "all views, all states before and after, all orders in which subscriptions run and nodes are dropped, all pages",
  "All views and all histories. That the result is right (C49) does not say that the rest of the page, with its focus, scroll positions and input, was left alone.",
  [V+"render/dom_value.rs:render_value_option", V+"render/dom_list.rs:render_list", V+"dom/dom_element.rs:DomElement", V+"dom/dom_text.rs:DomText", V+"dom/dom_comment.rs:DomComment::dom_fragment", T+"api_browser/dom/dom.ts"])
p("Access to the browser does what the chain says",
  "A chain of accesses (api, root, element, get, set, call, get_props) built in Rust is executed by the browser step by step, on the objects and with the arguments it names; an exception ends it; the value of the last step arrives in Rust.",
  "all chains, all arguments, all browsers (what happens when a property is read or written or a function is called), all values",
  "All chains and values; two implementations and two value conversions are involved.",
  [V+"driver_module/api/api_dom_access.rs:DomAccess", V+"dom/dom_element_ref.rs:DomElementRef", T+"js_node.ts:JsNode", T+"wasm_module.ts", T+"jsvalue.ts:convertToJsValue", T+"guard.ts"])

p("Cookies are read as they were set",
  "In the browser a cookie reads as the string or JSON value last set under its name until it expires, and then as the empty string or Null; setting a cookie changes no other cookie and reading changes none. On the server nothing is stored and every cookie is empty.",
  "all histories of sets and of time that passes, all names, values and durations, all cookies that other programs have left",
  "All strings, names and histories; the text of the cookies is shared with other programs and taken apart at ; and =.",
  [V+"driver_module/api/api_import.rs:cookie_get", V+"driver_module/api/api_import.rs:cookie_set", V+"driver_module/api/api_import.rs:cookie_get_json", V+"driver_module/api/api_import.rs:cookie_set_json", T+"api_browser/cookies.ts:Cookies", S+"wasm/wasm_instance.rs"])

p("Timers fire when they should and not after they were dropped",
  "A function passed to set_interval or set_timeout (or to a detached timeout) is called not before its delay is over; a timeout once, an interval with at least its delay between calls; never after its resource was dropped. A timer that is set is not lost. What was registered for a timer is released when its resource is dropped, for a detached timeout when it has fired.",
  "all programs that set and drop timers, also from inside of their functions, all times that pass and all orders in which the browser fires timers that are due",
  "All interleavings of setting, dropping and firing; ids of callbacks and ids of timers are two number spaces kept on two sides.",
  [V+"driver_module/api/api_import.rs:interval_set", V+"driver_module/api/api_import.rs:timeout_set", V+"driver_module/api/api_import.rs:set_timeout_and_detach", V+"driver_module/api/callbacks.rs:CallbackStore", T+"api_browser/interval.ts:Interval"])

p("The driver reports what its surroundings say",
  "get_random gives a number between its bounds, get_random_from an element of the list; utc_now and now are the time of the browser, elapsed the time between; timezone_offset is the offset in seconds; get_env gives in the browser, from the page the server has sent, the value that it gives on the server.",
  "all browsers, bounds, lists, times, zones, and all environments, documents and styles of the page",
  "All values and all environments; numbers cross the boundary in one of several formats that depend on their size, and variables travel as attributes of the page.",
  [V+"driver_module/api/api_import.rs:get_random", V+"driver_module/api/api_import.rs:utc_now", V+"driver_module/api/api_import.rs:timezone_offset", V+"driver_module/api/api_import.rs:get_env", V+"driver_module/driver.rs:get_random_from", V+"instant.rs:Instant", T+"api_browser.ts:ApiBrowser", S+"html/html_response.rs", S+"request_state.rs"])

p("Event handlers are called with what happened while their element exists",
  "A handler of an element (on_click, on_mouse_down, on_mouse_up, on_mouse_enter, on_mouse_leave, on_input, on_change, on_blur, on_key_down, hook_key_down, on_dropfile, on_load) is called once for each event of its type that reaches the element, or the document for hook_key_down, in the order in which the handlers were added and with the text, key or files of the event. The function called is the current one if it was given as a computed. What on_mouse_down, on_mouse_up and the handlers for keys answer decides whether the default is prevented and, for keys, whether the event goes on. A handler is not called after its element was dropped, not even by the event that caused the drop.",
  "all programs, including handlers that create and drop elements, all histories of events, transactions and files, all events",
  "All interleavings; listeners are kept by callback id in the browser and in Rust, commands are sorted and sent later, and data crosses the boundary as bytes.",
  [V+"dom/dom_element.rs:DomElement", V+"dom/callback.rs:Callback", V+"driver_module/api/callbacks.rs:CallbackStore", V+"driver_module/dom.rs:DriverDom", V+"dom/types.rs:KeyDownEvent", T+"api_browser/dom/dom.ts:callback_add"])

p("Links are followed inside of the application",
  "A click on a link (an element a) to another place of the application changes the location without leaving the page, scrolls to the top, and every observed router then shows the route of the new location. Links to other sites, links with other schemes, links to parts of the page and links that are to be opened elsewhere are left to the browser.",
  "all values of href, all locations and histories of navigation, all routers",
  "All strings; what a link is decided from is its text, what the browser makes of it follows the grammar of URLs.",
  [T+"api_browser/dom/dom.ts:create_node", T+"api_browser/historyLocation.ts:HistoryLocation", V+"router.rs:Router"])

p("The page that the server sends shows the application",
  "When the program has nothing left to wait for, the server answers with HTML; and what a browser reads of it, before any program runs, is the document the application shows in its last state: its elements with their attributes, its texts, in order, inside of the body, followed by the element that loads the program.",
  "all views, all histories until the page is finished, all ways in which the commands are divided into batches, all environments, all texts and attribute values that HTML can hold",
  "Every part on the way (sorting, JSON, the tree on the server, escaping, formatting) must keep every document; tests look at single pages.",
  [S+"server_state.rs", S+"html/html_response.rs", S+"html/element.rs:AllElements", S+"html/html_element.rs", S+"html/dom_command.rs", V+"driver_module/dom.rs:DriverDom", V+"render/dom_list.rs:render_list", V+"render/dom_value.rs:render_value_option", V+"dom/dom_element.rs:DomElement"])

p("The program takes over the page that the server sent",
  "When the program starts in the browser, what the page had in its head and body is replaced by the application: after the first update nothing of it is left, and from then on the page is what it would be if the program had started on an empty page. Attributes of html, head and body that the program does not set stay as they were.",
  "all pages, all streams of commands that can be executed and all ways in which they are divided into batches, all views, states and histories",
  "All pages and histories; old nodes are removed after new ones were put among them, and only once.",
  [T+"api_browser/dom/dom.ts:dom_bulk_update", T+"api_browser/dom/dom.ts:get_to_clear", T+"api_browser/dom/map_nodes.ts:MapNodes", V+"driver_module/dom.rs:DriverDom"])

p("Every request is sent as it was built and its caller gets the answer",
  "Each request that a program makes is sent once, in order, with the method, address, headers and body it was built with and a content type for the body if the program gave none. The code that awaits it goes on with the outcome of that request: its status and body, decoded by content type, or an error. No request is answered twice, no answer is lost however requests and answers interleave, and the start and stop notifications count the requests that have no outcome yet. While a page is rendered on the server the same is sent and received.",
  "all requests, all responses, all interleavings of requests, outcomes, wake-ups and futures that are given up",
  "All interleavings; a request crosses the boundary as bytes, its answer comes back to a callback id, a future and a timer.",
  [V+"fetch/request_builder.rs:RequestBuilder", V+"driver_module/api/api_import.rs:fetch", V+"driver_module/api/callbacks.rs:register_once", V+"future_box.rs:FutureBox", V+"driver_module/utils/futures_spawn.rs:Task", T+"api_browser/fetch.ts:Fetch", S+"html/send_request.rs:send_request", S+"wasm/wasm_instance.rs:send_fetch_response"])

p("The block written in css! is the css in the document",
  "A css! block of declarations, selectors, animations and media queries, written with any white space and with comments, gives the css that was written: comments are left out, each expression in braces is replaced by its value and each reference to another Css by its class, and everything else is kept. Added to the document it gives exactly the rules of the block: the declarations of the class, each selector with its declarations, the keyframes and the media queries.",
  "all blocks, all white space and comments between their parts, all values of the expressions, all classes",
  "The grammar, the escaping of brackets, the names of parameters and the textual replacements interact for every block; tests fix a few blocks.",
  ["crates/vertigo-macro/src/css_parser.rs:CssParser", "crates/vertigo-macro/src/css.pest:css_block", "crates/vertigo-macro/src/lib.rs:css", V+"css/transform_css"])

p("What is written in dom! is what is built",
  "Markup in dom! is accepted exactly if every element, attribute and child in it can be translated; the generated code builds the elements that are written, with their attributes, event listeners, styles and children in the order in which they are written, mounts components with the properties that are given, embeds values as texts that follow them, and the document shows this markup with the values of the current state.",
  "all markup of any depth, all meanings of the expressions in it, all states and histories",
  "The translation is a recursion over markup of any shape with many special cases (names of events, short forms, references, spread lists); tests fix a few snippets.",
  ["crates/vertigo-macro/src/html_parser.rs:dom_inner", "crates/vertigo-macro/src/html_parser.rs:convert_node", "crates/vertigo-macro/src/html_parser.rs:convert_to_component", V+"dom/dom_element.rs:DomElement", V+"dom/attr_value.rs:AttrValue", V+"dom_macro/dom.rs:EmbedDom"])

p("Watch: every edit is built and shown",
  "While `vertigo watch` runs, every edit of a source that is not below an excluded directory is built, and nothing else causes a build; when everything has settled the reported status is the outcome of the newest build and this build is served; a stream of events ends with the current status and repeats nothing; an open page is reloaded exactly when it is told a version for the second time, and in the end shows the newest build without a message over it.",
  "all schedules of edits, notifications, builds, server starts and page events, for any number of edits and pages",
  "The watcher, the loop, aborted but still running builds, the check of the server and the streams of the pages interleave freely; no test controls these schedules.",
  ["crates/vertigo-cli/src/watch/watch_run.rs:run", "crates/vertigo-cli/src/watch/watch_run.rs:build_and_watch", "crates/vertigo-cli/src/watch/sse.rs:MyStream", S+"watch.js:start_watch", S+"serve_run.rs:run"])

p("Static files: names follow content, urls are served",
  "`vertigo build` and `include_static!` give every file a name from which its old name and the checksum of its content can be read; versions that differ within eight bytes get different names; a build succeeds exactly if the code compiles and every included file has an extension; after a successful build the urls in index.json and every url `include_static!` ever gave out for this public path are answered with the very files, and nothing else is served; one url never stands for two contents with different checksums.",
  "all byte strings, all file names, all sequences of successful and failed builds and all sets of macro invocations expanded in each",
  "The claims are about all contents of files and all histories of incremental builds; a test checks two texts and one build.",
  ["crates/vertigo-cli/src/build/wasm_path.rs:save_with_hash", "crates/vertigo-cli/src/build/wasm_path.rs:get_hash", "crates/vertigo-cli/src/build/build_run.rs:run_with_ws", "crates/vertigo-macro/src/include_static.rs:bundle_file", S+"serve_run.rs:run", S+"mount_path.rs:MountPathConfig"])

p("The document has the current classes and styles",
  "For every view whose elements have a `class` and `css`, both depending on the state, and every sequence of transactions: no call panics, the browser executes all commands, and then every element has the class that is written together with the classes of its css in the current state (no class and the empty class are the same), every other attribute is the one of the state, the page has the rules of each css text that was used exactly once, and no class or animation name belongs to two texts. The same holds for sorted batches and for a page that came from the server.",
  "all views, all functions from the state to classes and css values, all histories of transactions with the changed subscriptions in any order, all ways to cut the commands into batches, all pages from the server",
  "The class of an element is merged from two sources that change independently, and class names come from a table that all elements share; a test follows one element.",
  [V+"dom/dom_element_class.rs:DomElementClassMerge", V+"dom/dom_element.rs:DomElement", V+"css/css_manager.rs:CssManager", V+"driver_module/dom.rs:DriverDom"])

p("The page that the server sends has the classes and styles",
  "For every view whose elements have a `class` and `css`, and every history of the program on the server that ends with nothing to wait for: the response is HTML, and a browser reads from it the view in the last state inside of the body, where every element has its class together with the classes of its css; in front of it there is one `style` element for each rule of the css texts that were used, each text once and each class for one text only; behind it is the element that loads the program. An element may be without a class in some states.",
  "all views, all functions from the state to classes and css values, all histories and batches, all environment variables and css texts (that can be written)",
  "The page goes through the class merge, the css manager, command sorting, JSON, the server's document, the HTML writer and the tokenizer of a browser; a test sees one page, or one of these steps.",
  [V+"dom/dom_element_class.rs:DomElementClassMerge", V+"css/css_manager.rs:CssManager", S+"html/html_response.rs:HtmlResponse", S+"html/dom_command.rs", V+"css/transform_css/mod.rs:transform_css"])

p("Nothing is left behind in the browser",
  "After every history of transactions the driver in the browser has exactly the nodes that are in the document: every node that was created and is not shown any more has been removed from its map and from the document, in whatever order values, lists and fragments were replaced, and however the commands were split into batches.",
  "all views, all histories, all orders in which subscriptions are run, all orders in which old list items are dropped, all ways to split the commands into batches",
  "A leak needs a particular sequence of changes (a nested value inside of a list item that is moved and replaced in the same transaction); a test shows the document, where a node that was left is not seen.",
  [V+"render/dom_value.rs", V+"render/dom_list.rs", V+"dom/dom_comment.rs", V+"dom/dom_element.rs:DomElement", V+"driver_module/dom_command.rs:sort_commands", T+"api_browser/dom/map_nodes.ts:MapNodes"])

p("The application answers its user",
  "In a running application every event that happens in the page is answered by the handlers that are written in the view, as it is at that moment, at the elements on the way of the event: each is called once, with the data of the event and in the current state, and before the event goes on the page shows the view in the new state. Handlers of elements that are not shown any more are never called; handlers that depend on the state are the current ones; no command throws an exception. After every history the listeners in the page are exactly the handlers of the view.",
  "all views (that are built in order), all programs, all histories of transactions and events, all paths of events, all orders in which subscriptions are run and old items are dropped",
  "A handler that removes the element whose handler comes next, or the list item that was clicked, changes the listeners while the event is on its way; a test clicks on one button in one state.",
  [V+"dom/dom_element.rs:DomElement", V+"dom/callback.rs:Callback", V+"driver_module/callbacks.rs:CallbackStore", V+"lib.rs:wasm_callback", V+"driver_module/dom.rs:DriverDom", T+"api_browser/dom/dom.ts:DriverDom", V+"driver_module/dom_command.rs:sort_commands"])

p("Every request is answered by the part of the server it belongs to",
  "With different prefixes for the files and for the proxies the server starts, whatever the order of the options is, and every path belongs to exactly one of them (the most special one) or to none. A path below the public path is answered with the file at the rest of the path; a path below a proxy is sent on to its target, with the rest of the path and the query, and the answer of the other server is the answer; every other path is answered by the application, for this path and query, and is not to be stored by browsers.",
  "all prefixes and targets, in any order, nested in any way; all paths, queries, methods, headers and bodies",
  "A test asks for some paths under one configuration; prefixes that begin alike (/api and /apiary), that are nested in each other, and paths that are exactly a prefix are easily missed.",
  [S+"serve_run.rs:run", S+"serve_run.rs:install_proxy", S+"serve_run.rs:handler", S+"serve_run.rs:get_response", S+"serve_run.rs:post_response", S+"serve_run.rs:set_cache_header", S+"serve_opts.rs:ServeOptsInner", S+"response_state.rs:ResponseState"])

p("bind! gives a closure its own clones of what it names",
  "bind! with any list of variables and fields, followed by a closure or a block, gives this closure or block unchanged; inside of it each name (that of the variable or of the last field) stands for a clone of the value that the path had where the closure was made, and all other names stand for what they stand for outside. bind_spawn! gives a function that runs the block this way whenever it is called; bind_rc! gives the closure of bind! with the types of its parameters in their order. Two captures with the same name are rejected.",
  "all lists of captures with paths of any length, all closures, parameters and blocks, all values",
  "A test compiles some uses of the macro; captures that depend on each other's names, long lists and all shapes of closures cannot be enumerated.",
  ["crates/vertigo-macro/src/bind.rs:bind_inner", "crates/vertigo-macro/src/bind.rs:bind_spawn_inner", "crates/vertigo-macro/src/bind.rs:bind_rc_inner", "crates/vertigo-macro/src/bind.rs:split_params_and_body", "crates/vertigo-macro/src/bind.rs:find_param_name", "crates/vertigo-macro/src/bind.rs:get_type"])

p("The page shows the current contents of the values",
  "An application is started, and then anything happens in it: values are created and set, inside and outside of transactions, computeds are created and read, subscribers are refreshed. Whenever no transaction is open and all subscribers have been refreshed, the page in the browser is what the views stand for with the contents that the values have at this time: texts, attributes, value parts and lists, at any depth. At no time is a subscription open that belongs to a node that is gone.",
  "all applications made of values, computeds whose conditional dependencies are private (nothing that depends on a computed reads on its own what that computed reads only sometimes) and views of C49; all histories of operations; all reachable states",
  "A test drives one application through one history; the page has to follow every sequence of changes, in which the parts that listen are created and destroyed by the changes themselves.",
  ["crates/vertigo/src/computed/dependencies/mod.rs:transaction", "crates/vertigo/src/computed/computed_box.rs:subscribe", "crates/vertigo/src/computed/graph_value.rs:GraphValue", "crates/vertigo/src/render/dom_value.rs:render_value_option", "crates/vertigo/src/render/dom_list.rs:render_list", "crates/vertigo/src/dom/dom_text.rs:new_computed", "crates/vertigo/src/dom/dom_element.rs:add_attr"])

p("Safe code never gets two references that exclude each other",
  "The state of the library is in cells that hand out references without a check. Whatever the closures, callbacks, futures, renderings and drops of a program in safe Rust call, at no moment is there a mutable reference to the contents of one of these cells together with another reference to them.",
  "all programs, all nestings of calls, closures and drops, all orders in which clients are refreshed, all moments of all executions",
  "References that exclude each other are undefined behaviour, which a test does not see; they depend on which code of the program runs inside of which call of the library, at any depth.",
  ["crates/vertigo/src/computed/struct_mut/inner_value.rs:InnerValue", "crates/vertigo/src/computed/struct_mut/value_mut.rs:ValueMut", "crates/vertigo/src/computed/value.rs:set", "crates/vertigo/src/computed/graph_value.rs:GraphValue", "crates/vertigo/src/render/dom_list.rs:render_list", "crates/vertigo/src/dom/dom_comment.rs:new_marker", "crates/vertigo/src/dom/dom_element_class.rs:set_suspense_attr", "crates/vertigo/src/driver_module/utils/futures_spawn.rs:run"])

p("A conversion fails exactly if the JSON does not fit, and says where and why",
  "Converting JSON to a type always ends. It gives a value exactly if the JSON has what the type expects (fields with a default may be missing or wrong; fields of no use are ignored). Otherwise the error message has the way from the whole JSON to a value inside of it that does not fit, and says what was expected there and what was found.",
  "all types built from the library's types and derived structs and enums, also recursive ones, all JSON values, all environments of definitions",
  "The place can be at any depth, below any nesting of lists, maps, structs, options and variants; tests have a few messages.",
  ["crates/vertigo/src/driver_module/js_value/serialize.rs:JsJsonContext", "crates/vertigo/src/driver_module/js_value/serialize.rs:from_json", "crates/vertigo/src/driver_module/js_value/js_json_struct.rs:get_property", "crates/vertigo-macro/src/jsjson/enums.rs", "crates/vertigo-macro/src/jsjson/structs.rs", "crates/vertigo-macro/src/jsjson/newtypes.rs", "crates/vertigo-macro/src/jsjson/tuple_fields.rs"])

p("JSON values are equal exactly if they have the same content, and then they hash alike",
  "Two JSON values compare as equal exactly if they have the same content (the order of the entries of objects does not matter, numbers are compared by their bits), this is an equivalence relation, and equal values give the same hash, so that they can be keys of maps and requests with equal bodies are recognized as equal.",
  "all JSON values, all orders in which their objects are iterated over",
  "The order of a hash map is random: a test with two maps passes or fails by chance, and nesting is unbounded.",
  ["crates/vertigo/src/driver_module/js_value/js_json_struct.rs:PartialEq for JsJson", "crates/vertigo/src/driver_module/js_value/js_json_struct.rs:Hash for JsJson"])

p("Rendering on the server, what the program and the server send each other arrives as sent",
  "While a page is rendered on the server, every argument of a callback, every command of the program, every answer of the server and every panic message arrives on the other side exactly as it was sent, once and in order; no memory handed over is left behind, and the server goes on whatever the program returns or reports.",
  "all sequences of calls, all programs and what they send, all answers, all allocators and contents of the memory",
  "The values cross through raw memory at addresses that the allocator chooses; a wrong size or a block that is freed or left shows up only with certain values, programs and allocation patterns.",
  ["crates/vertigo-cli/src/serve/wasm/data_context.rs:DataContext", "crates/vertigo-cli/src/serve/wasm/wasm_instance.rs:WasmInstance::wasm_callback", "crates/vertigo/src/driver_module/api/api_dom_access.rs:DomAccess::fetch", "crates/vertigo/src/driver_module/api/panic_message.rs:PanicMessage::show", "crates/vertigo/src/driver_module/api/arguments.rs:Arguments", "crates/vertigo/src/lib.rs:wasm_callback"])

p("What the program logs is shown, once, in order and with its text",
  "Every log message of level debug and above, and every panic message, is on the console of the browser (or in the log of the server, while a page is rendered there) exactly once, in order, under its level, with the place in the code and with the very text of the message whatever characters it contains; traces are not shown.",
  "all sequences of log messages and panics, all levels, texts, files and lines",
  "The console gives percent signs in the first argument a meaning; whether the text of a message is shown as it is depends on where such signs are, for every text.",
  ["crates/vertigo/src/driver_module/init_env.rs:WasmLogger", "crates/vertigo/src/driver_module/api/api_import.rs:ApiImport::console_info_4", "crates/vertigo/src/driver_module/api/panic_message.rs:PanicMessage::show", "crates/vertigo/src/driver_module/src_js/wasm_module.ts:panic_message", "crates/vertigo-cli/src/serve/wasm/wasm_instance.rs:import_dom_access", "crates/vertigo-cli/src/serve/wasm/decode_commands.rs:match_log"])

p("The program of a page is started once, when it has arrived",
  "However often and whenever the loader searches the page, the first program named in it is started exactly once, as soon as the browser has it (read as a stream or, if that fails, as a whole), and no other program is started; a page of the server names exactly one. The program makes its view once, reports a version mismatch exactly if the versions differ, and answers with plain text exactly if it is on a server and the handler of the application has an answer for the location.",
  "all histories of the load event, the timer and the answers of the browser, all documents, all versions, all handlers",
  "The load event, the timer and the arrival of the program come in any order, and a document may name any number of programs.",
  ["crates/vertigo/src/driver_module/src_js/index.ts:runModule", "crates/vertigo/src/driver_module/src_js/index.ts:findAndRunModule", "crates/vertigo/src/driver_module/src_js/wasm_init.ts:fetchModule", "crates/vertigo-macro/src/main_wrap.rs:main_wrap", "crates/vertigo/src/lib.rs:start_app", "crates/vertigo/src/driver_module/driver.rs:Driver::try_get_plain"])

p("vertigo new leaves alone what is there",
  "`vertigo new` never changes or removes anything that was there before, at whatever point it fails or is killed; what it adds is in the directory of the new project or is a directory on the way to it. If there is something in that directory it does nothing and fails. If it reports success, the directory has exactly the files of a new project with its name in the manifest.",
  "all file systems, package names and destinations, all failures of steps and points of interruption",
  "Failures and interruptions can come between any two steps, and what must not be lost is whatever the user happens to have there.",
  ["crates/vertigo-cli/src/new/mod.rs:run", "crates/vertigo-cli/src/new/template/Cargo.toml_", "crates/vertigo-cli/src/new/template/src/lib.rs"])

p("Dates and times survive JSON",
  "A date or a moment in UTC that is written as JSON and read again is the same date or moment, to the nanosecond and including leap seconds. What is read is exactly: the text of a date that exists (year, month and day joined by hyphens), and the text of a moment in the form of RFC 3339 with any offset; anything else is an error.",
  "all dates, all moments in UTC, all JSON values",
  "There are hundreds of millions of dates and billions of nanoseconds in each second; leap years, years outside of four digits and leap seconds are rarely sampled.",
  ["crates/vertigo/src/driver_module/js_value/serialize_chrono.rs:to_json", "crates/vertigo/src/driver_module/js_value/serialize_chrono.rs:from_json", "crates/vertigo/src/driver_module/js_value/serialize_chrono.rs:NAIVE_DATE_FORMAT"])

p("vertigo build publishes the program it has just compiled",
  "`vertigo build` builds the package that was asked for, or else the first member of the workspace with a library of kind cdylib; if there is none it fails and does nothing. If it succeeds, the program in the destination directory, to which index.json refers, is the one cargo has just compiled from that package (after wasm-opt, if that works). Files outside of the destination and of the target directories stay as they are.",
  "all workspaces, options, file systems, and results of the programs that are run",
  "What goes wrong depends on files that earlier builds have left and on where cargo is configured to write.",
  ["crates/vertigo-cli/src/build/build_run.rs:run_with_ws", "crates/vertigo-cli/src/build/cargo_workspace.rs:infer_package_name", "crates/vertigo-cli/src/build/find_target.rs:find_wasm_in_target", "crates/vertigo-cli/src/build/cargo_build.rs:run_cargo_build"])

p("window! and document! access what their literal says",
  "`window!(\"f()\", args)` calls the function `f` of the window with the values of the arguments, and `window!(\"p\")` reads its property `p`; both return the value that comes back, or undefined after an exception. `document!` does the same for the document. Other uses are rejected by the compiler. This holds for every string literal and all arguments: a literal stands for its value.",
  "all string literals of Rust, all arguments of the types that can be converted, all states of the browser",
  "The literal is taken as source text; tests use plain names.",
  ["crates/vertigo-macro/src/api_access.rs:api_access_inner", "crates/vertigo-macro/src/lib.rs:window", "crates/vertigo/src/driver_module/js_value/js_value_struct.rs:impl_from"])

p("Blocks of memory are safe to use",
  "Whatever a program does with the safe functions of `MemoryBlock` and `JsValue`, it never touches memory outside of its blocks, never uses memory that was given back, and never gives memory back twice. A write changes the bytes of its block only, a read returns what was written there; what does not fit is a panic. When everything is dropped, all the memory has been given back.",
  "all programs: sequences of new, from_slice, to_snapshot, write, convert_to_vec, reads and drops on any number of variables, all sizes and offsets, failing allocations",
  "Undefined behaviour is not visible to a test, and there are unboundedly many programs.",
  ["crates/vertigo/src/driver_module/js_value/memory_block.rs:MemoryBlock", "crates/vertigo/src/driver_module/js_value/memory_block_write.rs:MemoryBlockWrite", "crates/vertigo/src/driver_module/js_value/memory_block_read.rs:MemoryBlockRead"])

p("The memory of spawned tasks is safe, and given back",
  "Whatever the futures of spawned tasks and their wakers are used for, in any order, the memory of a task is never used after it was given back and never given back twice. A future is dropped when it is ready, once, and never polled afterwards. The memory of a task is given back when its future is ready and all its wakers and timers are gone, and also when nothing can wake it any more.",
  "all histories: any number of tasks, any actions on wakers in polls, in drops of futures and outside, any order of timers",
  "Errors in counting references show up as rare corruption of memory, and only for some orders of clones, wakes and drops.",
  ["crates/vertigo/src/driver_module/utils/futures_spawn.rs:Task", "crates/vertigo/src/driver_module/api/api_import.rs:set_timeout_and_detach"])

p("Closures of computeds are run only when they have to be",
  "The closure of a Computed is not run when the Computed is created or when Values are set, but only when user code reads or observes it, directly or through other computeds. It is run again only if a Value was set that it depends on, going by what the closures have read, or if nobody read the Computed any more in the meantime. One read runs each closure at most once.",
  "all programs (creation, reads, sets, transactions, subscriptions, drops, callbacks) and all dependency graphs, with reads that depend on data",
  "Whether a closure runs once too often depends on the whole history of reads and releases, and a superfluous run is invisible in the results.",
  ["crates/vertigo/src/computed/graph_value.rs:GraphValue::get_value", "crates/vertigo/src/computed/dependencies/mod.rs:Dependencies::report_set", "crates/vertigo/src/computed/dependencies/graph.rs:Graph::push_context"])

p("A websocket resource delivers every message and reconnects",
  "While a websocket resource lives, the application is told of each successful connection, gets every text that arrives on it exactly once and in order, and is told of its end. After a failed attempt and after the end of a connection exactly one new attempt is made when the delay is over. A text is sent exactly if the application knows of a connection, on the socket of this connection. Each message reaches the listeners of a connection in the order of their subscription, even if some of them throw, subscribe or unsubscribe meanwhile.",
  "all schedules of the events of all sockets, the timers and the application, and all behaviours of the listeners",
  "The events of old sockets, timers and drops can interleave in unboundedly many ways, and a lost or doubled message shows only in some of them.",
  ["crates/vertigo/src/driver_module/src_js/api_browser/websocket/connection.ts:SocketConnection", "crates/vertigo/src/driver_module/src_js/api_browser/websocket/websocket.ts:DriverWebsocket", "crates/vertigo/src/driver_module/src_js/api_browser/websocket/event_emiter.ts:EventEmitter", "crates/vertigo/src/driver_module/api/api_import.rs:websocket"])

p("A component in dom! is a call of the function",
  "A function with #[component] can be used in dom! exactly where the function could be called, with exactly the properties that are its parameters, each once and in any order; otherwise it is not compiled. The properties are evaluated in the order in which they are written, then the block of the function runs once and sees for each parameter the value of the property with its name; the node is its value, converted. Exactly the functions without return type whose parameters are plain names become components.",
  "all functions, all modules, all lists of properties, all blocks and all worlds in which they run",
  "A test can only use a few components; the macro must bind every parameter of every signature.",
  ["crates/vertigo-macro/src/component.rs:component_inner", "crates/vertigo-macro/src/html_parser.rs:convert_to_component"])

p("A derived computed is never torn",
  "A computed made with map, to_computed or computed_tuple! is at every read, and at every call of a subscription, the function of the values that all its sources have at this moment, computed from the same contents of the values, also inside of a transaction. The arguments of computed_tuple! are bound together: a name never hides what another argument means. It is compiled exactly if all arguments are names or all are name => expression, no name is used twice and each stands for a node.",
  "all programs, all nestings of derived computeds, all transactions and subscriptions, all arguments of the macro",
  "A torn pair shows only for some orders of writes, reads and releases of the links.",
  ["crates/vertigo/src/computed/mod.rs:computed_tuple", "crates/vertigo/src/computed/value.rs:map", "crates/vertigo/src/computed/value.rs:to_computed", "crates/vertigo/src/computed/computed_box.rs:map"])

p("Values, computeds and subscriptions are freed exactly when nothing leads to them",
  "A value, a computed or a subscription exists, and computeds and subscriptions are refreshed, as long as a variable of the application leads to it: a handle, the resource of a subscription, a closure of such a node that captures it, or what the callback of a subscription returned last. As soon as nothing leads to it, it is freed, once; what a callback returned before is freed when it is called again. When the application has dropped everything, nothing is left.",
  "all histories of creations, clones, drops, subscriptions, refreshes and nested callbacks",
  "A leak or an early release shows only after particular sequences of clones, drops and nested callbacks.",
  ["crates/vertigo/src/computed/value.rs:with_connect", "crates/vertigo/src/computed/computed_box.rs:subscribe", "crates/vertigo/src/computed/graph_value.rs:drop", "crates/vertigo/src/computed/dependencies/external_connections.rs", "crates/vertigo/src/computed/dependencies/refresh.rs"])

p("A panic in one callback leaves the rest of the application working",
  "If a callback panics, what it was to do may be lost, but the application goes on: later events, timers and answers are handled, the subscribers that depend on what they set are called, and the changes are shown.",
  "all sequences of calls of the browser, all callbacks, all places of panics in callbacks and subscribers",
  "What is left behind by a panic depends on where it happens, and shows only in the calls after it.",
  ["crates/vertigo/src/lib.rs:wasm_callback", "crates/vertigo/src/computed/dependencies/mod.rs:transaction", "crates/vertigo/src/computed/dependencies/transaction_state.rs", "crates/vertigo/src/computed/struct_mut/value_mut.rs:move_to_void"])

p("Events in the middle of an update do not disturb the update",
  "If the browser reports an event while an update of the page is carried out (the focused element is taken away), its handler runs at once and the page it changes is sent at once. The page afterwards is the one that results from carrying out the first update completely, then that of the handler.",
  "all histories and batches, all places where events are reported, all handlers, any nesting of events in events",
  "Which command makes a browser report an event depends on the browser and on the focus; nested updates are not reached by tests without a browser.",
  ["crates/vertigo/src/driver_module/dom.rs:flush_dom_changes_inner", "crates/vertigo/src/driver_module/driver.rs:new", "crates/vertigo/src/driver_module/src_js/api_browser/dom/dom.ts:dom_bulk_update", "crates/vertigo/src/driver_module/dom_command.rs:sort_commands", "crates/vertigo/src/computed/dependencies/mod.rs:transaction"])

p("Fields show the values of the program",
  "An input, text area, select or check box whose value comes from the state of the program shows this value, whatever the user enters and whatever the program does. Entering text in a field bound to a value is not disturbed: text and cursor stay as they are.",
  "all views with fields, all programs, all histories of what the user enters and of other callbacks",
  "What a field shows depends on its history in the browser (an attribute is ignored once the user has changed the field), not on its attributes, which is all that tests of commands see.",
  ["crates/vertigo/src/driver_module/src_js/api_browser/dom/dom.ts:set_attribute", "crates/vertigo/src/driver_module/src_js/api_browser/dom/dom.ts:remove_attribute", "crates/vertigo/src/driver_module/src_js/api_browser/dom/dom.ts:callback_input", "crates/vertigo/src/driver_module/src_js/api_browser/dom/dom.ts:callback_change", "crates/vertigo/src/dom/dom_element.rs:add_attr", "crates/vertigo/src/computed/computed_box.rs:subscribe"])

p("A change of a list does not disturb the user in its items",
  "When a list that is shown changes, the items that stay in it are left alone: the user keeps the focus in them (and with it what they are typing), as long as the item stays in the list. No node is moved more than once, and what is outside of the list is never disturbed.",
  "all lists, all changes and histories of changes, all items with the focus",
  "The order of the nodes, which tests look at, is right whether a node stayed in place or was taken out and put back.",
  ["crates/vertigo/src/render/dom_list.rs:render_list", "crates/vertigo/src/render/dom_list.rs:reorder_nodes", "crates/vertigo/src/driver_module/src_js/api_browser/dom/dom.ts:insert_before"])

out = pathlib.Path(__file__).resolve().parent.parent/"properties.jsonl"
out.write_text("".join(json.dumps(x, ensure_ascii=False)+"\n" for x in P))
for x in P: print(x["id"], x["title"])

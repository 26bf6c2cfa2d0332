/-!
# C71 Cells: no two references at the same time

The state of vertigo is in cells (`struct_mut`) that hand out `&T` and `&mut T` without any check (inner_value.rs:16-22: two lines of
`unsafe`). Rust's rule for references is then a property of the library: while a `&mut` to the contents of a cell is in use there is no other
reference to them. Closures, `Drop`, `Clone` and `PartialEq` of the program may run while a reference is in use, and may call the library
again.

The specification is `sound`. The model says for each function of the library which cells it uses, in which order, and where code of the
program can run (`Act.code`). What that code does is not known: any sequence of calls of the library (`Api`), which may again run code of the
program. Simplifications: the contents of cells are left out, so what is not decided by the contents is left open (which computeds are
cleared, whether a cache is filled, which subscribers are refreshed, which nodes of a list are placed again: all possibilities are allowed);
an execution can end anywhere (panics, and every moment of an execution that has not ended).
-/
namespace Verif.Cells

/-! ## The specification -/

inductive Mode where
  | read | write
  deriving DecidableEq, Repr

/-- The cells of the library. Clients are subscriptions; the numbers say which value, computed, client and so on the cell belongs to. -/
inductive Cell where
  /-- `ValueInner::value` (computed/value.rs:16) -/
  | value (v : Nat)
  /-- `GraphValue::state` of a computed (computed/graph_value.rs:8) -/
  | cache (c : Nat)
  /-- `GraphValue::state` of a client: `()` -/
  | done (g : Nat)
  /-- `prev_value` of `subscribe` (computed/computed_box.rs:102) -/
  | seen (g : Nat)
  /-- `resource_box` of `subscribe` and `subscribe_all` (computed/computed_box.rs:104, 129) -/
  | resource (g : Nat)
  /-- `current_node` (render/dom_value.rs:12) and `current_list` (render/dom_list.rs:47) -/
  | slot (g : Nat)
  /-- `current` of `Callback` and `Callback1` (dom/callback.rs:35, 87) -/
  | handler (g : Nat)
  /-- `current_client` of a marker (dom/dom_comment.rs:38) -/
  | mounted (m : Nat)
  /-- `Task::inner` (driver_module/utils/futures_spawn.rs:24) -/
  | task (t : Nat)
  /-- `DomElementClassMerge::inner` (dom/dom_element_class.rs:75) -/
  | merge (e : Nat)
  /-- `drop_box` of a detached timer, `drop_value` of a callback registered once (api_import.rs:251, callbacks.rs:102) -/
  | box
  /-- `AutoMap::values` (computed/auto_map.rs:29) -/
  | map (a : Nat)
  /-- `DomSuspense::inner` (dom_suspense_mod.rs:102) -/
  | suspense
  /-- `TransactionState::state` (transaction_state.rs:23) -/
  | tx
  /-- `Refresh::refresh` (refresh.rs:6) -/
  | refresh
  /-- `GraphConnections::inner` (graph_connections.rs:183) -/
  | connections
  /-- `ExternalConnections::connect` (external_connections.rs:7) -/
  | connect
  /-- `ExternalConnections::connected_resource` (external_connections.rs:8) -/
  | connected
  /-- `Context::parent_ids` (context.rs:7) -/
  | reads
  /-- `DriverDom::node_parent_callback` (dom.rs:140) -/
  | parents
  /-- `Commands::commands` and `log_vec` (dom.rs:58-61) -/
  | commands
  /-- `CallbackStore::data` (callbacks.rs:40) -/
  | callbacks
  /-- `EventEmitter::list` (event_emitter.rs:11) -/
  | emitter
  /-- `CssManagerInner::ids_static`, `ids_dynamic` and `NextId::counter` (css_manager.rs:16-18) -/
  | css
  /-- cells of bool, numbers, blocks and lists that are only pushed to: `Commands::state`, `EventEmitter::counter`, `LazyCache::queued`,
  `Arguments::blocks`, `DomElement::child_node` and `subscriptions` -/
  | other
  /-- `DriverConstruct::subscription` (lib.rs:353) -/
  | root
  /-- a cell of the program: `vertigo::struct_mut` is public (lib.rs:118-121) -/
  | own (n : Nat)
  deriving DecidableEq, Repr

/-- A reference is made, or the last one made is not used any more. -/
inductive Ev where
  | take (c : Cell) (m : Mode)
  | give
  deriving DecidableEq, Repr

/-- With the references `held` in use: no reference is made to a cell for which there is one, unless both only read. -/
def sound : List (Cell × Mode) → List Ev → Prop
  | _, [] => True
  | held, .take c m :: t => (∀ h ∈ held, h.1 = c → h.2 = .read ∧ m = .read) ∧ sound ((c, m) :: held) t
  | held, .give :: t => sound held.tail t

/-- The same for some of the cells only. -/
def soundFor (S : Cell → Prop) : List (Cell × Mode) → List Ev → Prop
  | _, [] => True
  | held, .take c m :: t => (S c → ∀ h ∈ held, h.1 = c → h.2 = .read ∧ m = .read) ∧ soundFor S ((c, m) :: held) t
  | held, .give :: t => soundFor S held.tail t

/-! ## The library -/

/-- What a subscription is for. -/
inductive Kind where
  /-- `Computed::subscribe` with a callback of the program -/
  | plain
  /-- `Computed::subscribe_all` -/
  | all
  /-- the function of an event listener that is computed -/
  | handler
  /-- an attribute or the text of an element or text node -/
  | attr (e : Nat)
  /-- `render_value_option` -/
  | value
  /-- `render_list` -/
  | list
  deriving DecidableEq, Repr

/-- What a marker is for. -/
inductive Marker where
  | value | list | fragment
  deriving DecidableEq, Repr

/-- A part of a function of the library. -/
inductive Act where
  /-- a reference to the contents of the cell is in use during the acts -/
  | hold (c : Cell) (m : Mode) (acts : List Act)
  /-- code of the program: any calls of the library -/
  | code
  /-- some values are dropped, with contents that do not call the library -/
  | shed
  /-- callbacks of suspense are called -/
  | layers
  /-- the acts are done or not, depending on the contents of a cell -/
  | opt (acts : List Act)
  /-- the caches of some computeds are cleared -/
  | clears
  /-- some nodes become active or inactive -/
  | edges
  /-- `Dependencies::transaction` -/
  | transaction (acts : List Act)
  /-- clients are refreshed -/
  | refreshes
  /-- a client is made and run for the first time -/
  | first (k : Kind)
  /-- a client is dropped -/
  | drop (g : Nat)
  /-- a marker is made -/
  | mark
  /-- a marker that has not been placed is placed -/
  | place (m : Nat) (k : Marker)
  /-- code of the program, and old nodes of a list or fragment are placed again -/
  | rework
  /-- a task is made -/
  | spawn

/-- A reference is made and nothing of the program or the library is called while it is in use. -/
abbrev use (c : Cell) (m : Mode) : Act := .hold c m []

/-- What `Clone`, `PartialEq`, `Hash` and `Drop` of a type of the program do: no calls of the library; values are dropped, as when a value
contains values (value.rs:20-27); any calls. -/
inductive Manners where
  | silent | sheds | any
  deriving DecidableEq, Repr

/-- What the program is like: what the types do that it puts into values, computeds and maps, and the functions in handlers
that are computed; whether it uses the suspense
attribute, the cells in `struct_mut`, and `start_app` more than once. -/
structure Habits where
  value : Nat → Manners
  computed : Nat → Manners
  handler : Nat → Manners
  map : Nat → Manners
  suspense : Bool
  cells : Bool
  restart : Bool

/-- The cells for which the rule of references will be shown. -/
def Habits.guards (P : Habits) : Cell → Prop
  | .value v => P.value v ≠ .any
  | .cache c => P.computed c ≠ .any
  | .handler g => P.handler g ≠ .any
  | .map a => P.map a ≠ .any
  | .suspense | .merge _ => P.suspense = false
  | .own _ => P.cells = false
  | .root => P.restart = false
  | _ => True

/-- A program that does nothing unusual. -/
structure Habits.Plain (P : Habits) : Prop where
  value : ∀ v, P.value v ≠ .any
  computed : ∀ c, P.computed c ≠ .any
  handler : ∀ g, P.handler g ≠ .any
  map : ∀ a, P.map a ≠ .any
  suspense : P.suspense = false
  cells : P.cells = false
  restart : P.restart = false

/-- A reference to something of a type of the program, which is cloned, compared or dropped while it is in use (value_mut.rs:15-17, 46-60:
an assignment through a reference drops the old contents in place). -/
def touch (a : Manners) (c : Cell) (m : Mode) : Act :=
  .hold c m (match a with | .silent => [] | .sheds => [.shed] | .any => [.code])

/-- The state of suspense is changed (dom_suspense_mod.rs:29-67, 112-124): callbacks are called meanwhile. -/
def suspend (P : Habits) : Act := .hold .suspense .write (if P.suspense then [.layers] else [])

/-- `Dependencies::report_set` (dependencies/mod.rs:64-82). `get_all_deps` uses `change` (graph_connections.rs:203). -/
def reportSet : List Act := [use .connections .write, .clears, use .tx .write]

/-- `Refresh::clear_cache` of a computed (refresh.rs:45-49, graph_value.rs:33-41). -/
def clearCache (P : Habits) (c : Nat) : List Act := [use .refresh .read, touch (P.computed c) (.cache c) .write]

/-- One node of the list of edges in `Graph::set_parent_for_client` (graph.rs:44-62, external_connections.rs:27-40): a value is connected, a
value is disconnected, a computed is released, a client is released. What is replaced or removed in the map of resources is dropped after the
map was used. -/
inductive Edge where
  | connect | disconnect | computed (c : Nat) | client (g : Nat)

def edge (P : Habits) : Edge → List Act
  | .connect => [use .connected .read, use .connect .read, .code, use .connected .write, .code]
  | .disconnect => [use .connected .write, .code]
  | .computed c => clearCache P c
  | .client g => [use .refresh .read, use (.done g) .write]

/-- `Graph::set_parent_for_client` and `push_context` (graph.rs:30-63). -/
def setParents : List Act := [use .connections .write, .edges]

/-- `GraphValue::get_value` and `calculate_new_value` of a computed (graph_value.rs:50-77): the closure runs while no reference is in use. -/
def computedGet (P : Habits) (c : Nat) : List Act :=
  [use .reads .write, touch (P.computed c) (.cache c) .read, .opt (.code :: setParents ++ [touch (P.computed c) (.cache c) .write])]

/-- `refresh_dom` (dom_element_class.rs:55-70), called inside of `change`: class names, commands. -/
def merge (e : Nat) : Act := .hold (.merge e) .write [use .css .read, use .css .write, use .commands .write]

/-- The closure of a client (`get_value` in graph_value.rs:52). The computed is read first (`Act.code`: its closures are code of the program).
`again`: not for the first time. -/
def run (P : Habits) (again : Bool) (g : Nat) : Kind → List Act
  /- computed_box.rs:106-118: the callback runs while no reference is in use; the old resource is dropped in place -/
  | .plain => [.code, .hold (.seen g) .write [.code], .opt [.code, .hold (.resource g) .write [.code]]]
  /- computed_box.rs:131-138 -/
  | .all => [.code, .code, .hold (.resource g) .write [.code]]
  /- callback.rs:37-39: `current.set` drops the old function in place -/
  | .handler => [.code, if again then touch (P.handler g) (.handler g) .write else use (.handler g) .write, use (.resource g) .write]
  /- dom_element.rs:51-59, dom_element_class.rs:87-106, 136-160, dom_text.rs -/
  | .attr e => [.code, .hold (.seen g) .write [.code], .opt [use (.merge e) .read, merge e, use .commands .write],
      use (.resource g) .write]
  /- dom_value.rs:17-31: the new node is rendered and placed, then the old one is dropped in place -/
  | .value => [.code, .hold (.seen g) .write [.code], .opt [.code, .hold (.slot g) .write [.code]], use (.resource g) .write]
  /- dom_list.rs:54-75: `change` calls `reorder_nodes`, with keys, rendering, comparison of items and drops of old nodes -/
  | .list => [.code, .hold (.seen g) .write [.code], .opt [.hold (.slot g) .write [if again then .rework else .code]],
      use (.resource g) .write]

/-- `GraphValue::new` and `get_value` of a client (graph_value.rs:11-77). -/
def firstRun (P : Habits) (g : Nat) (k : Kind) : List Act :=
  [use .refresh .write, use .reads .write, use (.done g) .read] ++ run P false g k ++ setParents ++ [use (.done g) .write]

/-- `GraphValue::refresh` (graph_value.rs:79-85), through the table of refresh functions (refresh.rs:41-49). At the end the client may be
dropped, if the last owner let go of it meanwhile. -/
def nextRun (P : Habits) (g : Nat) (k : Kind) : List Act :=
  [use .refresh .read, use (.done g) .read] ++ run P true g k ++ setParents ++ [use (.done g) .write, .code]

/-- The callback of a marker (dom_value.rs:11-32, dom_list.rs:46-76, dom_comment.rs:75-89). -/
def mountBody (again : Bool) : Marker → List Act
  | .value => [.first .value]
  | .list => [.first .list]
  | .fragment => [if again then .rework else .code]

/-- `DriverDom::insert_before` of a marker (dom.rs:223-235) and `when_mount` (dom_comment.rs:40-46). The first time there is nothing in the
cell, later what is in it is dropped in place. -/
def insert (P : Habits) (again : Bool) (m : Nat) (k : Marker) : List Act :=
  [use .commands .write, use .parents .read] ++ mountBody again k ++
    [.hold (.mounted m) .write (if again then [.code] else []), suspend P]

/-- The functions that a program can call. -/
inductive Api where
  | get (v : Nat) | set (v : Nat) | setCompare (v : Nat) | change (v : Nat)
  | transaction
  | computed (c : Nat)
  | subscribe (k : Kind)
  | unsubscribe (g : Nat)
  | forget
  | off
  | marker
  | add (m : Nat) (k : Marker)
  | remove
  | suspend
  | attr (e : Nat)
  | suspense (e : Nat)
  | emit
  | autoMap (a : Nat)
  | spawn
  | wake
  | handler (g : Nat)
  /-- a call into the browser, which may call listeners before it returns -/
  | browser
  /-- functions that only use one of the other tables -/
  | plain (c : Cell) (m : Mode)
  | cell (n : Nat)
  | restart

/-- Cells that are never in use while code of the program runs, in the usual program. -/
def Cell.quiet : Cell → Bool
  | .seen _ | .resource _ | .slot _ | .mounted _ | .task _ | .merge _ | .box | .own _ | .root => false
  | _ => true

/-- Which functions the program may call. -/
def Api.allowed (P : Habits) : Api → Bool
  | .suspense _ => P.suspense
  | .cell _ => P.cells
  | .restart => P.restart
  | .plain c _ => c.quiet
  | _ => true

def api (P : Habits) : Api → List Act
  /- value.rs:113-116 -/
  | .get v => [use .reads .write, touch (P.value v) (.value v) .read]
  /- value.rs:106-111 -/
  | .set v => [.transaction (touch (P.value v) (.value v) .write :: reportSet)]
  /- value.rs:160-168 -/
  | .setCompare v => [.transaction [touch (P.value v) (.value v) .write, .opt reportSet]]
  /- value.rs:118-124 -/
  | .change v => [.transaction [use .reads .write, touch (P.value v) (.value v) .read, .code,
      .transaction (touch (P.value v) (.value v) .write :: reportSet)]]
  /- lib.rs:409-411 -/
  | .transaction => [.transaction [.code]]
  | .computed c => computedGet P c
  | .subscribe k => [.first k]
  /- graph_value.rs:92-98, then the closure and what is in its cells is dropped -/
  | .unsubscribe g => [use .refresh .write] ++ setParents ++ [.drop g, .code]
  /- value.rs:20-27: a value is dropped -/
  | .forget => [use .connect .write, .code]
  /- callbacks.rs:60-67, event_emitter.rs:29-34: a listener is dropped, after it has been removed from the table -/
  | .off => [use .callbacks .write, use .emitter .write, .code]
  /- dom_comment.rs:30-62 -/
  | .marker => [.mark, use .parents .write, use .commands .write, use .other .write]
  /- dom_element.rs:138-148 -/
  | .add m k => [.place m k, use .other .write]
  /- `Drop` of nodes: dom.rs:213-221, 250-254, 292-300, then what they own -/
  | .remove => [use .commands .write, suspend P, use .parents .write, .code]
  /- dom.rs: `create_node` of `<vertigo-suspense>`, `insert_before` of elements and texts -/
  | .suspend => [use .commands .write, suspend P]
  /- dom_element_class.rs:87-106 -/
  | .attr e => [use (.merge e) .read, merge e, use .commands .write]
  /- dom_element_class.rs:108-134 and dom_suspense_mod.rs:69-89, 127-137: the callback is called with the state of suspense and the class of
  the element in use; it calls the function of the program and uses the class of the element again -/
  | .suspense e => [.hold (.merge e) .write [.hold .suspense .write [.code, merge e, .layers], suspend P]]
  /- event_emitter.rs:37-48 -/
  | .emit => [use .emitter .read, .code]
  /- auto_map.rs:53-68; what is replaced in the map is dropped afterwards -/
  | .autoMap a => [touch (P.map a) (.map a) .read, .opt [.code, touch (P.map a) (.map a) .write, .code]]
  /- futures_spawn.rs:29-48, api_import.rs:250-264 -/
  | .spawn => [.spawn, use .callbacks .write, use .box .write]
  /- futures_spawn.rs:42-48 -/
  | .wake => [use .callbacks .write, use .box .write]
  /- callback.rs:41-49 -/
  | .handler g => [use (.handler g) .read, .code]
  /- lib.rs:458-480: `wasm_callback` -/
  | .browser => [use .other .write, .transaction [use .callbacks .read, .code], use .other .write]
  | .plain c m => [use c m]
  /- value_mut.rs:23-25 -/
  | .cell n => [.hold (.own n) .write [.code]]
  /- lib.rs:375-396, 366-368: the old root is dropped in place -/
  | .restart => [.code, use .emitter .read, .hold .root .write [.code], use .emitter .read, use .commands .write, .code]

/-- After a transaction: the hook sends the commands (dependencies/mod.rs:57-58, hook.rs, dom.rs:97-117); changes of the document can make the
browser call listeners (blur). -/
def after : List Act := [use .tx .write, use .emitter .read, use .other .read, use .commands .write, .code]

/-! ## Executions -/

structure St where
  /-- the depth of transactions -/
  level : Nat
  /-- clients are being refreshed (`State::Refreshing`) -/
  refreshing : Bool
  /-- the next client -/
  clients : Nat
  /-- clients that have been run and not been dropped: `refresh` does something for them only (graph_value.rs:79-85) -/
  ready : List (Nat × Kind)
  /-- the next marker -/
  markers : Nat
  /-- markers that have been made and not been placed: a node is moved into the element, list or fragment that places it -/
  unplaced : List Nat
  /-- the next task -/
  tasks : Nat

def St.init : St := ⟨0, false, 0, [], 0, [], 0⟩

/-- `Does P s acts t r`: from `s` the acts make the references `t`; `r` is the state at the end, or nothing if the execution has not come to
the end of the acts. -/
inductive Does (P : Habits) : St → List Act → List Ev → Option St → Prop where
  | done {s} : Does P s [] [] (some s)
  | stop {s acts} : Does P s acts [] none
  | hold {s s1 c m body acts t1 t2 r} : Does P s body t1 (some s1) → Does P s1 acts t2 r →
      Does P s (.hold c m body :: acts) (.take c m :: (t1 ++ .give :: t2)) r
  | holdStop {s c m body acts t} : Does P s body t none → Does P s (.hold c m body :: acts) (.take c m :: t) none
  | codeEnd {s acts t r} : Does P s acts t r → Does P s (.code :: acts) t r
  | codeCall {s acts t r} (a : Api) : a.allowed P = true → Does P s (api P a ++ .code :: acts) t r → Does P s (.code :: acts) t r
  | reworkEnd {s acts t r} : Does P s acts t r → Does P s (.rework :: acts) t r
  | reworkCall {s acts t r} (a : Api) : a.allowed P = true → Does P s (api P a ++ .rework :: acts) t r → Does P s (.rework :: acts) t r
  | reworkPlace {s acts t r} (m : Nat) (k : Marker) : m < s.markers → m ∉ s.unplaced →
      Does P s (insert P true m k ++ .rework :: acts) t r → Does P s (.rework :: acts) t r
  | shedEnd {s acts t r} : Does P s acts t r → Does P s (.shed :: acts) t r
  | shed {s acts t r} : Does P s (use .connect .write :: .shed :: acts) t r → Does P s (.shed :: acts) t r
  | layersEnd {s acts t r} : Does P s acts t r → Does P s (.layers :: acts) t r
  | layers {s acts t r} (e : Nat) : Does P s (.code :: merge e :: .layers :: acts) t r → Does P s (.layers :: acts) t r
  | optSkip {s body acts t r} : Does P s acts t r → Does P s (.opt body :: acts) t r
  | opt {s body acts t r} : Does P s (body ++ acts) t r → Does P s (.opt body :: acts) t r
  | clearsEnd {s acts t r} : Does P s acts t r → Does P s (.clears :: acts) t r
  | clears {s acts t r} (c : Nat) : Does P s (clearCache P c ++ .clears :: acts) t r → Does P s (.clears :: acts) t r
  | edgesEnd {s acts t r} : Does P s acts t r → Does P s (.edges :: acts) t r
  | edges {s acts t r} (e : Edge) : Does P s (edge P e ++ .edges :: acts) t r → Does P s (.edges :: acts) t r
  /-- `up` panics while clients are refreshed (transaction_state.rs:33-54). -/
  | panic {s body acts} : s.refreshing = true → Does P s (.transaction body :: acts) [.take .tx .write, .give] none
  /-- dependencies/mod.rs:41-62: a transaction inside of another one. -/
  | inner {s s1 body acts t1 t2 r} : s.refreshing = false → Does P { s with level := s.level + 1 } (use .tx .write :: body ++ [use .reads .read, use .tx .write]) t1 (some s1) →
      s1.level - 1 ≠ 0 → Does P { s1 with level := s1.level - 1 } acts t2 r → Does P s (.transaction body :: acts) (t1 ++ t2) r
  | bodyStop {s body acts t} : s.refreshing = false → Does P { s with level := s.level + 1 } (use .tx .write :: body ++ [use .reads .read, use .tx .write]) t none →
      Does P s (.transaction body :: acts) t none
  /-- The outermost transaction: clients are refreshed. -/
  | outer {s s1 s2 body acts t1 t2 t3 r} : s.refreshing = false → Does P { s with level := s.level + 1 } (use .tx .write :: body ++ [use .reads .read, use .tx .write]) t1 (some s1) →
      s1.level - 1 = 0 → Does P { s1 with level := 0, refreshing := true } [.refreshes] t2 (some s2) →
      Does P { s2 with refreshing := false } (after ++ acts) t3 r → Does P s (.transaction body :: acts) (t1 ++ (t2 ++ t3)) r
  | refreshStop {s s1 body acts t1 t2} : s.refreshing = false → Does P { s with level := s.level + 1 } (use .tx .write :: body ++ [use .reads .read, use .tx .write]) t1 (some s1) →
      s1.level - 1 = 0 → Does P { s1 with level := 0, refreshing := true } [.refreshes] t2 none →
      Does P s (.transaction body :: acts) (t1 ++ t2) none
  | refreshesEnd {s acts t r} : Does P s acts t r → Does P s (.refreshes :: acts) t r
  | refreshes {s acts t r} (g : Nat) (k : Kind) : (g, k) ∈ s.ready → Does P s (nextRun P g k ++ .refreshes :: acts) t r →
      Does P s (.refreshes :: acts) t r
  | first {s s1 k acts t1 t2 r} : Does P { s with clients := s.clients + 1 } (firstRun P s.clients k) t1 (some s1) →
      Does P { s1 with ready := (s.clients, k) :: s1.ready } acts t2 r → Does P s (.first k :: acts) (t1 ++ t2) r
  | firstStop {s k acts t} : Does P { s with clients := s.clients + 1 } (firstRun P s.clients k) t none → Does P s (.first k :: acts) t none
  | drop {s acts t r} (g : Nat) : Does P { s with ready := s.ready.filter fun p => p.1 ≠ g } acts t r → Does P s (.drop g :: acts) t r
  | mark {s acts t r} : Does P { s with markers := s.markers + 1, unplaced := s.markers :: s.unplaced } acts t r → Does P s (.mark :: acts) t r
  | place {s acts t r} (m : Nat) (k : Marker) : m ∈ s.unplaced →
      Does P { s with unplaced := s.unplaced.filter (· ≠ m) } (insert P false m k ++ acts) t r → Does P s (.place m k :: acts) t r
  | spawn {s acts t r} : Does P { s with tasks := s.tasks + 1 } (use (.task s.tasks) .write :: acts) t r → Does P s (.spawn :: acts) t r

/-- What the browser calls. -/
inductive Entry where
  | start | event | once
  | task (t : Nat)

def entry : Entry → List Act
  /- lib.rs:375-396: `main` -/
  | .start => [.code, use .emitter .read, .code, .hold .root .write [.code], use .emitter .read, .code, use .other .read, use .commands .write,
      .code]
  /- lib.rs:458-480, callbacks.rs:84-95 -/
  | .event => [use .other .write, .transaction [use .callbacks .read, .code], use .other .write]
  /- callbacks.rs:97-113, api_import.rs:250-264: the listener removes itself, and is dropped at the end of the call -/
  | .once => [use .other .write, .transaction [use .callbacks .read, .code, .hold .box .write [use .callbacks .write], .code],
      use .other .write]
  /- futures_spawn.rs:42-48, 76-92: the future is polled, and dropped when it is ready, inside of `change` -/
  | .task t => [use .other .write, .transaction [use .callbacks .read, .hold (.task t) .write [.code],
      .hold .box .write [use .callbacks .write], .code], use .other .write]

/-- Only tasks that have been made can be called. -/
def Entry.exists (s : St) : Entry → Prop
  | .task t => t < s.tasks
  | _ => True

/-- The calls of the browser, one after the other. -/
inductive Session (P : Habits) : St → List Ev → Prop where
  | nil {s} : Session P s []
  | stop {s e t} : e.exists s → Does P s (entry e) t none → Session P s t
  | cons {s s1 e t1 t2} : e.exists s → Does P s (entry e) t1 (some s1) → Session P s1 t2 → Session P s (t1 ++ t2)

end Verif.Cells

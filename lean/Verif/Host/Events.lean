import Verif.Host.Access
/-!
# C55: event handlers

Sources: `crates/vertigo/src/dom/{dom_element,callback,types}.rs`, `crates/vertigo/src/lib.rs:458-487` (`wasm_callback`),
`crates/vertigo/src/driver_module/api/callbacks.rs`, `crates/vertigo/src/driver_module/dom.rs:86-109, 257-276`,
`crates/vertigo/src/driver_module/dom_command.rs` (`sort_commands`),
`crates/vertigo/src/driver_module/js_value/js_value_list_decoder.rs`,
`crates/vertigo/src/driver_module/src_js/api_browser/dom/dom.ts:206-422`.

The browser follows the DOM standard (2.7 - 2.10): a node has a list of listeners; an event goes along a path, from the target outwards;
at each node the listeners are called that are there when the event arrives and have not been removed since; after
`stopPropagation` no further node is visited. The path is a parameter: the theorems hold for every path.

Simplifications: only elements with ids of their own (not `html`, `head`, `body`); the application is past its first fetch, so
that commands are sent at the end of each transaction (C24); a handler does not cause other events before it
returns (`focus()` called from inside of a handler). How commands are transferred is C25.
-/
namespace Verif.Host.Events
open Verif.Codec

/-! ## Model: events -/

/-- The methods of `DomElement` that add a handler. -/
inductive Kind where
  | click | mouseDown | mouseUp | mouseEnter | mouseLeave | input | change | blur | keyDown | dropFile | hookKeyDown | load
  deriving DecidableEq

/-- types.rs:1-10, `KeyDownEvent`. -/
structure Key where
  key : String
  code : String
  alt : Bool
  ctrl : Bool
  shift : Bool
  metaKey : Bool
  deriving DecidableEq

/-- What a handler is called with: nothing, a text, a key, or files (name and content). -/
inductive Data where
  | unit
  | text (s : String)
  | key (k : Key)
  | files (l : List (String × List UInt8))
  deriving DecidableEq

/-- `event.target`, as far as dom.ts can tell targets apart, with the value of the field. -/
inductive Field where
  | input (value : String)
  | textArea (value : String)
  | select (value : String)
  | other

/-- An event of the browser: `key` is there for a `KeyboardEvent`, `drag` for a `DragEvent`: its items, or nothing if
`dataTransfer` is null; an item is a file or something else. -/
structure Event where
  type : String
  target : Field
  key : Option Key
  drag : Option (Option (List (Option (String × List UInt8))))

/-- Where a listener is: on a node or on the document. -/
inductive Target where
  | document
  | node (id : Nat)
  deriving DecidableEq

/-! ## Model: dom.ts -/

/-- What a handler of dom.ts does: it ignores the event; it calls Rust with a value, and looks at the result; or it reads files. The first component of
each is whether it prevents the default first; the function gives whether to prevent the default, and whether to stop the event. -/
inductive Action where
  | ignore (prevent : Bool)
  | call (prevent : Bool) (value : JsValue) (after : JsValue → Bool × Bool)
  | read (prevent : Bool) (files : List (String × List UInt8))

/-- The condition of an `if` (dom.ts:238, 244). -/
def truthy : JsValue → Bool
  | .fls | .null | .undefined => false
  | .str s => s ≠ ""
  | _ => true

/-- No reaction to the result. -/
def nothing : JsValue → Bool × Bool := fun _ => (false, false)

/-- dom.ts:206-209 -/
def callbackClick : Action := .call true .undefined nothing

/-- dom.ts:211-220 -/
def callbackInput (e : Event) : Action :=
  match e.target with
  | .input value => .call false (.str value) nothing
  | .textArea value => .call false (.str value) nothing
  | _ => .ignore false

/-- dom.ts:222-231 -/
def callbackChange (e : Event) : Action :=
  match e.target with
  | .input value => .call false (.str value) nothing
  | .textArea value => .call false (.str value) nothing
  | .select value => .call false (.str value) nothing
  | .other => .ignore false

/-- dom.ts:233-235, 249-255: `blur`, `mouseenter`, `mouseleave`. -/
def callbackPlain : Action := .call false .undefined nothing

/-- dom.ts:237-247: `mousedown`, `mouseup`. -/
def callbackMouse : Action := .call false .undefined fun r => (truthy r, false)

/-- dom.ts:257-310 -/
def callbackDrop (e : Event) : Action :=
  match e.drag with
  | none => .ignore true
  | some none => .ignore true
  | some (some items) =>
      match items.filterMap id with
      | [] => .ignore true
      | files => .read true files

/-- `true` and `false`. -/
def jsBool (b : Bool) : JsValue := if b then .tru else .fls

/-- dom.ts:312-332 -/
def callbackKeydown (e : Event) : Action :=
  match e.key with
  | none => .ignore false
  | some k => .call false (.list [.str k.key, .str k.code, jsBool k.alt, jsBool k.ctrl, jsBool k.shift, jsBool k.metaKey])
      fun r => match r with
        | .tru => (true, true)
        | _ => (false, false)

/-- dom.ts:334-337 -/
def callbackLoad : Action := .call true .undefined nothing

/-- The closure dom.ts:340-390. -/
def action (name : String) (e : Event) : Action :=
  if name = "click" then callbackClick
  else if name = "input" then callbackInput e
  else if name = "change" then callbackChange e
  else if name = "blur" then callbackPlain
  else if name = "mousedown" then callbackMouse
  else if name = "mouseup" then callbackMouse
  else if name = "mouseenter" then callbackPlain
  else if name = "mouseleave" then callbackPlain
  else if name = "keydown" then callbackKeydown e
  else if name = "hook_keydown" then callbackKeydown e
  else if name = "drop" then callbackDrop e
  else if name = "load" then callbackLoad
  else .ignore false

/-- The argument of dom.ts:290-299. -/
def filesValue (files : List (String × List UInt8)) : JsValue :=
  .list [.list (files.map fun f => .list [.str f.1, .vec f.2])]

/-- A listener: where, the type of events, and the closure, known by its callback id and the name it was made for. -/
structure Listener where
  target : Target
  type : String
  callback : Nat
  name : String
  deriving DecidableEq

/-- The browser: nodes by id, `callbacks` of dom.ts:83, all listeners in the order in which they were added, and files that are being read. -/
structure Browser where
  nodes : List Nat
  callbacks : List (Nat × String)
  listeners : List Listener
  reading : List (Nat × List (String × List UInt8))

/-- The commands that matter here (dom_command.rs:6-60). -/
inductive Command where
  | createNode (id : Nat)
  | removeNode (id : Nat)
  | callbackAdd (id : Nat) (name : String) (callback : Nat)
  | callbackRemove (id : Nat) (name : String) (callback : Nat)

/-- dom.ts:339-405, `callback_add`; an exception of `nodes.get` ends it (dom.ts:451-455). -/
def callbackAdd (b : Browser) (id : Nat) (name : String) (callback : Nat) : Browser :=
  if (b.callbacks.lookup callback).isSome then b
  else
    let b := { b with callbacks := b.callbacks ++ [(callback, name)] }
    if name = "hook_keydown" then { b with listeners := b.listeners ++ [⟨.document, "keydown", callback, name⟩] }
    else if id ∈ b.nodes then { b with listeners := b.listeners ++ [⟨.node id, name, callback, name⟩] }
    else b

/-- dom.ts:407-422, `callback_remove`. -/
def callbackRemove (b : Browser) (id : Nat) (name : String) (callback : Nat) : Browser :=
  match b.callbacks.lookup callback with
  | none => b
  | some made =>
      let b := { b with callbacks := b.callbacks.filter (·.1 ≠ callback) }
      if name = "hook_keydown" then { b with listeners := b.listeners.filter (· ≠ ⟨.document, "keydown", callback, made⟩) }
      else if id ∈ b.nodes then { b with listeners := b.listeners.filter (· ≠ ⟨.node id, name, callback, made⟩) }
      else b

/-- dom.ts:480-549; a removed node keeps its listeners. -/
def execute (b : Browser) : Command → Browser
  | .createNode id => { b with nodes := b.nodes ++ [id] }
  | .removeNode id => { b with nodes := b.nodes.filter (· ≠ id) }
  | .callbackAdd id name callback => callbackAdd b id name callback
  | .callbackRemove id name callback => callbackRemove b id name callback

/-! ## Model: Rust -/

/-- dom_element.rs:232-388, the names of the events. -/
def Kind.name : Kind → String
  | .click => "click"
  | .mouseDown => "mousedown"
  | .mouseUp => "mouseup"
  | .mouseEnter => "mouseenter"
  | .mouseLeave => "mouseleave"
  | .input => "input"
  | .change => "change"
  | .blur => "blur"
  | .keyDown => "keydown"
  | .dropFile => "drop"
  | .hookKeyDown => "hook_keydown"
  | .load => "load"

/-- callback.rs:7-10, 57-61: a function, or a computed whose value is a function. Functions and computeds are known by numbers. -/
inductive Source where
  | basic (f : Nat)
  | computed (c : Nat)
  deriving DecidableEq

/-- js_value_list_decoder.rs:60-72 -/
def getString : List JsValue → Option (String × List JsValue)
  | .str s :: l => some (s, l)
  | _ => none

/-- js_value_list_decoder.rs:110-123 -/
def getBool : List JsValue → Option (Bool × List JsValue)
  | .tru :: l => some (true, l)
  | .fls :: l => some (false, l)
  | _ => none

/-- js_value_list_decoder.rs:17-29 -/
def getBuffer : List JsValue → Option (List UInt8 × List JsValue)
  | .vec b :: l => some (b, l)
  | _ => none

/-- dom_element.rs:401-420 -/
def getKeyDownEvent : JsValue → Option Key
  | .list l => do
      let (key, l) ← getString l
      let (code, l) ← getString l
      let (alt, l) ← getBool l
      let (ctrl, l) ← getBool l
      let (shift, l) ← getBool l
      let (metaKey, l) ← getBool l
      if l.isEmpty then some ⟨key, code, alt, ctrl, shift, metaKey⟩ else none
  | _ => none

/-- dom_element.rs:341-348 -/
def getFile : JsValue → Option (String × List UInt8)
  | .list l => do
      let (name, l) ← getString l
      let (data, _) ← getBuffer l
      some (name, data)
  | _ => none

/-- dom_element.rs:340-351 with js_value_list_decoder.rs:125-156 -/
def getFiles : JsValue → Option (List (String × List UInt8))
  | .list (.list l :: _) => l.mapM getFile
  | _ => none

/-- The closures dom_element.rs:229-394: what the handler is called with, and the result made of its answer; or the result if it is not called. -/
def closure (kind : Kind) (data : JsValue) : (Data × (Bool → JsValue)) ⊕ JsValue :=
  match kind with
  | .click | .mouseEnter | .mouseLeave | .blur | .load => .inl (.unit, fun _ => .undefined)
  | .mouseDown | .mouseUp => .inl (.unit, jsBool)
  | .input | .change =>
      match data with
      | .str text => .inl (.text text, fun _ => .undefined)
      | _ => .inr .undefined
  | .keyDown | .hookKeyDown =>
      match getKeyDownEvent data with
      | some k => .inl (.key k, jsBool)
      | none => .inr .fls
  | .dropFile =>
      match getFiles data with
      | some files => .inl (.files files, fun _ => .undefined)
      | none => .inr .undefined

/-- What can be seen from outside: a function of the program is called with data; an event has gone its way, with what was asked of the browser. -/
inductive Entry where
  | called (f : Nat) (data : Data)
  | handled (prevented stopped : Bool)
  deriving DecidableEq

/-- What a program does: it creates an element with handlers; drops one (elements are numbered in the order of creation);
changes the value of a computed. -/
inductive Op where
  | create (handlers : List (Kind × Source))
  | drop (element : Nat)
  | set (computed f : Nat)

/-- The state. `subscriptions` are the drop resources of all elements (dom_element.rs:26, 182-203): element, kind and callback id; `cells` are the cells `current` of
callback.rs:36, 92 with callback id and computed; `values` are the values of computeds; `stuck` is a panic (callback.rs:46, 102). -/
structure App where
  browser : Browser
  store : List (Nat × Kind × Source)
  nextCallback : Nat
  elements : List Nat
  nextElement : Nat
  subscriptions : List (Nat × Kind × Nat)
  cells : List (Nat × Nat × Nat)
  values : Nat → Nat
  queue : List Command
  log : List Entry
  stuck : Bool

/-- The program: what the function that was called last answers and does, given all that has happened. -/
abbrev Program := List Entry → Bool × List Op

/-- dom_element.rs:182-205, 207-227 with callback.rs:30-52, 86-106 and callbacks.rs:50-67 -/
def addListener (element : Nat) (s : App) (h : Kind × Source) : App :=
  { s with
    cells := match h.2 with
      | .basic _ => s.cells
      | .computed c => s.cells ++ [(s.nextCallback, c, s.values c)]
    store := s.store ++ [(s.nextCallback, h)]
    nextCallback := s.nextCallback + 1
    queue := s.queue ++ [.callbackAdd element h.1.name s.nextCallback]
    subscriptions := s.subscriptions ++ [(element, h.1, s.nextCallback)] }

/-- The resource of a handler is dropped: dom_element.rs:189-195, callbacks.rs:59-64, and the subscription of the cell. -/
def dropListener (s : App) (r : Nat × Kind × Nat) : App :=
  { s with
    queue := s.queue ++ [.callbackRemove r.1 r.2.1.name r.2.2]
    store := s.store.filter (·.1 ≠ r.2.2)
    cells := s.cells.filter (·.1 ≠ r.2.2) }

/-- `create`: dom_element.rs:32-50; `drop`: dom_element.rs:395-399, then the fields. -/
def doOp (s : App) : Op → App
  | .create handlers =>
      let s' := { s with
        queue := s.queue ++ [.createNode s.nextElement]
        elements := s.elements ++ [s.nextElement]
        nextElement := s.nextElement + 1 }
      handlers.foldl (addListener s.nextElement) s'
  | .drop element =>
      if element ∈ s.elements then
        let s' := { s with
          queue := s.queue ++ [.removeNode element]
          elements := s.elements.filter (· ≠ element)
          subscriptions := s.subscriptions.filter (·.1 ≠ element) }
        (s.subscriptions.filter (·.1 = element)).foldl dropListener s'
      else s
  | .set c f => { s with values := fun i => if i = c then f else s.values i }

/-- dom_command.rs:64-69 -/
def Command.isEvent : Command → Bool
  | .removeNode _ => true
  | _ => false

/-- dom_command.rs:157-172 -/
def sortCommands (l : List Command) : List Command := l.filter (!·.isEvent) ++ l.filter (·.isEvent)

/-- The end of a transaction: the subscriptions set the cells (callback.rs:37-39), then the commands are sent (dom.rs:94-119). -/
def commit (s : App) : App :=
  { s with
    cells := s.cells.map fun x => (x.1, x.2.1, s.values x.2.1)
    browser := (sortCommands s.queue).foldl execute s.browser
    queue := [] }

/-- A transaction of the program. -/
def transaction (s : App) (ops : List Op) : App := commit (ops.foldl doOp s)

/-- callback.rs:34, 41-49: the function that is called; `none` is the `unreachable!`. -/
def current (s : App) (callback : Nat) : Source → Option Nat
  | .basic f => some f
  | .computed _ => (s.cells.lookup callback).map Prod.snd

/-- lib.rs:458-487 with callbacks.rs:89-99: the function is called inside of a transaction. -/
def wasmCallback (program : Program) (s : App) (callback : Nat) (value : JsValue) : App × JsValue :=
  match s.store.lookup callback with
  | none => (transaction s [], .undefined)
  | some (kind, source) =>
      match closure kind value with
      | .inr result => (transaction s [], result)
      | .inl (data, result) =>
          match current s callback source with
          | none => ({ s with stuck := true }, .undefined)
          | some f =>
              let log := s.log ++ [.called f data]
              (transaction { s with log := log } (program log).2, result (program log).1)

/-- wasm_init.ts:66-72: the result of a callback as TypeScript reads it. -/
def receive (lossy : List UInt8 → String) : JsValue → JsValue
  | .undefined => .undefined
  | v =>
      match v.toSnapshot with
      | .ok m => Ts.jsValueDecode lossy m.written 0 m.size
      | _ => .undefined

/-- `preventDefault` and `stopPropagation` were called. -/
structure Flags where
  prevented : Bool
  stopped : Bool

/-- A call of Rust from TypeScript: the value is written, read, and the result read (wasm_init.ts:62-83). An exception means that nothing is called. -/
def callRust (program : Program) (lossy : List UInt8 → String) (s : App) (callback : Nat) (value : JsValue) : App × JsValue :=
  match transfer value with
  | .exception => (s, .undefined)
  | .value v =>
      let r := wasmCallback program s callback v
      (r.1, receive lossy r.2)

/-- DOM 2.10, `inner invoke` for one listener: it is called unless it has been removed. -/
def invoke (program : Program) (lossy : List UInt8 → String) (e : Event) (x : App × Flags) (l : Listener) : App × Flags :=
  if l ∈ x.1.browser.listeners then
    match action l.name e with
    | .ignore prevent => (x.1, { x.2 with prevented := x.2.prevented || prevent })
    | .read prevent files =>
        ({ x.1 with browser := { x.1.browser with reading := x.1.browser.reading ++ [(l.callback, files)] } },
          { x.2 with prevented := x.2.prevented || prevent })
    | .call prevent value after =>
        let r := callRust program lossy x.1 l.callback value
        (r.1, ⟨x.2.prevented || prevent || (after r.2).1, x.2.stopped || (after r.2).2⟩)
  else x

/-- DOM 2.9, step 13 to 14: along the path. -/
def visit (program : Program) (lossy : List UInt8 → String) (e : Event) : List Target → App × Flags → App × Flags
  | [], x => x
  | t :: path, x =>
      if x.2.stopped then x
      else visit program lossy e path
        ((x.1.browser.listeners.filter fun l => l.target = t ∧ l.type = e.type).foldl (invoke program lossy e) x)

/-- What can happen: a transaction of the program (not in a handler); an event along a path; the files of the `i`-th drop of those being read
have been read, or reading has failed. -/
inductive Happening where
  | run (ops : List Op)
  | event (e : Event) (path : List Target)
  | read (i : Nat) (ok : Bool)

/-- One happening. -/
def step (program : Program) (lossy : List UInt8 → String) (s : App) : Happening → App
  | .run ops => transaction s ops
  | .event e path =>
      let r := visit program lossy e path (s, ⟨false, false⟩)
      { r.1 with log := r.1.log ++ [.handled r.2.prevented r.2.stopped] }
  | .read i ok =>
      match s.browser.reading[i]? with
      | none => s
      | some (callback, files) =>
          let s := { s with browser := { s.browser with reading := s.browser.reading.eraseIdx i } }
          if ok then (callRust program lossy s callback (filesValue files)).1 else s

/-- The start; `values` are the initial values of computeds. -/
def start (values : Nat → Nat) : App :=
  { browser := ⟨[], [], [], []⟩, store := [], nextCallback := 1, elements := [], nextElement := 0, subscriptions := [], cells := [],
    values := values, queue := [], log := [], stuck := false }

/-! ## Specification -/

/-- A handler of an element that exists; handlers are numbered in the order in which they were added. -/
structure Handler where
  number : Nat
  element : Nat
  kind : Kind
  source : Source
  deriving DecidableEq

/-- The handlers of the elements that exist, the values of computeds, files that are being read for a handler, and what has happened. -/
structure Spec where
  handlers : List Handler
  added : Nat
  created : Nat
  values : Nat → Nat
  reading : List (Handler × List (String × List UInt8))
  log : List Entry

/-- The handlers of a new element. -/
def number (element : Nat) : Nat → List (Kind × Source) → List Handler
  | _, [] => []
  | n, h :: hs => ⟨n, element, h.1, h.2⟩ :: number element (n + 1) hs

/-- What the program does. -/
def Spec.op (p : Spec) : Op → Spec
  | .create hs => { p with handlers := p.handlers ++ number p.created p.added hs, added := p.added + hs.length, created := p.created + 1 }
  | .drop element => { p with handlers := p.handlers.filter (·.element ≠ element) }
  | .set c f => { p with values := fun i => if i = c then f else p.values i }

/-- The function of a handler: that of a computed is its value now. -/
def Spec.function (p : Spec) : Source → Nat
  | .basic f => f
  | .computed c => p.values c

/-- A handler is called with data. -/
def Spec.call (program : Program) (p : Spec) (h : Handler) (data : Data) : Spec × Bool :=
  let log := p.log ++ [.called (p.function h.source) data]
  ((program log).2.foldl Spec.op { p with log := log }, (program log).1)

/-- The events that a handler waits for, and where. -/
def Handler.waits (h : Handler) : Target × String :=
  match h.kind with
  | .click => (.node h.element, "click")
  | .mouseDown => (.node h.element, "mousedown")
  | .mouseUp => (.node h.element, "mouseup")
  | .mouseEnter => (.node h.element, "mouseenter")
  | .mouseLeave => (.node h.element, "mouseleave")
  | .input => (.node h.element, "input")
  | .change => (.node h.element, "change")
  | .blur => (.node h.element, "blur")
  | .keyDown => (.node h.element, "keydown")
  | .dropFile => (.node h.element, "drop")
  | .hookKeyDown => (.document, "keydown")
  | .load => (.node h.element, "load")

/-- What a handler is called with for an event, if it is called: `on_input` with the text of a field, `on_change` also with the value of a
selection, those for keys with the key. (Files are read first.) -/
def sees : Kind → Event → Option Data
  | .input, e => match e.target with
      | .input v | .textArea v => some (.text v)
      | _ => none
  | .change, e => match e.target with
      | .input v | .textArea v | .select v => some (.text v)
      | .other => none
  | .keyDown, e | .hookKeyDown, e => e.key.map .key
  | .dropFile, _ => none
  | _, _ => some .unit

/-- The files of a drop. -/
def dropped (e : Event) : List (String × List UInt8) :=
  match e.drag with
  | some (some items) => items.filterMap id
  | _ => []

/-- The default is prevented whatever the handler does. -/
def preventsAlways (k : Kind) : Bool := k = .click ∨ k = .load ∨ k = .dropFile

/-- The default is prevented if the handler says so. -/
def preventsIfAsked (k : Kind) : Bool := k = .mouseDown ∨ k = .mouseUp ∨ k = .keyDown ∨ k = .hookKeyDown

/-- The event goes no further if the handler says so. -/
def stopsIfAsked (k : Kind) : Bool := k = .keyDown ∨ k = .hookKeyDown

/-- An event reaches a handler. -/
def Spec.invoke (program : Program) (e : Event) (x : Spec × Flags) (h : Handler) : Spec × Flags :=
  if h ∈ x.1.handlers then
    let flags := { x.2 with prevented := x.2.prevented || preventsAlways h.kind }
    if h.kind = .dropFile then
      if dropped e = [] then (x.1, flags) else ({ x.1 with reading := x.1.reading ++ [(h, dropped e)] }, flags)
    else
      match sees h.kind e with
      | none => (x.1, flags)
      | some data =>
          let r := x.1.call program h data
          (r.1, ⟨flags.prevented || (preventsIfAsked h.kind && r.2), flags.stopped || (stopsIfAsked h.kind && r.2)⟩)
  else x

/-- An event goes along a path, at each place to the handlers that wait for it there. -/
def Spec.visit (program : Program) (e : Event) : List Target → Spec × Flags → Spec × Flags
  | [], x => x
  | t :: path, x =>
      if x.2.stopped then x
      else Spec.visit program e path ((x.1.handlers.filter fun h => h.waits = (t, e.type)).foldl (Spec.invoke program e) x)

/-- One happening. -/
def Spec.step (program : Program) (p : Spec) : Happening → Spec
  | .run ops => ops.foldl Spec.op p
  | .event e path =>
      let r := Spec.visit program e path (p, ⟨false, false⟩)
      { r.1 with log := r.1.log ++ [.handled r.2.prevented r.2.stopped] }
  | .read i ok =>
      match p.reading[i]? with
      | none => p
      | some (h, files) =>
          let p := { p with reading := p.reading.eraseIdx i }
          if ok ∧ h ∈ p.handlers then (p.call program h (.files files)).1 else p

/-- The start. -/
def Spec.start (values : Nat → Nat) : Spec := ⟨[], 1, 0, values, [], []⟩

/-- The bytes of a list of files, with what is needed to send them. -/
def filesSize (files : List (String × List UInt8)) : Nat := (files.map fun f => f.1.utf8ByteSize + f.2.length + 20).sum

/-- The data of an event is less than 1 GB. -/
def Event.Fits (e : Event) : Prop :=
  (match e.target with
    | .input v | .textArea v | .select v => v.utf8ByteSize < 2 ^ 30
    | .other => True) ∧
  (∀ k ∈ e.key, k.key.utf8ByteSize < 2 ^ 30 ∧ k.code.utf8ByteSize < 2 ^ 30) ∧ filesSize (dropped e) < 2 ^ 30

/-- The data of all events is. -/
def Happening.Fits : Happening → Prop
  | .event e _ => e.Fits
  | _ => True

end Verif.Host.Events

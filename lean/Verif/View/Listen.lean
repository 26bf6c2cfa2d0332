import Verif.View.Leak
import Verif.Host.EventsProof
/-!
# C67: the application answers its user

Sources: those of C49 and C55. Views have handlers, written as attributes (`on_click={..}` in `dom!`, html_parser.rs:188-235). When an event
happens in the page, the handlers that are written at the elements on its way are called, each inside of a transaction; after each
transaction the subscriptions are run whose value has changed, and the commands are sent.

A handler is known by a name; what it does is a function of the data of the event and the state. A handler that is a computed
(`Callback::Computed`, callback.rs:7-10) gives a name that depends on the state.

Not here: `on_dropfile` and `hook_key_down` (C55), two handlers for the same event at one element, `class` and `css` (C64).
-/
namespace Verif.View
open Verif.Dom Verif.Codec
open Verif.Host.Events (Kind Data Event Flags action closure receive sees preventsAlways preventsIfAsked stopsIfAsked)
open Verif.Host (transfer)

/-! ## Model: handlers in the commands of a view -/

/-- html_parser.rs:188-235: the names that stand for a handler, without `on_dropfile` and `hook_key_down`. -/
def handlerKind (name : String) : Option Kind :=
  if name = "on_click" then some .click
  else if name = "on_mouse_down" then some .mouseDown
  else if name = "on_mouse_up" then some .mouseUp
  else if name = "on_mouse_enter" then some .mouseEnter
  else if name = "on_mouse_leave" then some .mouseLeave
  else if name = "on_input" then some .input
  else if name = "on_change" then some .change
  else if name = "on_blur" then some .blur
  else if name = "on_key_down" then some .keyDown
  else if name = "on_load" then some .load
  else none

/-- A handler of an element that exists: the entry of the callback store (callbacks.rs:50-67), the resource that the element owns
(dom_element.rs:182-205), and the function that is called: that of `Callback::Basic`, or the value of the cell `current` (callback.rs:30-52). -/
structure Listening where
  element : Id
  kind : Kind
  callback : Nat
  current : String
  deriving DecidableEq

/-- All of them, and the next callback id (callbacks.rs:50-67). -/
structure Listens where
  live : List Listening := []
  next : Nat := 1

/-- dom_element.rs:189-195. -/
def Listening.remove (l : Listening) : Cmd := .callbackRemove l.element l.kind.name l.callback

/-- A node is dropped (dom_element.rs:395-399, then the field `subscriptions`; there the children are dropped in between, so that the
`callback_remove`s of an element come after those of the elements inside of it). -/
def Listens.drop (s : Listens) (c : Cmd) (id : Id) : Listens × List Cmd :=
  ({ s with live := s.live.filter fun l => ¬ l.element = id }, c :: (s.live.filter fun l => l.element = id).map Listening.remove)

/-- What is sent when the model of C49 sends a command. An attribute that stands for a handler is not sent: the first time, the handler is
added (dom_element.rs:182-205); later (the value of a computed has changed) the function is replaced (callback.rs:37-39). When an element is
dropped, so are its handlers; texts and comments have none. A handler that is taken away does not occur in the code: a handler is there as
long as its element. -/
def Listens.step (s : Listens) : Cmd → Listens × List Cmd
  | .setAttr id name value =>
      match handlerKind name with
      | none => (s, [.setAttr id name value])
      | some k =>
          if s.live.any fun l => l.element = id ∧ l.kind = k then
            ({ s with live := s.live.map fun l => if l.element = id ∧ l.kind = k then { l with current := value } else l }, [])
          else ({ live := s.live ++ [⟨id, k, s.next, value⟩], next := s.next + 1 }, [.callbackAdd id k.name s.next])
  | .removeAttr id name =>
      match handlerKind name with
      | none => (s, [.removeAttr id name])
      | some k => ({ s with live := s.live.filter fun l => ¬ (l.element = id ∧ l.kind = k) },
          (s.live.filter fun l => l.element = id ∧ l.kind = k).map Listening.remove)
  | .removeNode id => s.drop (.removeNode id) id
  | .removeText id => s.drop (.removeText id) id
  | .removeComment id => s.drop (.removeComment id) id
  | c => (s, [c])

def Listens.run : List Cmd → Listens → Listens × List Cmd
  | [], s => (s, [])
  | c :: cs, s =>
      let r := s.step c
      let t := Listens.run cs r.1
      (t.1, r.2 ++ t.2)

/-! ## Model: the running application -/

/-- What the handlers do: the state afterwards, and the answer (of those that give one). -/
structure Program (S : Type) where
  update : String → Data → S → S
  answer : String → Data → S → Bool

/-- The application and the page. `time` counts the transactions. -/
structure Site (S V : Type) where
  app : App S V
  state : S
  listens : Listens
  page : Browser
  time : Nat

/-- What is left open: what the handlers do, in which order the subscriptions are run after a transaction, and in which order old list
items are dropped. -/
structure World (S V : Type) where
  program : Program S
  subs : Nat → App S V → S → List Sub
  order : List (Inst S V) → List (Inst S V)
  lossy : List UInt8 → String

/-- The end of a transaction: the commands are sorted and sent (driver_module/dom.rs:94-119). `none` is an exception while a command is executed. -/
def Site.send (s : Site S V) (app : App S V) (σ : S) (calls : List Cmd) : Option (Site S V) :=
  let r := s.listens.run calls
  match s.page.run (sortCommands r.2) with
  | .ok page => some ⟨app, σ, r.1, page, s.time + 1⟩
  | .error _ => none

section
variable [DecidableEq V]

/-- A transaction that leads to the state `σ`. -/
def Site.transaction (w : World S V) (s : Site S V) (σ : S) : Option (Site S V) :=
  let r := s.app.change σ w.order (w.subs s.time s.app σ)
  s.send r.1 σ r.2

/-- The start: the commands of the first rendering are sent in one batch (C22). -/
def Site.start (σ : S) (views : List (View S V)) : Option (Site S V) :=
  let r := App.start σ views
  (⟨r.1, σ, {}, Browser.init, 0⟩ : Site S V).send r.1 σ r.2

/-- lib.rs:458-487 with callbacks.rs:89-99: the function is called inside of a transaction. (If it is not called, the transaction changes nothing.) -/
def Site.wasmCallback (w : World S V) (s : Site S V) (callback : Nat) (value : JsValue) : Option (Site S V × JsValue) :=
  match s.listens.live.find? fun l => l.callback = callback with
  | none => some (s, .undefined)
  | some l =>
      match closure l.kind value with
      | .inr result => some (s, result)
      | .inl (data, result) =>
          match s.transaction w (w.program.update l.current data s.state) with
          | none => none
          | some s' => some (s', result (w.program.answer l.current data s.state))

/-- A call of Rust from TypeScript (wasm_init.ts:62-83). -/
def Site.callRust (w : World S V) (s : Site S V) (callback : Nat) (value : JsValue) : Option (Site S V × JsValue) :=
  match transfer value with
  | .exception => some (s, .undefined)
  | .value v =>
      match s.wasmCallback w callback v with
      | none => none
      | some (s', result) => some (s', receive w.lossy result)

/-- DOM 2.10, `inner invoke` for one listener: it is called unless it has been removed. (There is no `on_dropfile` here.) -/
def Site.invoke (w : World S V) (e : Event) (s : Site S V) (f : Flags) (l : Nat × Id × String) : Option (Site S V × Flags) :=
  if l ∈ s.page.listeners then
    match action l.2.2 e with
    | .ignore prevent => some (s, { f with prevented := f.prevented || prevent })
    | .read prevent _ => some (s, { f with prevented := f.prevented || prevent })
    | .call prevent value after =>
        match s.callRust w l.1 value with
        | none => none
        | some (s', result) => some (s', ⟨f.prevented || prevent || (after result).1, f.stopped || (after result).2⟩)
  else some (s, f)

/-- All listeners of a node. -/
def Site.invokes (w : World S V) (e : Event) : List (Nat × Id × String) → Site S V → Flags → Option (Site S V × Flags)
  | [], s, f => some (s, f)
  | l :: ls, s, f =>
      match s.invoke w e f l with
      | none => none
      | some (s', f') => Site.invokes w e ls s' f'

/-- DOM 2.9, step 13 to 14: along the path. -/
def Site.visit (w : World S V) (e : Event) : List Id → Site S V → Flags → Option (Site S V × Flags)
  | [], s, f => some (s, f)
  | x :: path, s, f =>
      if f.stopped then some (s, f)
      else
        match s.invokes w e (s.page.listeners.filter fun l => l.2.1 = x ∧ l.2.2 = e.type) f with
        | none => none
        | some (s', f') => Site.visit w e path s' f'

/-- What can happen: a transaction of the program (a timer, a response), or an event of the user, with the nodes on its way. -/
inductive Happens (S : Type) where
  | changes (σ : S)
  | event (e : Event) (path : List Id)

def Site.happens (w : World S V) (s : Site S V) : Happens S → Option (Site S V × Flags)
  | .changes σ => (s.transaction w σ).map fun s' => (s', ⟨false, false⟩)
  | .event e path => s.visit w e path ⟨false, false⟩

def Site.run (w : World S V) : List (Happens S) → Site S V → Option (Site S V)
  | [], s => some s
  | x :: xs, s =>
      match s.happens w x with
      | none => none
      | some (s', _) => Site.run w xs s'

end

/-! ## Specification -/

/-- The handlers: how they are written, and the type of the events they are for. -/
def handlers : List (Kind × String × String) :=
  [(.click, "on_click", "click"), (.mouseDown, "on_mouse_down", "mousedown"), (.mouseUp, "on_mouse_up", "mouseup"),
   (.mouseEnter, "on_mouse_enter", "mouseenter"), (.mouseLeave, "on_mouse_leave", "mouseleave"), (.input, "on_input", "input"),
   (.change, "on_change", "change"), (.blur, "on_blur", "blur"), (.keyDown, "on_key_down", "keydown"), (.load, "on_load", "load")]

/-- The attributes of an element in the page are those that are written, without the handlers. -/
structure WithoutHandlers (attr page : String → Option String) : Prop where
  same : ∀ a, (∀ h ∈ handlers, h.2.1 ≠ a) → page a = attr a
  none : ∀ h ∈ handlers, page h.2.1 = none

/-- The nodes `xs` of the page, with everything below them, are the document `hs` without the handlers. -/
inductive Displays (b : Browser) : List Id → List Html → Prop where
  | nil : Displays b [] []
  | text {x xs s hs} : b.objects x = some (.text s) → Displays b xs hs → Displays b (x :: xs) (.text s :: hs)
  | comment {x xs s hs} : b.objects x = some (.comment s) → Displays b xs hs → Displays b (x :: xs) hs
  | element {x xs name attr page cs hs} : b.objects x = some (.element name page) → WithoutHandlers attr page →
      Displays b (b.children x) cs → Displays b xs hs → Displays b (x :: xs) (.element name attr cs :: hs)

/-- The page shows the view in the state `σ`. -/
def ShowsView (views : List (View S V)) (σ : S) (b : Browser) : Prop :=
  b.children 1 = [2, 3] ∧ Displays b (b.children 3) (htmls σ views)

/-- The node `x` of the page is an element of the document, and `attr` is what is written there. (The nodes are walked together with the document; comments
are skipped.) -/
inductive Written (b : Browser) : List Id → List Html → Id → (String → Option String) → Prop where
  | here {x xs name attr page cs hs} : b.objects x = some (.element name page) → Written b (x :: xs) (.element name attr cs :: hs) x attr
  | inside {y xs name a page cs hs x attr} : b.objects y = some (.element name page) → Written b (b.children y) cs x attr →
      Written b (y :: xs) (.element name a cs :: hs) x attr
  | next {y xs h hs x attr} : (∀ s, b.objects y ≠ some (.comment s)) → Written b xs hs x attr → Written b (y :: xs) (h :: hs) x attr
  | comment {y xs s hs x attr} : b.objects y = some (.comment s) → Written b xs hs x attr → Written b (y :: xs) hs x attr

/-- In the page `b`, which shows the view in the state `σ`, the handler `name` is written at the node `x` for events of the type `type`. -/
def Handles (views : List (View S V)) (σ : S) (b : Browser) (x : Id) (type : String) (k : Kind) (name : String) : Prop :=
  ∃ attr written, Written b (b.children 3) (htmls σ views) x attr ∧ (k, written, type) ∈ handlers ∧ attr written = some name

/-- An event goes along a path. It comes to a node: if there is a handler for it in the view as it is now, then this is called with the data of the event, and
the page shows the view in the new state before the event goes on. If the event has been stopped, it goes no further. -/
inductive Answers (program : Program S) (views : List (View S V)) (e : Event) : List Id → S → Browser → Flags → S → Browser → Flags → Prop where
  | done {σ b f} : Answers program views e [] σ b f σ b f
  | stopped {x path σ b f} : f.stopped = true → Answers program views e (x :: path) σ b f σ b f
  | pass {x path σ b f σ' b' f'} : f.stopped = false → (∀ k name, ¬ Handles views σ b x e.type k name) →
      Answers program views e path σ b f σ' b' f' → Answers program views e (x :: path) σ b f σ' b' f'
  | ignore {x path σ b f σ' b' f' k name} : f.stopped = false → Handles views σ b x e.type k name → sees k e = none →
      Answers program views e path σ b ⟨f.prevented || preventsAlways k, false⟩ σ' b' f' → Answers program views e (x :: path) σ b f σ' b' f'
  | call {x path σ b f b1 σ' b' f' k name data} : f.stopped = false → Handles views σ b x e.type k name → sees k e = some data →
      ShowsView views (program.update name data σ) b1 →
      Answers program views e path (program.update name data σ) b1
        ⟨f.prevented || preventsAlways k || (preventsIfAsked k && program.answer name data σ), stopsIfAsked k && program.answer name data σ⟩ σ' b' f' →
      Answers program views e (x :: path) σ b f σ' b' f'

/-- The states and pages of an application. -/
inductive Lives (program : Program S) (views : List (View S V)) : List (Happens S) → S → Browser → S → Browser → Prop where
  | done {σ b} : Lives program views [] σ b σ b
  | changes {σ b σ1 b1 xs σ' b'} : ShowsView views σ1 b1 → Lives program views xs σ1 b1 σ' b' → Lives program views (.changes σ1 :: xs) σ b σ' b'
  | event {e path xs σ b σ1 b1 f σ' b'} : Answers program views e path σ b ⟨false, false⟩ σ1 b1 f → Lives program views xs σ1 b1 σ' b' →
      Lives program views (.event e path :: xs) σ b σ' b'

/-- The data of all events is less than 1 GB. -/
def Happens.Fits : Happens S → Prop
  | .changes _ => True
  | .event e _ => e.Fits

/-- All subscriptions are run whose value has changed; old items may be dropped in any order. -/
structure World.Fair [DecidableEq V] (w : World S V) : Prop where
  subs : ∀ n (a : App S V) σ, ∀ s ∈ dueAll σ a.body, s ∈ w.subs n a σ
  order : ∀ l, (w.order l).Perm l

end Verif.View

import Verif.Whole.Facts
import Verif.Reactive.StaticStar
/-!
# C70: a running application

The reactive core (`Reactive/Machine.lean`: `crates/vertigo/src/computed/`) and the view (`View/Model.lean`: `crates/vertigo/src/dom/`,
`crates/vertigo/src/render/`) together. C49 takes the state of the application as given, and takes for granted that after each transaction all
subscriptions run whose value has changed. Here the state is the contents of the `Value`s of the reactive core, a subscription of a node is a
subscription of the core (`subscribe`, computed_box.rs:101-125), and which of them run is decided by the core.

A step of the model is what happens between two points at which no subscriber of the view is running: one operation of the application, the
start of the refresh phase, one subscriber that is refreshed, the end of the phase.

Simplifications:
* The closures of the computeds are those that `D` allows. The theorems ask for `Private D` (as in C07; what happens otherwise is
  `C01_dynamic_stale_violated`). The computeds of nodes are not conditional dependencies of others. Computeds are not destroyed.
* While a subscriber of the view runs, the new nodes are created with the state at that time, and the subscriptions of these nodes are opened in
  any order, also nested in one another; then those of the nodes that are dropped are closed, in any order. (`dom_value.rs:17-30` and
  `dom_list.rs:81-106, 185-216` create the new nodes before the old ones are dropped. The order in the code is one of these orders.)
* The code that renders a part does not write values and does not subscribe on its own.
-/
namespace Verif.Whole
open Verif.Reactive Verif.View

/-- The state of the application: the contents of its values. -/
abbrev State (V : Type) := GraphId → Val V

/-- The state that the core holds. (Reads of values that do not exist do not happen.) -/
def contents (s : St (Val V)) : State V := fun x => (s.vals x).getD default

/-- The computed `d` stands for the function `f` of the state: whatever the values contain, its closure, run from scratch, gives what `f` gives. -/
def Stands (defs : GraphId → Option (Prog (Val V))) (d : GraphId) (f : State V → Val V) : Prop :=
  d.kind = .computed ∧ ∀ σ : State V, Scratch (fun x => some (σ x)) defs d (f σ)

/-- Which subscription of the core belongs to which subscription of a node. -/
abbrev Links := List (Sub × GraphId)

/-- The core, the document and the commands that were sent to the browser. -/
structure Sys (V : Type) where
  st : St (Val V)
  app : App (State V) V
  links : Links
  sent : List Verif.Dom.Cmd

section
variable [DecidableEq V]

/-- Code of the application: event handlers, timers, the code before the mount. -/
inductive Code (D : GraphId → Prog (Val V) → Prop) (lim : Nat) : St (Val V) → St (Val V) → Prop where
  /-- `Value::new`, `Value::with_connect` (value.rs:67-104) -/
  | value (s v b) : Code D lim s (s.addValue v b)
  /-- `Computed::from`, `map` (computed_box.rs:74-93) -/
  | computed {s : St (Val V)} {p : Prog (Val V)} (hp : D ⟨.computed, s.next⟩ p) : Code D lim s (s.addComputed p)
  /-- The beginning of `transaction`, or of `set` outside of one (dependencies/mod.rs:43-48) -/
  | begin_ {s : St (Val V)} {tx} (h : s.tx.up = .ok tx) : Code D lim s ({ s with tx := tx }.emit .begin_)
  /-- The end of an inner transaction (dependencies/mod.rs:50-54) -/
  | end_ {s : St (Val V)} {tx} (h : s.tx.down = (tx, none)) : Code D lim s ({ s with tx := tx }.emit .end_)
  /-- `set`, `set_value_and_compare` (value.rs:106-111, 161-168) -/
  | write {s s' id v b} (h : s.write id v b = .ok s') : Code D lim s s'
  /-- `get` (value.rs:113-116, computed_box.rs:84-86) -/
  | get {s s' id v} (h : getNode lim [] s id = .ok (s', v)) : Code D lim s (s'.emit (.read id v (!s'.taint id) s'.vals s'.defs))

/-- Subscriptions of new nodes are opened (dom_element.rs:86-119, dom_text.rs:28-43, dom_value.rs:14-30, dom_list.rs:50-76). `fs` are the
subscriptions of the nodes that are in the document. -/
inductive Fill (D : GraphId → Prog (Val V) → Prop) (lim : Nat) (fs : List (Fact (State V) V)) : St (Val V) × Links → St (Val V) × Links → Prop where
  /-- The rendering code makes a computed. -/
  | computed {s : St (Val V)} {l : Links} {p : Prog (Val V)} (hp : D ⟨.computed, s.next⟩ p) : Fill D lim fs (s, l) (s.addComputed p, l)
  /-- `subscribe` is called: the subscriber reads the computed of the node; its first run begins (computed_box.rs:101-112). -/
  | first {s s1 s' : St (Val V)} {l : Links} {e d o} (he : e ∈ fs) (hn : e.sub ∉ l.map (·.1)) (hd : Stands s.defs d e.f) (hsd : Steady D d)
      (h1 : (s.addClient d false fun _ => .done).startRun ⟨.client, s.next⟩ = .ok s1)
      (h2 : s1.observe lim ⟨.client, s.next⟩ = .ok (s', o)) : Fill D lim fs (s, l) (s', (e.sub, ⟨.client, s.next⟩) :: l)
  /-- A first run is over (computed_box.rs:113-124). -/
  | over {s s' : St (Val V)} {l : Links} {c cl} (hc : s.clients c = some cl) (hr : cl.ready = false) (h : s.finishRun c = .ok s') :
      Fill D lim fs (s, l) (s', l)

/-- All subscriptions of the nodes in the document are open, except for those that do not depend on the state (a static attribute has none), and
all first runs are over. -/
def Filled (fs : List (Fact (State V) V)) (z : St (Val V) × Links) : Prop :=
  (∀ e ∈ fs, e.sub ∈ z.2.map (·.1) ∨ ∀ σ, e.f σ = e.last) ∧ ∀ c cl, z.1.clients c = some cl → cl.ready = true

/-- A subscription of a node that is gone is dropped with the node (graph_value.rs:91-97). -/
inductive Release (fs : List (Fact (State V) V)) : St (Val V) × Links → St (Val V) × Links → Prop where
  | one {s s' : St (Val V)} {l : Links} {t c} (hl : (t, c) ∈ l) (hn : t ∉ fs.map (·.sub)) (h : s.dropOne c = .ok s') :
      Release fs (s, l) (s', l.filter fun p => decide (p ≠ (t, c)))

/-- Only subscriptions of nodes in the document are left. -/
def Released (fs : List (Fact (State V) V)) (z : St (Val V) × Links) : Prop := ∀ p ∈ z.2, p.1 ∈ fs.map (·.sub)

/-- What happens between two points at which no subscriber is running. -/
inductive Move (D : GraphId → Prog (Val V) → Prop) (lim : Nat) (order : List (Inst (State V) V) → List (Inst (State V) V)) : Sys V → Sys V → Prop where
  | code {s s' a l o} (h : Code D lim s s') : Move D lim order ⟨s, a, l, o⟩ ⟨s', a, l, o⟩
  /-- The outermost transaction ends: the subscribers that are affected are to be refreshed (dependencies/mod.rs:50-56). -/
  | finish {s a l o cs} (h : s.tx.down = (.refreshing, some cs)) :
      Move D lim order ⟨s, a, l, o⟩ ⟨{ ({ s with tx := .refreshing }.emit .end_) with todo := cs }.emit (.finish cs), a, l, o⟩
  /-- A subscriber that was dropped in the meantime (refresh.rs:39-43). -/
  | skip {s : St (Val V)} {a l o c cs} (htx : s.tx = .refreshing) (ht : s.todo = c :: cs) (hn : s.clients c = none) :
      Move D lim order ⟨s, a, l, o⟩ ⟨{ s with todo := cs }.emit (.skipped c), a, l, o⟩
  /-- A subscriber is refreshed and finds the value that it had (computed_box.rs:107-112). -/
  | same {s s1 s2 s' : St (Val V)} {a l o c cs} (htx : s.tx = .refreshing) (ht : s.todo = c :: cs)
      (h1 : ({ s with todo := cs }.emit (.refreshed c)).startRun c = .ok s1) (h2 : s1.observe lim c = .ok (s2, none))
      (h3 : s2.finishRun c = .ok s') : Move D lim order ⟨s, a, l, o⟩ ⟨s', a, l, o⟩
  /-- A subscriber is refreshed and finds another value: the part of the document that it belongs to is changed. -/
  | update {s s1 s2 s3 s4 s' : St (Val V)} {a l l1 l2 o c cs t v} (htx : s.tx = .refreshing) (ht : s.todo = c :: cs)
      (h1 : ({ s with todo := cs }.emit (.refreshed c)).startRun c = .ok s1) (h2 : s1.observe lim c = .ok (s2, some v))
      (hl : (t, c) ∈ l)
      (hf : Star (Fill D lim (factsAll (runAll (contents s) order t a.body a.next).1)) (s2, l) (s3, l1))
      (hF : Filled (factsAll (runAll (contents s) order t a.body a.next).1) (s3, l1))
      (hr : Star (Release (factsAll (runAll (contents s) order t a.body a.next).1)) (s3, l1) (s4, l2))
      (hR : Released (factsAll (runAll (contents s) order t a.body a.next).1) (s4, l2))
      (h3 : s4.finishRun c = .ok s') :
      Move D lim order ⟨s, a, l, o⟩ ⟨s', ⟨(runAll (contents s) order t a.body a.next).1, (runAll (contents s) order t a.body a.next).2.2⟩, l2,
        o ++ (runAll (contents s) order t a.body a.next).2.1⟩
  /-- The refresh phase ends (dependencies/mod.rs:60). -/
  | idle {s : St (Val V)} {a l o} (htx : s.tx = .refreshing) (ht : s.todo = []) :
      Move D lim order ⟨s, a, l, o⟩ ⟨{ s with tx := s.tx.moveToIdle }.emit .idle, a, l, o⟩

/-- The states that an application can reach: code runs, the views are mounted (`start_app`, lib.rs:375-400; `DomElement::child` of the body), and
then anything may happen. -/
inductive Reach (D : GraphId → Prog (Val V) → Prop) (lim : Nat) (order : List (Inst (State V) V) → List (Inst (State V) V)) (views : List (View (State V) V)) : Sys V → Prop where
  | mount {s s' l} (h : Star (Code D lim) {} s)
      (hf : Star (Fill D lim (factsAll (App.start (contents s) views).1.body)) (s, []) (s', l))
      (hF : Filled (factsAll (App.start (contents s) views).1.body) (s', l)) :
      Reach D lim order views ⟨s', (App.start (contents s) views).1, l, (App.start (contents s) views).2⟩
  | move {z z'} (h : Reach D lim order views z) (hm : Move D lim order z z') : Reach D lim order views z'

end
end Verif.Whole

import Verif.Dom.Command
/-!
# C49: what a view does to the document

Model of `crates/vertigo/src/dom/{dom_element,dom_text,dom_comment,dom_node}.rs` and
`crates/vertigo/src/render/{dom_value,dom_list}.rs`: which commands are sent when a view is created, when it is
inserted, when a subscription of it runs and when a part of it is dropped.

A view is what the application writes with `dom!`, `render_value`, `render_list` and fragments. Its computeds are
functions of the state of the application: that a subscription is called at once with the value in the current state
(C01, C07), again after a transaction that changed this value (C05, C07), and never after it was dropped (C08), is
what the properties named here say about the reactive core. In which order the subscriptions are run after a
transaction is left open here.

Not part of a view here: the attribute `class` (C24), event listeners, suspense (C25).
-/
namespace Verif.View
open Verif.Dom

/-- What the application writes. `S` is the state of the application, `V` the type of the values (and keys) of its
computeds.
* `element`: `DomElement::new(name).attr(..).child(..)`, or an element in `dom!` (html_parser.rs:167-346, C61). An attribute
  that does not depend on the state is a constant function (it sends the same commands).
* `text`: `DomText::new`.
* `computedText`: `DomText::new_computed`.
* `value`: `render_value_option(computed, render)`; `render` gives a node if `shown`. `render_value` is the case that
  everything is shown (dom_value.rs:35-42), and so is a computed in `dom!` (dom_macro/dom.rs:40-64).
* `list`: `render_list(computed, key, render)`.
* `fragment`: `DomComment::dom_fragment`, or several elements in `dom!` (html_parser.rs:33-38). -/
inductive View (S V : Type) where
  | element (name : String) (attrs : List (String × (S → Option String))) (children : List (View S V))
  | text (value : String)
  | computedText (f : S → String)
  | value (f : S → V) (shown : V → Bool) (render : V → View S V)
  | list (f : S → List V) (key : V → V) (render : V → View S V)
  | fragment (nodes : List (View S V))

/-- A subscription of an attribute: the computed, and the value it was last called with. -/
structure Attr (S : Type) where
  name : String
  f : S → Option String
  last : Option String

/-- A node that is in a document: what the application holds as a `DomNode`, with the subscriptions it owns
(dom_node.rs:6-10, dom_element.rs:22-28, dom_text.rs:7-11, dom_comment.rs:9-13; the state of a marker is in the
closures it owns: dom_value.rs:12-31, dom_list.rs:47-77, dom_comment.rs:72-90). -/
inductive Inst (S V : Type) where
  | element (id : Id) (name : String) (attrs : List (Attr S)) (children : List (Inst S V))
  | text (id : Id) (value : String)
  | computedText (id : Id) (f : S → String) (last : String)
  /-- `content` has at most one node -/
  | value (id parent : Id) (f : S → V) (shown : V → Bool) (render : V → View S V) (last : V) (content : List (Inst S V))
  /-- `content` has one node for each of the items -/
  | list (id parent : Id) (f : S → List V) (key : V → V) (render : V → View S V) (items : List V)
      (content : List (Inst S V))
  | fragment (id parent : Id) (content : List (Inst S V))

/-- dom_node.rs:21-27. -/
def Inst.id : Inst S V → Id
  | .element id .. => id
  | .text id _ => id
  | .computedText id .. => id
  | .value id .. => id
  | .list id .. => id
  | .fragment id .. => id

/-- A node that was created and not yet inserted. `mount` is the callback that `DriverDom::insert_before` calls
(dom_comment.rs:30-62); elements and texts have none. -/
structure Created (S V : Type) where
  id : Id
  mount : Id → Nat → Inst S V × List Cmd × Nat

/-- driver_module/dom.rs:223-235 (`insert_before`). The number is the next `DomId` (dom_id.rs:8-12). -/
def Created.insert (c : Created S V) (parent : Id) (ref : Option Id) (n : Nat) : Inst S V × List Cmd × Nat :=
  let r := c.mount parent n
  (r.1, .insertBefore parent c.id ref :: r.2.1, r.2.2)

/-- dom_element_class.rs:136-160 (`set_attr_value`, names other than `class`). -/
def attrCmd (id : Id) (name : String) : Option String → Cmd
  | some value => .setAttr id name value
  | none => .removeAttr id name

mutual
/-- Dropping a node: its own `drop` sends the removal (dom_element.rs:395-399, dom_text.rs:50-54, dom_comment.rs:93-97),
then what it owns is dropped, in the order of the fields. The nodes of a fragment are kept in reverse order
(dom_comment.rs:73). -/
def drops : Inst S V → List Cmd
  | .element id _ _ children => .removeNode id :: dropsAll children
  | .text id _ => [.removeText id]
  | .computedText id _ _ => [.removeText id]
  | .value id _ _ _ _ _ content => .removeComment id :: dropsAll content
  | .list id _ _ _ _ _ content => .removeComment id :: dropsAll content
  | .fragment id _ content => .removeComment id :: dropsRev content
def dropsAll : List (Inst S V) → List Cmd
  | [] => []
  | i :: is => drops i ++ dropsAll is
def dropsRev : List (Inst S V) → List Cmd
  | [] => []
  | i :: is => dropsRev is ++ drops i
end

/-- The callback of `render_value_option` (dom_value.rs:17-30): the new node is created and inserted before the marker,
then the old one is dropped. -/
def onValue (create : V → Nat → Created S V × List Cmd × Nat) (id parent : Id) (shown : V → Bool) (v : V)
    (old : List (Inst S V)) (n : Nat) : List (Inst S V) × List Cmd × Nat :=
  if shown v then
    let c := create v n
    let i := c.1.insert parent (some id) c.2.2
    ([i.1], c.2.1 ++ i.2.1 ++ dropsAll old, i.2.2)
  else ([], dropsAll old, n)

section list
variable [DecidableEq V]

/-- dom_list.rs:116-148 (`get_pairs_top`): what is matched, and what is left of the two lists. -/
def pairsTop : List (V × Inst S V) → List V → List (V × Inst S V) × List (V × Inst S V) × List V
  | (v1, i) :: current, v2 :: new =>
      if v1 = v2 then
        let r := pairsTop current new
        ((v1, i) :: r.1, r.2.1, r.2.2)
      else ([], (v1, i) :: current, v2 :: new)
  | current, new => ([], current, new)

/-- dom_list.rs:150-182 (`get_pairs_bottom`): the same from the end. -/
def pairsBottom (current : List (V × Inst S V)) (new : List V) : List (V × Inst S V) × List (V × Inst S V) × List V :=
  let r := pairsTop current.reverse new.reverse
  (r.1.reverse, r.2.1.reverse, r.2.2.reverse)

/-- `entry(key).or_default().pop_front()` of the nodes of the old list (dom_list.rs:236-244). -/
def pop (key : V → V) (k : V) : List (V × Inst S V) → Option (Inst S V × List (V × Inst S V))
  | [] => none
  | (v, i) :: cache =>
      if key v = k then some (i, cache)
      else
        match pop key k cache with
        | none => none
        | some (j, cache) => some (j, (v, i) :: cache)

/-- What the loop dom_list.rs:203-213 leaves. -/
structure Placed (S V : Type) where
  pairs : List (V × Inst S V)
  cache : List (V × Inst S V)
  cmds : List Cmd
  next : Nat

/-- dom_list.rs:203-213 and 242-252: the loop (over the items in reverse order). `fresh` renders an item and inserts the
node before the given one, `again` inserts a node of the old list. -/
def place (key : V → V) (fresh : Id → V → Nat → Inst S V × List Cmd × Nat)
    (again : Id → Inst S V → Nat → Inst S V × List Cmd × Nat) :
    List V → List (V × Inst S V) → Id → Nat → Placed S V
  | [], cache, _, n => ⟨[], cache, [], n⟩
  | v :: vs, cache, ref, n =>
      match pop key (key v) cache with
      | some (i, cache) =>
          let r := again ref i n
          let t := place key fresh again vs cache r.1.id r.2.2
          ⟨t.pairs ++ [(v, r.1)], t.cache, r.2.1 ++ t.cmds, t.next⟩
      | none =>
          let r := fresh ref v n
          let t := place key fresh again vs cache r.1.id r.2.2
          ⟨t.pairs ++ [(v, r.1)], t.cache, r.2.1 ++ t.cmds, t.next⟩

/-- The callback of `render_list` (dom_list.rs:55-77, 81-106). The nodes that are not used any more are dropped in the
order of a `HashMap`: `order` puts them in any order. -/
def onList (key : V → V) (fresh : Id → V → Nat → Inst S V × List Cmd × Nat)
    (again : Id → Inst S V → Nat → Inst S V × List Cmd × Nat) (order : List (Inst S V) → List (Inst S V))
    (id : Id) (current : List (V × Inst S V)) (new : List V) (n : Nat) : List (V × Inst S V) × List Cmd × Nat :=
  let top := pairsTop current new
  let bottom := pairsBottom top.2.1 top.2.2
  let ref := (bottom.1.head?.map (·.2.id)).getD id
  let m := place key fresh again bottom.2.2.reverse bottom.2.1 ref n
  (top.1 ++ m.pairs ++ bottom.1, m.cmds ++ dropsAll (order (m.cache.map (·.2))), m.next)

/-- Inserting the nodes of a fragment before the marker (dom_comment.rs:72-90): the last one first; each before the one
inserted before it. The last component is the id of the first node. -/
def mountAll (parent : Id) (id : Id) : List (Created S V) → Nat → List (Inst S V) × List Cmd × Nat × Id
  | [], n => ([], [], n, id)
  | c :: cs, n =>
      let r := mountAll parent id cs n
      let i := c.insert parent (some r.2.2.2) r.2.2.1
      (i.1 :: r.1, r.2.1 ++ i.2.1, i.2.2, i.1.id)

mutual
/-- Creating the node of a view in the state `σ`; the number is the next `DomId`. -/
def create (σ : S) : View S V → Nat → Created S V × List Cmd × Nat
  /- dom_element.rs:31-47 (`new`), 81-131 (`attr`), 141-156 (`child`) -/
  | .element name attrs children, n =>
      let r := createChildren σ n children (n + 1)
      (⟨n, fun _ m => (.element n name (attrs.map fun a => ⟨a.1, a.2, a.2 σ⟩) r.1, [], m)⟩,
        .createNode n name :: (attrs.map (fun a => attrCmd n a.1 (a.2 σ)) ++ r.2.1), r.2.2)
  /- dom_text.rs:14-26 -/
  | .text value, n => (⟨n, fun _ m => (.text n value, [], m)⟩, [.createText n value], n + 1)
  /- dom_text.rs:28-43 -/
  | .computedText f, n =>
      (⟨n, fun _ m => (.computedText n f (f σ), [], m)⟩, [.createText n "", .updateText n (f σ)], n + 1)
  /- dom_value.rs:5-33 and dom_comment.rs:30-62 -/
  | .value f shown render, n =>
      (⟨n, fun p m =>
        let r := onValue (fun v m => create σ (render v) m) n p shown (f σ) [] m
        (.value n p f shown render (f σ) r.1, r.2.1, r.2.2)⟩,
        [.createComment n "value element"], n + 1)
  /- dom_list.rs:38-79 and dom_comment.rs:30-62; there are no nodes to be inserted again or dropped -/
  | .list f key render, n =>
      (⟨n, fun p m =>
        let r := onList key
          (fun ref v m =>
            let c := create σ (render v) m
            let i := c.1.insert p (some ref) c.2.2
            (i.1, c.2.1 ++ i.2.1, i.2.2))
          (fun _ i m => (i, [], m)) (fun x => x) n [] (f σ) m
        (.list n p f key render (r.1.map (·.1)) (r.1.map (·.2)), r.2.1, r.2.2)⟩,
        [.createComment n "list element"], n + 1)
  /- dom_comment.rs:72-90; the nodes are created before the marker -/
  | .fragment nodes, n =>
      let r := createAll σ nodes n
      (⟨r.2.2, fun p m =>
        let t := mountAll p r.2.2 r.1 m
        (.fragment r.2.2 p t.1, t.2.1, t.2.2.1)⟩,
        r.2.1 ++ [.createComment r.2.2 "list dom node"], r.2.2 + 1)
/-- The children of an element: each is created, then inserted as the last one (dom_element.rs:141-156). -/
def createChildren (σ : S) (parent : Id) : List (View S V) → Nat → List (Inst S V) × List Cmd × Nat
  | [], n => ([], [], n)
  | v :: vs, n =>
      let c := create σ v n
      let i := c.1.insert parent none c.2.2
      let r := createChildren σ parent vs i.2.2
      (i.1 :: r.1, c.2.1 ++ i.2.1 ++ r.2.1, r.2.2)
/-- The nodes of a fragment: all are created before one is inserted. -/
def createAll (σ : S) : List (View S V) → Nat → List (Created S V) × List Cmd × Nat
  | [], n => ([], [], n)
  | v :: vs, n =>
      let c := create σ v n
      let r := createAll σ vs c.2.2
      (c.1 :: r.1, c.2.1 ++ r.2.1, r.2.2)
end

/-- Rendering a node and inserting it before another one. -/
def createBefore (σ : S) (render : V → View S V) (parent ref : Id) (v : V) (n : Nat) : Inst S V × List Cmd × Nat :=
  let c := create σ (render v) n
  let i := c.1.insert parent (some ref) c.2.2
  (i.1, c.2.1 ++ i.2.1, i.2.2)

mutual
/-- Inserting a node again (driver_module/dom.rs:223-235): the callback of a marker is called again, and what it made
before is dropped afterwards (dom_comment.rs:40-46); a fragment inserts its nodes again. -/
def remount (σ : S) : Inst S V → Id → Nat → Inst S V × List Cmd × Nat
  | .value id _ f shown render _ content, p, n =>
      let r := onValue (fun v m => create σ (render v) m) id p shown (f σ) [] n
      (.value id p f shown render (f σ) r.1, r.2.1 ++ dropsAll content, r.2.2)
  | .list id _ f key render _ content, p, n =>
      let r := onList key (createBefore σ render p) (fun _ i m => (i, [], m)) (fun x => x) id [] (f σ) n
      (.list id p f key render (r.1.map (·.1)) (r.1.map (·.2)), r.2.1 ++ dropsAll content, r.2.2)
  | .fragment id _ content, p, n =>
      let r := remountAll σ id content p n
      (.fragment id p r.1, r.2.1, r.2.2.1)
  | .element id name attrs children, _, n => (.element id name attrs children, [], n)
  | .text id value, _, n => (.text id value, [], n)
  | .computedText id f last, _, n => (.computedText id f last, [], n)
def remountAll (σ : S) (id : Id) : List (Inst S V) → Id → Nat → List (Inst S V) × List Cmd × Nat × Id
  | [], _, n => ([], [], n, id)
  | i :: is, p, n =>
      let r := remountAll σ id is p n
      let j := remount σ i p r.2.2.1
      (j.1 :: r.1, r.2.1 ++ .insertBefore p i.id (some r.2.2.2) :: j.2.1, j.2.2, i.id)
end

/-- `insert_before` of a node of the old list. -/
def insertAgain (σ : S) (parent ref : Id) (i : Inst S V) (n : Nat) : Inst S V × List Cmd × Nat :=
  let r := remount σ i parent n
  (r.1, .insertBefore parent i.id (some ref) :: r.2.1, r.2.2)

/-- A subscription, named by the node that owns it and, for an attribute, the name. -/
abbrev Sub := Id × Option String

/-- Running the subscription of one attribute: called if the value has changed (C07). -/
def Attr.run (σ : S) (id : Id) (s : Sub) (a : Attr S) : Attr S × List Cmd :=
  if s = (id, some a.name) ∧ a.f σ ≠ a.last then ({ a with last := a.f σ }, [attrCmd id a.name (a.f σ)]) else (a, [])

/-- The attributes of an element. -/
def runAttrs (σ : S) (id : Id) (s : Sub) : List (Attr S) → List (Attr S) × List Cmd
  | [] => ([], [])
  | a :: as =>
      let r := a.run σ id s
      let t := runAttrs σ id s as
      (r.1 :: t.1, r.2 ++ t.2)

mutual
/-- Running a subscription in the state `σ`: the node that owns it is changed. -/
def run (σ : S) (order : List (Inst S V) → List (Inst S V)) (s : Sub) : Inst S V → Nat → Inst S V × List Cmd × Nat
  | .element id name attrs children, n =>
      let a := runAttrs σ id s attrs
      let r := runAll σ order s children n
      (.element id name a.1 r.1, a.2 ++ r.2.1, r.2.2)
  | .text id value, n => (.text id value, [], n)
  | .computedText id f last, n =>
      if s = (id, none) ∧ f σ ≠ last then (.computedText id f (f σ), [.updateText id (f σ)], n)
      else (.computedText id f last, [], n)
  | .value id p f shown render last content, n =>
      if s = (id, none) ∧ f σ ≠ last then
        let r := onValue (fun v m => create σ (render v) m) id p shown (f σ) content n
        (.value id p f shown render (f σ) r.1, r.2.1, r.2.2)
      else
        let r := runAll σ order s content n
        (.value id p f shown render last r.1, r.2.1, r.2.2)
  | .list id p f key render items content, n =>
      if s = (id, none) ∧ f σ ≠ items then
        let r := onList key (createBefore σ render p) (insertAgain σ p) order id (items.zip content) (f σ) n
        (.list id p f key render (r.1.map (·.1)) (r.1.map (·.2)), r.2.1, r.2.2)
      else
        let r := runAll σ order s content n
        (.list id p f key render items r.1, r.2.1, r.2.2)
  | .fragment id p content, n =>
      let r := runAll σ order s content n
      (.fragment id p r.1, r.2.1, r.2.2)
def runAll (σ : S) (order : List (Inst S V) → List (Inst S V)) (s : Sub) :
    List (Inst S V) → Nat → List (Inst S V) × List Cmd × Nat
  | [], n => ([], [], n)
  | i :: is, n =>
      let r := run σ order s i n
      let t := runAll σ order s is r.2.2
      (r.1 :: t.1, r.2.1 ++ t.2.1, t.2.2)
end

/-- The application: the nodes in the body, and the next `DomId`. -/
structure App (S V : Type) where
  body : List (Inst S V)
  next : Nat

/-- The start of an application whose root is `<html><head/><body>{views}</body></html>`. The ids of these three
elements are fixed (dom_id.rs:3-6, 24-33). -/
def App.start (σ : S) (views : List (View S V)) : App S V × List Cmd :=
  let r := createChildren σ 3 views 4
  (⟨r.1, r.2.2⟩, [.createNode 1 "html", .createNode 2 "head", .insertBefore 1 2 none, .createNode 3 "body"] ++ r.2.1 ++
    [.insertBefore 1 3 none])

/-- After a transaction that leads to the state `σ` the subscriptions `subs` are run, in this order. -/
def App.change (σ : S) (order : List (Inst S V) → List (Inst S V)) : List Sub → App S V → App S V × List Cmd
  | [], a => (a, [])
  | s :: subs, a =>
      let r := runAll σ order s a.body a.next
      let t := App.change σ order subs ⟨r.1, r.2.2⟩
      (t.1, r.2.1 ++ t.2)

/-- A history: the states after the transactions, and the subscriptions that are run. -/
def App.history (order : List (Inst S V) → List (Inst S V)) : List (S × List Sub) → App S V → App S V × List Cmd
  | [], a => (a, [])
  | (σ, subs) :: h, a =>
      let r := a.change σ order subs
      let t := App.history order h r.1
      (t.1, r.2 ++ t.2)

end list
end Verif.View

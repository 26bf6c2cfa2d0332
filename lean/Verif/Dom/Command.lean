import Verif.Dom.Children
/-!
# DOM commands, and the two machines that execute them

Sources: `crates/vertigo/src/driver_module/dom_command.rs` (commands),
`crates/vertigo/src/driver_module/src_js/api_browser/dom/{dom,map_nodes}.ts` (browser),
`crates/vertigo-cli/src/serve/html/{element,ordered_map}.rs` (server).
-/
namespace Verif.Dom

/-- dom_command.rs:6-61 (client side; dom.ts:19-72). -/
inductive Cmd where
  | createNode (id : Id) (name : String)
  | createText (id : Id) (value : String)
  | updateText (id : Id) (value : String)
  | setAttr (id : Id) (name value : String)
  | removeAttr (id : Id) (name : String)
  | removeNode (id : Id)
  | removeText (id : Id)
  | insertBefore (parent child : Id) (ref : Option Id)
  | insertCss (selector value : String)
  | createComment (id : Id) (value : String)
  | removeComment (id : Id)
  | callbackAdd (id : Id) (event : String) (callback : Nat)
  | callbackRemove (id : Id) (event : String) (callback : Nat)
  deriving Repr, DecidableEq

/-- dom_command.rs:64-69 (`is_event`). -/
def Cmd.isEvent : Cmd → Bool
  | .removeNode _ => true
  | .removeText _ => true
  | .removeComment _ => true
  | _ => false

/-- The loop dom_command.rs:161-167, with the two vectors. -/
def sortLoop : List Cmd → List Cmd → List Cmd → List Cmd × List Cmd
  | [], dom, events => (dom, events)
  | c :: cs, dom, events =>
      if c.isEvent then sortLoop cs dom (events ++ [c]) else sortLoop cs (dom ++ [c]) events

/-- dom_command.rs:157-172 (`sort_commands`). -/
def sortCommands (list : List Cmd) : List Cmd :=
  let (dom, events) := sortLoop list [] []
  dom ++ events

/-! ## The browser -/

/-- What a node is. Attributes are a map (setting an attribute in the browser keeps its
place, but the order of attributes has no meaning in a document). -/
inductive Content where
  | element (name : String) (attr : String → Option String)
  | text (value : String)
  | comment (value : String)

/-- The page and the `MapNodes` of the driver (map_nodes.ts).  A DOM object is named by the
id it was created with (ids are not reused, `Cmd.fresh`); `objects` remembers it also after
it was removed from the map, `inMap` says that the map has it.  The ids 1, 2, 3 are the html,
head and body elements of the page, which exist from the beginning.
`listeners` are the installed event listeners: (callback id, node id, event). -/
structure Browser where
  objects : Id → Option Content
  inMap : Id → Bool
  parent : Id → Option Id
  children : Id → List Id
  /-- the ids of all objects -/
  objs : List Id
  css : List (String × String)
  listeners : List (Nat × Id × String)

/-- Why a command is not executed. -/
inductive Fail where
  /-- a JavaScript exception: logged, and the next command is executed (dom.ts:451-455) -/
  | throws
  /-- an id is used for a second object (outside of this model) -/
  | reused
  deriving Repr, DecidableEq

def fupd {α : Type} (f : Id → α) (x : Id) (a : α) : Id → α := fun y => if y = x then a else f y

/-- An empty page. -/
def Browser.init : Browser where
  objects := fun x => if x = 1 then some (.element "html" fun _ => none)
    else if x = 2 then some (.element "head" fun _ => none)
    else if x = 3 then some (.element "body" fun _ => none) else none
  inMap := fun _ => false
  parent := fun x => if x = 2 ∨ x = 3 then some 1 else none
  children := fun x => if x = 1 then [2, 3] else []
  objs := [1, 2, 3]
  css := []
  listeners := []

def isRoot (id : Id) : Bool := id = 1 || id = 2 || id = 3

/-- map_nodes.ts:29-62 (`get`, `get_any`). -/
def Browser.get (b : Browser) (id : Id) : Option Content :=
  if isRoot id || b.inMap id then b.objects id else none

/-- Creation of an object and `nodes.set` (map_nodes.ts:21-27: ignored for the roots). -/
def Browser.create (b : Browser) (id : Id) (c : Content) : Except Fail Browser :=
  if isRoot id then .ok b
  else if (b.objects id).isSome then .error .reused
  else .ok { b with objects := fupd b.objects id (some c), inMap := fupd b.inMap id true, objs := id :: b.objs }

/-- `ChildNode.remove()`. -/
def Browser.detach (b : Browser) (id : Id) : Browser :=
  match b.parent id with
  | none => b
  | some p => { b with
      parent := fupd b.parent id none
      children := fupd b.children p ((b.children p).filter (· ≠ id)) }

/-- map_nodes.ts:100-109 and `remove()`. -/
def Browser.remove (b : Browser) (id : Id) : Except Fail Browser :=
  match b.get id with
  | none => .error .throws
  | some _ => .ok ({ b with inMap := fupd b.inMap id false }.detach id)

/-- The node and its ancestors (at most `n` of them). -/
def chain (parent : Id → Option Id) : Nat → Id → List Id
  | 0, _ => []
  | n + 1, x =>
      x :: match parent x with
        | none => []
        | some p => chain parent n p

/-- `parent.insertBefore(child, ref)` of the DOM standard: exceptions if the parent is not an
element, the child is an ancestor of the parent (or the parent), or the reference is not a
child of the parent; a child used as its own reference stands for its next sibling. -/
def Browser.insertBefore (b : Browser) (parent child : Id) (ref : Option Id) : Except Fail Browser :=
  match b.objects parent with
  | some (.element _ _) =>
      if child ∈ chain b.parent b.objs.length parent then .error .throws
      else
        match ref with
        | none =>
            let b := b.detach child
            .ok { b with
              parent := fupd b.parent child (some parent)
              children := fupd b.children parent (b.children parent ++ [child]) }
        | some r =>
            if b.parent r ≠ some parent then .error .throws
            else if r = child then .ok b
            else
              let b := b.detach child
              .ok { b with
                parent := fupd b.parent child (some parent)
                children := fupd b.children parent (insertBeforeIn child r (b.children parent)) }
  | _ => .error .throws

/-- One command (dom.ts:108-549).  Not modelled: attributes `value` that are mirrored in a
form field, the click handler of links, focus. Names are taken as they are (browsers change
upper case names of HTML elements and attributes to lower case). -/
def Browser.step (b : Browser) : Cmd → Except Fail Browser
  | .createNode id name => b.create id (.element name fun _ => none)
  | .createText id value => b.create id (.text value)
  | .createComment id value => b.create id (.comment value)
  | .updateText id value =>
      match b.get id with
      | some (.text _) => .ok { b with objects := fupd b.objects id (some (.text value)) }
      | _ => .error .throws
  | .setAttr id name value =>
      match b.get id with
      | some (.element n attr) => .ok { b with
          objects := fupd b.objects id (some (.element n fun x => if x = name then some value else attr x)) }
      | _ => .error .throws
  | .removeAttr id name =>
      match b.get id with
      | some (.element n attr) => .ok { b with
          objects := fupd b.objects id (some (.element n fun x => if x = name then none else attr x)) }
      | _ => .error .throws
  | .removeNode id => b.remove id
  | .removeText id => b.remove id
  | .removeComment id => b.remove id
  | .insertBefore parent child ref =>
      match b.get parent, b.get child with
      | some _, some _ =>
          match ref with
          | none => b.insertBefore parent child none
          | some r => if (b.get r).isNone then .error .throws else b.insertBefore parent child (some r)
      | _, _ => .error .throws
  | .insertCss selector value => .ok { b with css := b.css ++ [(selector, value)] }
  | .callbackAdd id event cb =>
      if b.listeners.any (·.1 = cb) then .ok b
      else if event = "hook_keydown" || (b.get id).isSome then
        .ok { b with listeners := b.listeners ++ [(cb, id, event)] }
      else .error .throws
  | .callbackRemove id event cb =>
      if b.listeners.any (·.1 = cb) then
        if event = "hook_keydown" || (b.get id).isSome then
          .ok { b with listeners := b.listeners.filter (·.1 ≠ cb) }
        else .error .throws
      else .ok b

/-- A stream of commands that the browser executes without an exception. -/
def Browser.run (b : Browser) : List Cmd → Except Fail Browser
  | [] => .ok b
  | c :: cs =>
      match b.step c with
      | .error e => .error e
      | .ok b => b.run cs

/-! ## The server -/

/-- ordered_map.rs:4-7. -/
structure OrderedMap where
  order : List String := []
  data : String → Option String := fun _ => none

/-- ordered_map.rs:17-37 (after the `insert` the key is present, so the first branch is the
one taken). -/
def OrderedMap.set (m : OrderedMap) (name value : String) : OrderedMap :=
  let data := fun x => if x = name then some value else m.data x
  if (data name).isSome then { order := m.order.filter (· ≠ name) ++ [name], data }
  else { order := m.order ++ [name], data }

/-- ordered_map.rs:39-48; `none` is the panic of `unwrap`. -/
def OrderedMap.getIterLoop (m : OrderedMap) : List String → Option (List (String × String))
  | [] => some []
  | k :: ks =>
      match m.data k, m.getIterLoop ks with
      | some v, some l => some ((k, v) :: l)
      | _, _ => none

def OrderedMap.getIter (m : OrderedMap) : Option (List (String × String)) := m.getIterLoop m.order

/-- element.rs:8-18. -/
inductive SNode where
  | element (name : String) (attr : OrderedMap) (children : ElementChildren)
  | text (value : String)
  | comment (value : String)

/-- element.rs:32-36 (`AllElements`). -/
structure Server where
  parent : Id → Option Id := fun _ => none
  all : Id → Option SNode := fun _ => none
  css : List (String × String) := []

/-- element.rs:70-80; `none` is a panic. -/
def Server.removeFromParent (s : Server) (child : Id) : Option Server :=
  match s.parent child with
  | none => some s
  | some p =>
      match s.all p with
      | some (.element n a ch) =>
          match ch.remove child with
          | none => none
          | some ch => some { s with all := fupd s.all p (some (.element n a ch)) }
      | _ => some s

/-- element.rs:82-87. -/
def Server.remove (s : Server) (child : Id) : Option Server :=
  match s.removeFromParent child with
  | none => none
  | some s => some { s with parent := fupd s.parent child none, all := fupd s.all child none }

/-- element.rs:89-98. -/
def Server.insertBefore (s : Server) (parent : Id) (ref : Option Id) (child : Id) : Option Server :=
  match s.removeFromParent child with
  | none => none
  | some s =>
      let s := { s with parent := fupd s.parent child (some parent) }
      match s.all parent with
      | some (.element n a ch) =>
          match ch.insertBefore ref child with
          | none => none
          | some ch => some { s with all := fupd s.all parent (some (.element n a ch)) }
      | _ => none

/-- element.rs:109-152 (`feed`), one command; `none` is a panic.  `remove_attr` does not
get here: it is rejected by the parser (html/dom_command.rs:103-105, `unreachable!()`). -/
def Server.step (s : Server) : Cmd → Option Server
  | .createNode id name => some { s with all := fupd s.all id (some (.element name {} {})) }
  | .createText id value => some { s with all := fupd s.all id (some (.text value)) }
  | .updateText id value => some { s with all := fupd s.all id (some (.text value)) }
  | .createComment id value => some { s with all := fupd s.all id (some (.comment value)) }
  | .setAttr id name value =>
      match s.all id with
      | some (.element n a ch) => some { s with all := fupd s.all id (some (.element n (a.set name value) ch)) }
      | _ => none
  | .removeAttr _ _ => none
  | .removeNode id => s.remove id
  | .removeText id => s.remove id
  | .removeComment id => s.remove id
  | .insertBefore parent child ref => s.insertBefore parent ref child
  | .insertCss selector value => some { s with css := s.css ++ [(selector, value)] }
  | .callbackAdd _ _ _ => some s
  | .callbackRemove _ _ _ => some s

def Server.run (s : Server) : List Cmd → Option Server
  | [] => some s
  | c :: cs =>
      match s.step c with
      | none => none
      | some s => s.run cs

end Verif.Dom

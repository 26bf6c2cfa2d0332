import Verif.Reactive.Tx
/-!
# Model of the reactive core

Sources (below `crates/vertigo/src/computed/`): `graph_value.rs`, `computed_box.rs`,
`value.rs`, `context.rs`, `dependencies/mod.rs`, `dependencies/graph.rs`,
`dependencies/refresh.rs`, `dependencies/external_connections.rs`.

User code is represented by two kinds of trees.  `Prog` is the closure of a
`Computed`: it reads nodes and finally returns a value; what it reads next may depend
on what it has read.  `Act` is any other user code (the main program, event handlers,
subscriber callbacks): it creates nodes, subscribes, drops, opens and closes
transactions, writes and reads.  All values have one type `V` (the Rust code is generic
per node; a union type loses nothing).

Simplifications: closures of a `Computed` have no side effects on the graph; the
`connect` function of a `with_connect` value does not touch the graph when it is called
(it is an event of the log); a `Computed` is destroyed by an explicit `dropComputed`
instead of by reference counting.
-/
namespace Verif.Reactive

variable {V : Type}

/-- The closure of a `Computed` (computed_box.rs:74-78, graph_value.rs:8). -/
inductive Prog (V : Type) where
  | ret (v : V)
  | read (id : GraphId) (k : V → Prog V)

/-- User code outside of `Computed` closures. -/
inductive Act (V : Type) where
  | done
  /-- `Value::new` (value.rs:67-76), or the value of `Value::with_connect`
  (value.rs:82-104) when `connectable`. -/
  | newValue (init : V) (connectable : Bool) (k : GraphId → Act V)
  /-- `Computed::from` (computed_box.rs:74-78); `Value::to_computed`, `map` are
  instances. -/
  | newComputed (p : Prog V) (k : GraphId → Act V)
  /-- `subscribe` (`all = false`, computed_box.rs:101-125) or `subscribe_all`
  (computed_box.rs:128-146).  With `own` the returned resource becomes part of the
  resource returned by the subscriber callback that is running. -/
  | subscribe (target : GraphId) (all own : Bool) (cb : V → Act V) (k : GraphId → Act V)
  /-- Drop the resource returned by `subscribe`. -/
  | dropSub (id : GraphId) (k : Act V)
  /-- Drop the last handle of a `Computed`. -/
  | dropComputed (id : GraphId) (k : Act V)
  /-- Beginning and end of `transaction` (dependencies/mod.rs:43-64). -/
  | txBegin (k : Act V)
  | txEnd (k : Act V)
  /-- Inside of `set` (value.rs:108-109), or of `set_value_and_compare`
  (value.rs:163-166) when `cmp`. -/
  | write (id : GraphId) (v : V) (cmp : Bool) (k : Act V)
  /-- `Value::get` / `Computed::get` with a context. -/
  | get (id : GraphId) (k : V → Act V)

/-- A subscription: the client `GraphValue` with the variables captured by its closure
(computed_box.rs:102-117). -/
structure Client (V : Type) where
  target : GraphId
  all : Bool
  cb : V → Act V
  /-- `prev_value`. -/
  prev : Option V := none
  /-- `state` of the `GraphValue` is `Some`. -/
  ready : Bool := false
  /-- What `resource_box` keeps alive. -/
  owned : List GraphId := []
  /-- Resources created by the callback run in progress. -/
  fresh : List GraphId := []
  /-- The closure is running, that is, a strong reference is on the stack. -/
  running : Bool := false
  /-- The resource was dropped while the closure was running. -/
  dropReq : Bool := false

/-- Observable events. Snapshots (`vals`, `defs`, `clean`) are only for stating
properties. -/
inductive Ev (V : Type) where
  /-- User code read `v` from `id`. -/
  | read (id : GraphId) (v : V) (clean : Bool) (vals : GraphId → Option V)
      (defs : GraphId → Option (Prog V))
  /-- The callback of the subscription was called with `v`. -/
  | deliver (c : GraphId) (v : V) (clean : Bool) (vals : GraphId → Option V)
      (defs : GraphId → Option (Prog V))
  /-- A subscription of the node `target` was created. -/
  | subscribed (c target : GraphId) (all : Bool)
  /-- A computed was created. -/
  | defined (id : GraphId) (p : Prog V)
  /-- The run of the closure of the subscription is over. -/
  | ran (c : GraphId)
  /-- The resource of the subscription was dropped while its closure is running. -/
  | released (c : GraphId)
  /-- The `GraphValue` of the subscription or computed was destroyed. -/
  | dropped (c : GraphId)
  | connect (id : GraphId)
  | disconnect (id : GraphId)
  | wrote (id : GraphId) (affected : List GraphId)
  | begin_
  | end_
  /-- The outermost transaction ends, with these subscribers to refresh. -/
  | finish (clients : List GraphId)
  | refreshed (c : GraphId)
  | skipped (c : GraphId)
  /-- The transaction is over (`hooks.fire_end`, dependencies/mod.rs:61). -/
  | idle

/-- What happens to the cached values of computeds (graph_value.rs:9), in order. -/
inductive Work where
  /-- The closure of the computed `id` was run and has read `reads`
  (graph_value.rs:52-64). -/
  | run (id : GraphId) (reads : List GraphId)
  /-- The cached value of `id` was discarded because the value `x` was set
  (dependencies/mod.rs:66-84). -/
  | stale (x id : GraphId)
  /-- The cached value of `id` was discarded by an update of the links (graph.rs:45-62);
  `readers` are the consumers `id` has at this moment. -/
  | released (id : GraphId) (readers : List GraphId)
  deriving DecidableEq

/-- The state of `Dependencies` and of all nodes. -/
structure St (V : Type) where
  /-- graph_id.rs:38. -/
  next : Nat := 1
  /-- Contents of the values. -/
  vals : GraphId → Option V := fun _ => none
  /-- Closures of the existing computeds. -/
  defs : GraphId → Option (Prog V) := fun _ => none
  /-- `state` of the existing computeds (graph_value.rs:9). -/
  cache : GraphId → Option V := fun _ => none
  conn : Conn := Conn.empty
  tx : TxState := .idle
  /-- external_connections.rs:7 (`connect`). -/
  connectable : GraphId → Bool := fun _ => false
  /-- external_connections.rs:8 (`connected_resource`). -/
  connected : GraphId → Bool := fun _ => false
  clients : GraphId → Option (Client V) := fun _ => none
  /-- Ghost: subscribers still to be refreshed in the refresh phase
  (the loop variable of dependencies/mod.rs:56). -/
  todo : List GraphId := []
  /-- Ghost: see `mark`. -/
  taint : GraphId → Bool := fun _ => false
  /-- Ghost: what happened so far. -/
  log : List (Ev V) := []
  /-- Ghost: what happened to the cached values so far. -/
  work : List Work := []

def upd {α : Type} (f : GraphId → α) (id : GraphId) (a : α) : GraphId → α :=
  fun x => if x = id then a else f x

def St.emit (s : St V) (e : Ev V) : St V := { s with log := s.log ++ [e] }

/-- refresh.rs:45-49 with graph_value.rs:42-45: `state.set(None)` of an existing
computed or client. -/
def St.clearCache (s : St V) (id : GraphId) : St V :=
  match id.kind with
  | .value => s
  | .computed => { s with cache := upd s.cache id none }
  | .client =>
      match s.clients id with
      | none => s
      | some cl => { s with clients := upd s.clients id (some { cl with ready := false }) }

/-- external_connections.rs:27-40. -/
def St.setConnection (s : St V) (id : GraphId) (should : Bool) : St V :=
  if should then
    if s.connected id then s
    else if s.connectable id then
      { s with connected := upd s.connected id true }.emit (.connect id)
    else s
  else if s.connected id then
    { s with connected := upd s.connected id false }.emit (.disconnect id)
  else s

/-- Ghost: the record `w`, if a cached value of `id` is discarded now. -/
def St.forgot (s : St V) (id : GraphId) (w : Work) : List Work :=
  if (s.cache id).isSome then s.work ++ [w] else s.work

/-- The loop graph.rs:45-62. -/
def St.applyInfo (s : St V) : List (GraphId × Bool) → St V
  | [] => s
  | (id, active) :: rest =>
      let s := match id.kind with
        | .value => s.setConnection id active
        | _ => if active then s else
            { s.clearCache id with work := s.forgot id (.released id (s.conn.pc.get id)) }
      s.applyInfo rest

/-- graph.rs:36-63 (`set_parent_for_client`). -/
def St.setParents (s : St V) (id : GraphId) (parents : List GraphId) : Except Err (St V) :=
  match s.conn.setParents id parents with
  | none => .error .deep
  | some (conn, info) => .ok ({ s with conn := conn }.applyInfo info)

/-- Ghost bookkeeping when the producers of the computed `id` have just been recorded:
the node is marked when what it has read is no longer a valid cache of its own — some
`Computed` it has read was marked, or has been released in the meantime — or its own
links were released, or its closure was already running (it reads itself, which only
terminates in pathological cases). `reads` lists the nodes read, with their mark at that
time. -/
def St.mark (s : St V) (stack : List GraphId) (id : GraphId) (reads : List (GraphId × Bool)) :
    St V :=
  { s with
    taint := upd s.taint id (decide (id ∈ stack) || reads.any fun r =>
      r.2 || decide (id ∉ s.conn.pc.get r.1) ||
      (decide (r.1.kind = .computed) && ((s.cache r.1).isNone || s.taint r.1))) }

/-- Run the closure of a computed with a fresh context (graph_value.rs:53-54).
`rd` reads a node.  Returns the value and the context. -/
def Prog.eval (rd : St V → GraphId → Except Err (St V × V)) :
    Prog V → St V → List (GraphId × Bool) → Except Err (St V × V × List (GraphId × Bool))
  | .ret v, s, ctx => .ok (s, v, ctx)
  | .read id k, s, ctx =>
      match rd s id with
      | .error e => .error e
      | .ok (s', v) => (k v).eval rd s' (ctx ++ [(id, s'.taint id)])

/-- `Value::get` (value.rs:113-116) and `GraphValue::get_value` with
`calculate_new_value` (graph_value.rs:52-76); `context.add_parent` is done by the
caller (`Prog.eval`).  The first argument limits the recursion; the second one is ghost
(the computeds whose closures are running). -/
def getNode : Nat → List GraphId → St V → GraphId → Except Err (St V × V)
  | 0, _, _, _ => .error .deep
  | n + 1, stack, s, id =>
      match id.kind with
      | .value =>
          match s.vals id with
          | none => .error .bad
          | some v => .ok (s, v)
      | .computed =>
          match s.defs id with
          | none => .error .bad
          | some p =>
              match s.cache id with
              | some v => .ok (s, v)
              | none =>
                  match p.eval (getNode n (id :: stack)) s [] with
                  | .error e => .error e
                  | .ok (s, v, ctx) =>
                      match s.setParents id (sOfList (ctx.map (·.1))) with
                      | .error e => .error e
                      | .ok s =>
                          .ok ({ s.mark stack id ctx with
                            cache := upd s.cache id (some v)
                            work := s.work ++ [.run id (ctx.map (·.1))] }, v)
      | .client => .error .bad

/-- The clients among the nodes found by `get_all_deps`, and the clearing of the caches
of the others (dependencies/mod.rs:69-81). A value among them is `unreachable!()`. -/
def St.invalidate (s : St V) : List GraphId → St V
  | [] => s
  | id :: rest =>
      let s := match id.kind with
        | .computed => s.clearCache id
        | _ => s
      s.invalidate rest

/-- dependencies/mod.rs:66-84 (`report_set`). -/
def St.reportSet (s : St V) (id : GraphId) : Except Err (St V) :=
  match s.conn.allDeps id with
  | none => .error .deep
  | some deps =>
      let clients := deps.filter fun d => d.kind = .client
      let stale := deps.filter fun d => decide (d.kind = .computed) && (s.cache d).isSome
      let s := s.invalidate deps
      .ok ({ s with
        tx := s.tx.addClients clients
        work := s.work ++ stale.map (Work.stale id) }.emit (.wrote id clients))

/-- Drop of one subscription (graph_value.rs:91-97): the refresh token goes, the links
go. -/
def St.dropOne (s : St V) (id : GraphId) : Except Err (St V) :=
  ({ s with clients := upd s.clients id none }.emit (.dropped id)).setParents id []

/-- Drop of subscriptions: after each one the resources captured by its closure are
dropped. A subscription whose closure is running is kept alive by the reference on the
stack (graph_value.rs:39). The first argument limits the length. -/
def St.dropAll : Nat → List GraphId → St V → Except Err (St V)
  | 0, _, _ => .error .deep
  | _ + 1, [], s => .ok s
  | n + 1, id :: rest, s =>
      match s.clients id with
      | none => St.dropAll n rest s
      | some cl =>
          if cl.running then
            St.dropAll n rest ({ s with
              clients := upd s.clients id (some { cl with dropReq := true }) }.emit (.released id))
          else
            match s.dropOne id with
            | .error e => .error e
            | .ok s => St.dropAll n (cl.owned ++ rest) s

/-- The closure of the client starts. -/
def St.startRun (s : St V) (id : GraphId) : Except Err (St V) :=
  match s.clients id with
  | none => .error .bad
  | some cl =>
      .ok { s with clients := upd s.clients id (some { cl with running := true, fresh := [] }) }

/-- First half of the closure of a client, computed_box.rs:107-112 / 132-134: read the
observed node, compare with the previous value, and decide whether to call back
(`some v`). -/
def St.observe [DecidableEq V] (lim : Nat) (s : St V) (id : GraphId) :
    Except Err (St V × Option V) :=
  match s.clients id with
  | none => .error .bad
  | some cl =>
      match getNode lim [] s cl.target with
      | .error e => .error e
      | .ok (s, v) =>
          match s.clients id with
          | none => .error .bad
          | some cl =>
              let s1 := { s with clients := upd s.clients id (some { cl with prev := some v }) }
              if cl.all || decide (cl.prev ≠ some v) then
                .ok (s1.emit (.deliver id v (!s.taint cl.target) s.vals s.defs), some v)
              else .ok (s1, none)

/-- computed_box.rs:113-115 / 135-137: the new resource replaces the old one; returns
what the old one kept alive. -/
def St.swapOwned (s : St V) (id : GraphId) : Except Err (St V × List GraphId) :=
  match s.clients id with
  | none => .error .bad
  | some cl =>
      .ok ({ s with clients := upd s.clients id (some { cl with owned := cl.fresh, fresh := [] }) },
        cl.owned)

/-- graph_value.rs:55-63 for a client: `push_context`, `state.set(Some(()))`.  Ghost: the
subscription is marked when at this moment the node it observes does not hold the
delivered value any more. (The observed `Computed` is captured by the closure, so it still
exists; and the closure has been started by `startRun`. The errors are unreachable by Rust
programs.) -/
def St.finishRun [DecidableEq V] (s : St V) (id : GraphId) : Except Err (St V) :=
  match s.clients id with
  | none => .error .bad
  | some cl =>
      if ((s.vals cl.target).isNone && (s.defs cl.target).isNone) || !cl.running then .error .bad else
      match s.setParents id [cl.target] with
      | .error e => .error e
      | .ok s =>
          .ok ({ s with
            taint := upd s.taint id (decide (id ∉ s.conn.pc.get cl.target) ||
              s.taint cl.target || decide (s.cache cl.target ≠ cl.prev))
            clients := upd s.clients id (some { cl with ready := true, running := false }) }.emit
              (.ran id))

/-- The temporary strong reference goes (graph_value.rs:39-50): a drop requested in the
meantime happens now. -/
def St.endRun (lim : Nat) (s : St V) (id : GraphId) : Except Err (St V) :=
  match s.clients id with
  | some cl => if cl.dropReq then St.dropAll lim [id] s else .ok s
  | none => .ok s

/-- `calculate_new_value` (graph_value.rs:52-64) of a client whose closure is
computed_box.rs:106-117 / 131-138.  `call` runs the callback. -/
def runClient [DecidableEq V] (lim : Nat) (call : V → St V → Except Err (St V)) (id : GraphId)
    (s : St V) : Except Err (St V) :=
  match s.startRun id with
  | .error e => .error e
  | .ok s =>
  match s.observe lim id with
  | .error e => .error e
  | .ok (s, none) =>
      match s.finishRun id with
      | .error e => .error e
      | .ok s => s.endRun lim id
  | .ok (s, some v) =>
      match call v s with
      | .error e => .error e
      | .ok s =>
      match s.swapOwned id with
      | .error e => .error e
      | .ok (s, old) =>
      match St.dropAll lim old s with
      | .error e => .error e
      | .ok s =>
      match s.finishRun id with
      | .error e => .error e
      | .ok s => s.endRun lim id

/-- computed_box.rs:102-124: a new client `GraphValue`, not yet computed. -/
def St.addClient (s : St V) (target : GraphId) (all : Bool) (cb : V → Act V) : St V :=
  { s with
    next := s.next + 1
    clients := upd s.clients ⟨.client, s.next⟩ (some { target := target, all := all, cb := cb }) }.emit
      (.subscribed ⟨.client, s.next⟩ target all)

/-- The resource of the new subscription `id` becomes part of what the running callback
of `owner` returns. -/
def St.giveTo (s : St V) (owner : Option GraphId) (own : Bool) (id : GraphId) : Except Err (St V) :=
  match owner, own with
  | some c, true =>
      match s.clients c with
      | none => .error .bad
      | some cl =>
          .ok { s with clients := upd s.clients c (some { cl with fresh := cl.fresh ++ [id] }) }
  | _, _ => .ok s

/-- value.rs:67-76 / 82-104. -/
def St.addValue (s : St V) (v : V) (connectable : Bool) : St V :=
  { s with
    next := s.next + 1
    vals := upd s.vals ⟨.value, s.next⟩ (some v)
    connectable := upd s.connectable ⟨.value, s.next⟩ connectable }

/-- computed_box.rs:74-78, graph_value.rs:12-50. -/
def St.addComputed (s : St V) (p : Prog V) : St V :=
  { s with next := s.next + 1, defs := upd s.defs ⟨.computed, s.next⟩ (some p) }.emit
    (.defined ⟨.computed, s.next⟩ p)

/-- Drop of a `Computed` (graph_value.rs:91-97).  A `Computed` is captured by the closures
that read it, so it can only be destroyed when it has no consumers. -/
def St.dropComputed (s : St V) (id : GraphId) : Except Err (St V) :=
  if id.kind = .computed ∧ s.conn.pc.get id = [] then
    ({ s with defs := upd s.defs id none, cache := upd s.cache id none }.emit
      (.dropped id)).setParents id []
  else .error .bad

/-- value.rs:108-109 / 163-166; only called inside of a transaction. -/
def St.write [DecidableEq V] (s : St V) (id : GraphId) (v : V) (cmp : Bool) : Except Err (St V) :=
  match s.vals id, s.tx with
  | some old, .modification _ _ =>
      let s := { s with vals := upd s.vals id (some v) }
      if cmp && decide (old = v) then .ok s else s.reportSet id
  | _, _ => .error .bad

/-- Interpreter of user code.  `fin` is what happens when the outermost transaction
ends; `owner` is the subscription whose callback is running. -/
def Act.run [DecidableEq V] (lim : Nat) (fin : List GraphId → St V → Except Err (St V)) :
    Act V → (owner : Option GraphId) → St V → Except Err (St V)
  | .done, _, s => .ok s
  | .newValue v connectable k, o, s =>
      (k ⟨.value, s.next⟩).run lim fin o (s.addValue v connectable)
  | .newComputed p k, o, s =>
      (k ⟨.computed, s.next⟩).run lim fin o (s.addComputed p)
  | .subscribe target all own cb k, o, s =>
      let id : GraphId := ⟨.client, s.next⟩
      match runClient lim (fun v s => (cb v).run lim fin (some id) s) id (s.addClient target all cb) with
      | .error e => .error e
      | .ok s =>
      match s.giveTo o own id with
      | .error e => .error e
      | .ok s => (k id).run lim fin o s
  | .dropSub id k, o, s =>
      match St.dropAll lim [id] s with
      | .error e => .error e
      | .ok s => k.run lim fin o s
  | .dropComputed id k, o, s =>
      match s.dropComputed id with
      | .error e => .error e
      | .ok s => k.run lim fin o s
  | .txBegin k, o, s =>
      match s.tx.up with
      | .error e => .error e
      | .ok tx => k.run lim fin o ({ s with tx := tx }.emit .begin_)
  | .txEnd k, o, s =>
      match s.tx.down with
      | (tx, none) => k.run lim fin o ({ s with tx := tx }.emit .end_)
      | (tx, some clients) =>
          match fin clients ({ s with tx := tx }.emit .end_) with
          | .error e => .error e
          | .ok s => k.run lim fin o s
  | .write id v cmp k, o, s =>
      match s.write id v cmp with
      | .error e => .error e
      | .ok s => k.run lim fin o s
  | .get id k, o, s =>
      match getNode lim [] s id with
      | .error e => .error e
      | .ok (s, v) => (k v).run lim fin o (s.emit (.read id v (!s.taint id) s.vals s.defs))

/-- User code called while subscribers are refreshed: no transaction can be open
(`up` panics), hence no outermost transaction can end. -/
def runRefreshing [DecidableEq V] (lim : Nat) : Act V → Option GraphId → St V → Except Err (St V) :=
  Act.run lim (fun _ _ => .error .bad)

/-- The loop dependencies/mod.rs:56-58 with refresh.rs:39-43 and graph_value.rs:78-84. -/
def refreshAll [DecidableEq V] (lim : Nat) : List GraphId → St V → Except Err (St V)
  | [], s => .ok s
  | c :: cs, s =>
      let s := { s with todo := cs }
      match s.clients c with
      | none => refreshAll lim cs (s.emit (.skipped c))
      | some cl =>
          if cl.ready then
            match runClient lim (fun v s => runRefreshing lim (cl.cb v) (some c) s) c
              (s.emit (.refreshed c)) with
            | .error e => .error e
            | .ok s => refreshAll lim cs s
          else refreshAll lim cs (s.emit (.skipped c))

/-- dependencies/mod.rs:52-61. -/
def finishTx [DecidableEq V] (lim : Nat) (clients : List GraphId) (s : St V) :
    Except Err (St V) :=
  match refreshAll lim clients ({ s with todo := clients }.emit (.finish clients)) with
  | .error e => .error e
  | .ok s => .ok ({ s with tx := s.tx.moveToIdle }.emit .idle)

/-- A whole program, started on an empty graph. -/
def Act.exec [DecidableEq V] (lim : Nat) (a : Act V) : Except Err (St V) :=
  a.run lim (finishTx lim) none {}

/-! ## API calls in terms of the primitive ones -/

/-- value.rs:106-111. -/
def Act.set (id : GraphId) (v : V) (k : Act V) : Act V := .txBegin (.write id v false (.txEnd k))

/-- value.rs:161-168. -/
def Act.setCompare (id : GraphId) (v : V) (k : Act V) : Act V :=
  .txBegin (.write id v true (.txEnd k))

/-- value.rs:118-124. -/
def Act.change (id : GraphId) (f : V → V) (k : Act V) : Act V :=
  .txBegin (.get id fun v => Act.set id (f v) (.txEnd k))

end Verif.Reactive

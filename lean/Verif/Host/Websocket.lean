import Mathlib.Data.List.Induction
/-!
# Websockets (C46)

`crates/vertigo/src/driver_module/src_js/api_browser/websocket/connection.ts` (`SocketConnection`),
`websocket.ts` (`DriverWebsocket`), `promise.ts` (`PromiseBoxRace`), and the Rust side
`crates/vertigo/src/driver_module/api/api_import.rs:547-590` (`websocket`).

The model follows one websocket resource, that is one callback id: both maps of `DriverWebsocket` are keyed
by it and callback ids are never reused (C38).  The events of the browser (`open`, `error`, `close`,
`message` of any socket ever created, the timers) and the calls of the application come in any order.  After
each of them the browser runs the pending microtasks: here the `async` loop of `startSocket` goes on until it
waits for a promise that is not resolved (`settle`).

The application may drop the resource at any time, also inside of the callback that delivers a message:
`app` decides this from everything delivered so far.
-/

namespace Verif.Host

/-- One `WebSocket` with the closure state of `SocketConnection.connect` (`connection.ts:58-134`). -/
structure Sock where
  /-- `isClose`: `socket.close()` has been called -/
  isClose : Bool
  /-- the promise `result`: pending, resolved with the connection (`true`) or with `null` (`false`) -/
  result : Option Bool
  /-- the promise `done` is resolved -/
  done : Bool
  /-- the loop listens to `eventMessage` -/
  subscribed : Bool
  deriving DecidableEq

/-- `connection.ts:63-66`. -/
def Sock.new : Sock := { isClose := false, result := none, done := false, subscribed := false }

/-- `promise.ts:45-54` `resolve` of `result`: the first one counts. -/
def Sock.resolve (x : Sock) (value : Bool) : Sock :=
  match x.result with
  | none => { x with result := some value }
  | some _ => x

/-- `connection.ts:70-81` `closeSocket`. -/
def Sock.close (x : Sock) : Sock :=
  if x.isClose then x else { (Sock.resolve { x with isClose := true } false) with done := true }

/-- Where the loop of `startSocket` waits (`connection.ts:150-188`). -/
inductive Pc where
  /-- `await openSocketResult.socket` of socket `k` -/
  | awaitSocket (k : Nat)
  /-- `await openSocketResult.done` of socket `k` -/
  | awaitDone (k : Nat)
  /-- `await reconnectDelay` -/
  | delay
  | finished
  deriving DecidableEq

/-- What the application receives: `WebsocketMessage` (`websocket.rs:5-9`). -/
inductive Delivered where
  | connection
  | message (text : String)
  | close
  deriving DecidableEq

/-- The state of one websocket resource. -/
structure Ws where
  /-- every socket ever created, oldest first -/
  socks : List Sock
  /-- the loop -/
  pc : Pc
  /-- `isConnect` (`connection.ts:143`) -/
  isConnect : Bool
  /-- `socketConnection` (`connection.ts:144`) -/
  current : Option Nat
  /-- `controllerList.has(callback_id)` (`websocket.ts:13`) -/
  registered : Bool
  /-- the entry of the map `socket` (`websocket.ts:14`) -/
  socketMap : Option Nat
  /-- the Rust callback is registered (`api_import.rs:556-558`) -/
  alive : Bool
  /-- what the application has received -/
  delivered : List Delivered
  /-- what has been sent, and on which socket -/
  sent : List (Nat × String)

/-- The events. -/
inductive WsEvent where
  | opened (k : Nat)
  | errored (k : Nat)
  | closed (k : Nat)
  | message (k : Nat) (text : String)
  /-- the timer of `connection.ts:94-99` -/
  | timeout (k : Nat)
  /-- the timer of `reconnectDelay` -/
  | retry
  /-- the application drops the resource -/
  | drop
  /-- the application sends on a `WebsocketConnection` -/
  | send (text : String)
  deriving DecidableEq

/-- `websocket.ts:22-60` and `connection.ts:149-150`: the first socket is created at once. -/
def Ws.start : Ws :=
  { socks := [Sock.new], pc := .awaitSocket 0, isConnect := true, current := none, registered := true,
    socketMap := none, alive := true, delivered := [], sent := [] }

/-- `closeSocket` of socket `k`. -/
def Ws.closeSocket (s : Ws) (k : Nat) : Ws := { s with socks := s.socks.modify k Sock.close }

/-- `connection.ts:199-202` `dispose`. -/
def Ws.dispose (s : Ws) : Ws :=
  let s := { s with isConnect := false }
  match s.current with
  | some k => s.closeSocket k
  | none => s

/-- `websocket.ts:62-72` `websocket_unregister_callback`. -/
def Ws.unregister (s : Ws) : Ws :=
  if s.registered then { s.dispose with registered := false } else s

/-- `api_import.rs:585-588`: the drop of the resource. -/
def Ws.dropResource (s : Ws) : Ws := { s.unregister with alive := false }

/-- `wasm_callback` with `true`, a text or `false` (`api_import.rs:556-578`): the application is called if
the callback is still registered, and it may drop the resource. -/
def Ws.deliver (app : List Delivered → Bool) (s : Ws) (d : Delivered) : Ws :=
  if s.alive then
    let s := { s with delivered := s.delivered ++ [d] }
    if app s.delivered then s.dropResource else s
  else s

/-- `websocket.ts:32-56` for `type: 'socket'`. -/
def Ws.onSocket (app : List Delivered → Bool) (s : Ws) (k : Nat) : Ws :=
  if s.registered = false then s else Ws.deliver app { s with socketMap := some k } .connection

/-- `websocket.ts:32-56` for `type: 'message'`. -/
def Ws.onMessage (app : List Delivered → Bool) (s : Ws) (text : String) : Ws :=
  if s.registered = false then s else s.deliver app (.message text)

/-- `websocket.ts:32-56` for `type: 'close'`. -/
def Ws.onClose (app : List Delivered → Bool) (s : Ws) : Ws :=
  if s.registered = false then s else Ws.deliver app { s with socketMap := none } .close

/-- `connection.ts:172-184`: `done` is resolved. -/
def Ws.settleDone (app : List Delivered → Bool) (s : Ws) : Ws :=
  match s.pc with
  | .awaitDone k =>
    match s.socks[k]? with
    | some x =>
      if x.done then
        let s := s.onClose app
        if s.isConnect then { s with pc := .delay } else { s with pc := .finished }
      else s
    | none => s
  | _ => s

/-- `connection.ts:152-172`: the promise of the socket is resolved. -/
def Ws.settleSocket (app : List Delivered → Bool) (s : Ws) : Ws :=
  match s.pc with
  | .awaitSocket k =>
    match s.socks[k]? with
    | some x =>
      match x.result with
      | none => s
      | some false => { s with pc := .delay }
      | some true =>
        let s := Ws.onSocket app { s with current := some k } k
        { s with socks := s.socks.modify k ({ · with subscribed := true }), pc := .awaitDone k }
    | none => s
  | _ => s

/-- The microtasks after an event. -/
def Ws.settle (app : List Delivered → Bool) (s : Ws) : Ws := (s.settleSocket app).settleDone app

/-- The event itself. -/
def Ws.handle (app : List Delivered → Bool) (s : Ws) : WsEvent → Ws
  -- `connection.ts:101-104`
  | .opened k => { s with socks := s.socks.modify k (·.resolve true) }
  -- `connection.ts:106-109`
  | .errored k => s.closeSocket k
  -- `connection.ts:129`
  | .closed k => s.closeSocket k
  -- `connection.ts:111-124`; messages that are not strings are only logged
  | .message k text =>
    match s.socks[k]? with
    | some x => if x.isClose then s else if x.subscribed then s.onMessage app text else s
    | none => s
  -- `connection.ts:94-99`
  | .timeout k =>
    match s.socks[k]? with
    | some x => if x.result.isNone then s.closeSocket k else s
    | none => s
  -- `connection.ts:149-150`
  | .retry =>
    match s.pc with
    | .delay =>
      if s.isConnect then
        { s with socks := s.socks ++ [Sock.new], pc := .awaitSocket s.socks.length }
      else { s with pc := .finished }
    | _ => s
  | .drop => s.dropResource
  -- `websocket.ts:74-85` with `connection.ts:86-91`
  | .send text =>
    match s.socketMap with
    | some k =>
      match s.socks[k]? with
      | some x => if x.isClose then s else { s with sent := s.sent ++ [(k, text)] }
      | none => s
    | none => s

/-- One event with the microtasks after it. -/
def Ws.step (app : List Delivered → Bool) (s : Ws) (e : WsEvent) : Ws := (s.handle app e).settle app

/-- A schedule. -/
def websocket (app : List Delivered → Bool) (events : List WsEvent) : Ws :=
  events.foldl (Ws.step app) Ws.start

/-! ## Specification -/

/-- The protocol the application sees: a connection, messages, a close, and so on.  `up` says whether a
connection is open; the result is the state at the end, if nothing was out of order. -/
def protocol : Bool → List Delivered → Option Bool
  | up, [] => some up
  | false, .connection :: rest => protocol true rest
  | true, .message _ :: rest => protocol true rest
  | true, .close :: rest => protocol false rest
  | _, _ => none

/-- All sockets have been closed. -/
def AllClosed (s : Ws) : Prop := ∀ x ∈ s.socks, x.isClose = true

/-! ## Proof -/

theorem protocol_append (up : Bool) (l l' : List Delivered) :
    protocol up (l ++ l') = (protocol up l).bind fun up => protocol up l' := by
  induction l generalizing up with
  | nil => rfl
  | cons d l ih => cases up <;> cases d <;> simp [protocol, ih]

theorem modify_last {A : Type} (old : List A) (x : A) (f : A → A) :
    (old ++ [x]).modify old.length f = old ++ [f x] := by
  induction old with
  | nil => rfl
  | cons a old ih => simp [ih]

theorem modify_other {A : Type} (l : List A) (x : A) (k : Nat) (f : A → A) (hk : k ≠ l.length)
    (hf : ∀ a ∈ l, f a = a) : (l ++ [x]).modify k f = l ++ [x] := by
  induction l generalizing k with
  | nil =>
    cases k with
    | zero => simp at hk
    | succ k => simp
  | cons a l ih =>
    cases k with
    | zero => simp [hf a]
    | succ k => simp at hk; simp [ih k hk (fun a ha => hf a (by simp [ha]))]

theorem last_getElem? {A : Type} (old : List A) (x : A) : (old ++ [x])[old.length]? = some x := by simp

/-- A closed socket. -/
def Sock.Closed (x : Sock) : Prop := x.isClose = true ∧ x.result ≠ none ∧ x.done = true

theorem Sock.close_closed {x : Sock} (h : x.Closed) : x.close = x := by
  simp [Sock.close, h.1]

theorem Sock.resolve_closed {x : Sock} (h : x.Closed) (b : Bool) : x.resolve b = x := by
  unfold Sock.resolve
  cases hr : x.result with
  | none => exact absurd hr h.2.1
  | some _ => rfl

/-- The invariant.  Every socket but the last is closed; the last is as the loop expects it. -/
inductive Ws.Inv (s : Ws) : Prop where
  /-- connecting -/
  | connecting (old : List Sock) (hs : s.socks = old ++ [Sock.new]) (hold : ∀ x ∈ old, x.Closed)
      (hpc : s.pc = .awaitSocket old.length) (hcur : ∀ k, s.current = some k → k < old.length)
      (hmap : ∀ k, s.socketMap = some k → k < old.length)
      (hreg : s.registered = s.isConnect) (hal : s.alive = s.registered)
      (hp : ∃ up, protocol false s.delivered = some up ∧ (s.registered = true → up = false))
  /-- connected -/
  | connected (old : List Sock)
      (hs : s.socks = old ++ [{ isClose := false, result := some true, done := false, subscribed := true }])
      (hold : ∀ x ∈ old, x.Closed) (hpc : s.pc = .awaitDone old.length)
      (hcur : s.current = some old.length)
      (hreg : s.registered = s.isConnect) (hal : s.alive = s.registered)
      (hup : s.registered = true → protocol false s.delivered = some true ∧ s.socketMap = some old.length)
      (hdown : s.registered = false → (∃ up, protocol false s.delivered = some up) ∧
        (∀ k, s.socketMap = some k → k < old.length))
  /-- waiting or finished -/
  | idle (hold : ∀ x ∈ s.socks, x.Closed) (hpc : (s.pc = .delay) ∨ (s.pc = .finished ∧ s.isConnect = false))
      (hcur : ∀ k, s.current = some k → k < s.socks.length)
      (hmap : ∀ k, s.socketMap = some k → k < s.socks.length)
      (hreg : s.registered = s.isConnect) (hal : s.alive = s.registered)
      (hp : ∃ up, protocol false s.delivered = some up ∧ (s.registered = true → up = false))

theorem modify_id {A : Type} (l : List A) (k : Nat) (f : A → A) (hf : ∀ a ∈ l, f a = a) :
    l.modify k f = l := by
  induction l generalizing k with
  | nil => simp
  | cons a l ih =>
    cases k with
    | zero => simp [hf a]
    | succ k => simp [ih k (fun a ha => hf a (by simp [ha]))]

theorem start_inv : Ws.start.Inv :=
  .connecting [] rfl (by simp) rfl (by simp [Ws.start]) (by simp [Ws.start]) rfl rfl ⟨false, rfl, fun _ => rfl⟩

theorem settle_id {app : List Delivered → Bool} {s : Ws} (h : s.Inv) : s.settle app = s := by
  cases h with
  | connecting old hs hold hpc =>
    simp [Ws.settle, Ws.settleSocket, Ws.settleDone, hpc, hs, Sock.new]
  | connected old hs hold hpc =>
    simp [Ws.settle, Ws.settleSocket, Ws.settleDone, hpc, hs]
  | idle hold hpc =>
    rcases hpc with hpc | ⟨hpc, _⟩ <;> simp [Ws.settle, Ws.settleSocket, Ws.settleDone, hpc]

/-- The resource is dropped while the loop waits for a connection or a timer. -/
theorem dropResource_quiet {s : Ws} (h : s.Inv) (hpc : ∀ k, s.pc ≠ .awaitDone k) :
    s.dropResource = { s with isConnect := false, registered := false, alive := false } := by
  have hm : ∀ k, s.current = some k → s.socks.modify k Sock.close = s.socks := by
    intro k hk
    cases h with
    | connecting old hs hold _ hcur =>
      rw [hs]
      exact modify_other _ _ _ _ (Nat.ne_of_lt (hcur k hk)) fun a ha => Sock.close_closed (hold a ha)
    | connected old hs hold hp => exact absurd hp (hpc _)
    | idle hold => exact modify_id _ _ _ fun a ha => Sock.close_closed (hold a ha)
  have hr : s.registered = false → s.isConnect = false := by
    intro hr
    cases h with
    | connecting _ _ _ _ _ _ hreg => rw [← hreg]; exact hr
    | connected _ _ _ _ _ hreg => rw [← hreg]; exact hr
    | idle _ _ _ _ hreg => rw [← hreg]; exact hr
  unfold Ws.dropResource Ws.unregister Ws.dispose Ws.closeSocket
  split
  · cases hc : s.current with
    | none => rfl
    | some k => simp [hm k hc]
  · rename_i hn
    simp only [Bool.not_eq_true] at hn
    have h2 := hr hn
    cases s
    simp_all

/-- The resource is dropped while a connection is up. -/
theorem dropResource_connected {s : Ws} {old : List Sock} {x : Sock} (hs : s.socks = old ++ [x])
    (hcur : s.current = some old.length) (hreg : s.registered = true) :
    s.dropResource = { s with socks := old ++ [x.close], isConnect := false, registered := false, alive := false } := by
  unfold Ws.dropResource Ws.unregister Ws.dispose Ws.closeSocket
  rw [if_pos hreg]
  dsimp only
  rw [hcur]
  dsimp only
  rw [hs, modify_last]

theorem protocol_snoc {l : List Delivered} {up : Bool} (h : protocol false l = some up) (d : Delivered) :
    protocol false (l ++ [d]) = protocol up [d] := by
  rw [protocol_append, h]; rfl

/-- What a step other than a drop by the application outside of a callback achieves: a resource that the
application drops inside of a callback has no open socket. -/
def Post (s t : Ws) : Prop := t.Inv ∧ (s.registered = true → t.registered = true ∨ AllClosed t)

/-- The last socket is closed while the loop waits for it. -/
theorem step_close_connecting {app : List Delivered → Bool} {s : Ws} {old : List Sock}
    (hs : s.socks = old ++ [Sock.new]) (hold : ∀ x ∈ old, x.Closed)
    (hpc : s.pc = .awaitSocket old.length) (hcur : ∀ k, s.current = some k → k < old.length)
    (hmap : ∀ k, s.socketMap = some k → k < old.length)
    (hreg : s.registered = s.isConnect) (hal : s.alive = s.registered)
    (hp : ∃ up, protocol false s.delivered = some up ∧ (s.registered = true → up = false)) :
    Post s ((s.closeSocket old.length).settle app) := by
  have : (s.closeSocket old.length).settle app =
      { s with socks := old ++ [Sock.new.close], pc := .delay } := by
    simp [Ws.settle, Ws.settleSocket, Ws.settleDone, Ws.closeSocket, hpc, hs, modify_last, Sock.new, Sock.close,
      Sock.resolve]
  rw [this]
  refine ⟨?_, fun h => .inl h⟩
  refine .idle ?_ (.inl rfl) ?_ ?_ hreg hal hp
  · intro x hx
    simp only [List.mem_append, List.mem_singleton] at hx
    rcases hx with hx | rfl
    · exact hold x hx
    · exact ⟨rfl, by simp [Sock.new, Sock.close, Sock.resolve], rfl⟩
  · intro k hk; have := hcur k hk; simp; omega
  · intro k hk; have := hmap k hk; simp; omega

/-- The last socket opens while the loop waits for it. -/
theorem step_open_connecting {app : List Delivered → Bool} {s : Ws} {old : List Sock}
    (hs : s.socks = old ++ [Sock.new]) (hold : ∀ x ∈ old, x.Closed)
    (hpc : s.pc = .awaitSocket old.length)
    (hmap : ∀ k, s.socketMap = some k → k < old.length)
    (hreg : s.registered = s.isConnect) (hal : s.alive = s.registered)
    (hp : ∃ up, protocol false s.delivered = some up ∧ (s.registered = true → up = false)) :
    Post s (s.step app (.opened old.length)) := by
  obtain ⟨up, hp1, hp2⟩ := hp
  cases hr : s.registered with
  | false =>
    have : s.step app (.opened old.length) =
        { s with
          socks := old ++ [{ isClose := false, result := some true, done := false, subscribed := true }]
          current := some old.length
          pc := .awaitDone old.length } := by
      simp [Ws.step, Ws.handle, Ws.settle, Ws.settleSocket, Ws.settleDone, Ws.onSocket, hpc, hs, modify_last,
        Sock.new, Sock.resolve, hr]
    rw [this]
    refine ⟨?_, fun h => .inl h⟩
    refine .connected old rfl hold rfl rfl hreg hal ?_ ?_
    · intro h; rw [show s.registered = true from h] at hr; exact absurd hr (by simp)
    · intro _; exact ⟨⟨up, hp1⟩, hmap⟩
  | true =>
    have hal' : s.alive = true := by rw [hal, hr]
    have hc' : s.isConnect = true := by rw [← hreg, hr]
    cases ha : app (s.delivered ++ [.connection]) with
    | false =>
      have : s.step app (.opened old.length) =
          { s with
            socks := old ++ [{ isClose := false, result := some true, done := false, subscribed := true }]
            current := some old.length
            socketMap := some old.length
            delivered := s.delivered ++ [.connection]
            pc := .awaitDone old.length } := by
        simp [Ws.step, Ws.handle, Ws.settle, Ws.settleSocket, Ws.settleDone, Ws.onSocket, Ws.deliver, hpc, hs,
          modify_last, Sock.new, Sock.resolve, hr, hal', ha]
      rw [this]
      refine ⟨?_, fun h => .inl h⟩
      refine .connected old rfl hold rfl rfl hreg hal ?_ ?_
      · intro _
        refine ⟨?_, rfl⟩
        show protocol false (s.delivered ++ [_]) = _
        rw [protocol_snoc hp1, hp2 hr]; rfl
      · intro h; rw [show s.registered = false from h] at hr; exact absurd hr (by simp)
    | true =>
      have : s.step app (.opened old.length) =
          { s with
            socks := old ++ [{ isClose := true, result := some true, done := true, subscribed := true }]
            current := some old.length
            socketMap := some old.length
            delivered := s.delivered ++ [.connection]
            isConnect := false
            registered := false
            alive := false
            pc := .finished } := by
        simp [Ws.step, Ws.handle, Ws.settle, Ws.settleSocket, Ws.settleDone, Ws.onSocket, Ws.onClose, Ws.deliver,
          hpc, hs, modify_last, Sock.new, Sock.resolve, hr, hal', ha, Ws.dropResource, Ws.unregister, Ws.dispose,
          Ws.closeSocket, Sock.close]
      rw [this]
      have hcl : ∀ x ∈ old ++ [{ isClose := true, result := some true, done := true, subscribed := true }],
          Sock.Closed x := by
        intro x hx
        simp only [List.mem_append, List.mem_singleton] at hx
        rcases hx with hx | rfl
        · exact hold x hx
        · exact ⟨rfl, by simp, rfl⟩
      refine ⟨?_, fun _ => .inr fun x hx => (hcl x hx).1⟩
      refine .idle hcl (.inr ⟨rfl, rfl⟩) ?_ ?_ rfl rfl ⟨true, ?_, by simp⟩
      · intro k hk; simp at hk; simp; omega
      · intro k hk; simp at hk; simp; omega
      · show protocol false (s.delivered ++ [_]) = _
        rw [protocol_snoc hp1, hp2 hr]; rfl

/-- The socket of a connection. -/
def Sock.up : Sock := { isClose := false, result := some true, done := false, subscribed := true }

/-- What the loop does when the socket of the connection has been closed. -/
theorem settle_closed {app : List Delivered → Bool} {s : Ws} {old : List Sock}
    (hs : s.socks = old ++ [Sock.up.close]) (hold : ∀ x ∈ old, x.Closed)
    (hpc : s.pc = .awaitDone old.length) (hcur : s.current = some old.length)
    (hmap : ∀ k, s.socketMap = some k → k ≤ old.length)
    (hreg : s.registered = s.isConnect) (hal : s.alive = s.registered)
    (hp : ∃ up, protocol false s.delivered = some up ∧ (s.registered = true → up = true)) :
    (s.settle app).Inv ∧ AllClosed (s.settle app) := by
  obtain ⟨up, hp1, hp2⟩ := hp
  have hclosed : ∀ x ∈ old ++ [Sock.up.close], x.Closed := by
    intro x hx
    simp only [List.mem_append, List.mem_singleton] at hx
    rcases hx with hx | rfl
    · exact hold x hx
    · exact ⟨rfl, by simp [Sock.up, Sock.close, Sock.resolve], rfl⟩
  have h1 : s.settle app = s.settleDone app := by simp [Ws.settle, Ws.settleSocket, hpc]
  have h2 : s.settleDone app = (let t := s.onClose app
      if t.isConnect then { t with pc := .delay } else { t with pc := .finished }) := by
    simp [Ws.settleDone, hpc, hs, Sock.up, Sock.close, Sock.resolve]
  rw [h1, h2]
  cases hr : s.registered with
  | false =>
    have hc : s.isConnect = false := by rw [← hreg, hr]
    simp only [Ws.onClose, hr, if_true, hc, Bool.false_eq_true, if_false]
    refine ⟨?_, fun x hx => (hclosed x (hs ▸ hx)).1⟩
    refine .idle (by rw [hs]; exact hclosed) (.inr ⟨rfl, rfl⟩) ?_ ?_ rfl (hal.trans hr)
      ⟨up, hp1, by simp⟩
    · intro k hk; simp [hcur] at hk; simp [hs]; omega
    · intro k hk; have := hmap k hk; simp [hs]; omega
  | true =>
    have hc : s.isConnect = true := by rw [← hreg, hr]
    have hal' : s.alive = true := by rw [hal, hr]
    have hp3 : protocol false (s.delivered ++ [.close]) = some false := by
      rw [protocol_snoc hp1, hp2 hr]; rfl
    cases ha : app (s.delivered ++ [.close]) with
    | false =>
      have : s.onClose app = { s with socketMap := none, delivered := s.delivered ++ [.close] } := by
        simp [Ws.onClose, Ws.deliver, hr, hal', ha]
      rw [this]
      dsimp only
      rw [if_pos hc]
      refine ⟨?_, fun x hx => (hclosed x (hs ▸ hx)).1⟩
      refine .idle (by rw [hs]; exact hclosed) (.inl rfl) ?_ (by simp) hreg hal ⟨false, hp3, fun _ => rfl⟩
      intro k hk; simp [hcur] at hk; simp [hs]; omega
    | true =>
      have : s.onClose app = { s with socketMap := none, delivered := s.delivered ++ [.close], isConnect := false, registered := false, alive := false } := by
        have hm : (old ++ [Sock.up.close]).modify old.length Sock.close = old ++ [Sock.up.close] := by
          rw [modify_last]; rfl
        simp [Ws.onClose, Ws.deliver, hr, hal', ha, Ws.dropResource, Ws.unregister, Ws.dispose, Ws.closeSocket,
          hcur, hs, hm]
      rw [this]
      dsimp only
      rw [if_neg (by simp)]
      refine ⟨?_, fun x hx => (hclosed x (hs ▸ hx)).1⟩
      refine .idle (by rw [hs]; exact hclosed) (.inr ⟨rfl, rfl⟩) ?_ (by simp) rfl rfl ⟨false, hp3, fun _ => rfl⟩
      intro k hk; simp [hcur] at hk; simp [hs]; omega

theorem step_inv {app : List Delivered → Bool} {s : Ws} (h : s.Inv) (e : WsEvent) :
    (s.step app e).Inv ∧ (e ≠ .drop → s.registered = true → (s.step app e).registered = true ∨ AllClosed (s.step app e)) := by
  have same : s.handle app e = s → (s.step app e).Inv ∧ (e ≠ .drop → s.registered = true →
      (s.step app e).registered = true ∨ AllClosed (s.step app e)) := by
    intro he; rw [Ws.step, he, settle_id h]; exact ⟨h, fun _ h => .inl h⟩
  cases h with
  | connecting old hs hold hpc hcur hmap hreg hal hp =>
    have hclose : ∀ k, Post s ((s.closeSocket k).settle app) := by
      intro k
      by_cases hk : k = old.length
      · subst hk; exact step_close_connecting hs hold hpc hcur hmap hreg hal hp
      · have : s.closeSocket k = s := by
          simp only [Ws.closeSocket]
          rw [hs, modify_other _ _ _ _ hk fun a ha => Sock.close_closed (hold a ha), ← hs]
        rw [this, settle_id (.connecting old hs hold hpc hcur hmap hreg hal hp)]
        exact ⟨.connecting old hs hold hpc hcur hmap hreg hal hp, fun h => .inl h⟩
    cases e with
    | opened k =>
      by_cases hk : k = old.length
      · subst hk
        have := step_open_connecting (app := app) hs hold hpc hmap hreg hal hp
        exact ⟨this.1, fun _ => this.2⟩
      · apply same
        simp only [Ws.handle]
        rw [hs, modify_other _ _ _ _ hk fun a ha => Sock.resolve_closed (hold a ha) true, ← hs]
    | errored k => exact ⟨(hclose k).1, fun _ => (hclose k).2⟩
    | closed k => exact ⟨(hclose k).1, fun _ => (hclose k).2⟩
    | message k text =>
      apply same
      simp only [Ws.handle]
      split
      · rename_i x hx
        split
        · rfl
        · rename_i hnc
          rw [hs, List.getElem?_append] at hx
          split at hx
          · exact absurd (hold x (List.mem_of_getElem? hx)).1 hnc
          · have : x = Sock.new := by
              have := List.mem_of_getElem? hx; simpa using this
            subst this; rfl
      · rfl
    | timeout k =>
      simp only [Ws.step, Ws.handle]
      split
      · split
        · exact ⟨(hclose k).1, fun _ => (hclose k).2⟩
        · rw [settle_id (.connecting old hs hold hpc hcur hmap hreg hal hp)]
          exact ⟨.connecting old hs hold hpc hcur hmap hreg hal hp, fun _ h => .inl h⟩
      · rw [settle_id (.connecting old hs hold hpc hcur hmap hreg hal hp)]
        exact ⟨.connecting old hs hold hpc hcur hmap hreg hal hp, fun _ h => .inl h⟩
    | retry => apply same; simp [Ws.handle, hpc]
    | drop =>
      have hd : s.handle app .drop = { s with isConnect := false, registered := false, alive := false } :=
        dropResource_quiet (.connecting old hs hold hpc hcur hmap hreg hal hp) (by simp [hpc])
      obtain ⟨up, hp1, _⟩ := hp
      have hi : ({ s with isConnect := false, registered := false, alive := false } : Ws).Inv :=
        .connecting old hs hold hpc hcur hmap rfl rfl ⟨up, hp1, by simp⟩
      rw [Ws.step, hd, settle_id hi]
      exact ⟨hi, fun h => absurd rfl h⟩
    | send text =>
      have hi : ∀ l, ({ s with sent := l } : Ws).Inv := fun l =>
        .connecting old hs hold hpc hcur hmap hreg hal hp
      simp only [Ws.step, Ws.handle]
      repeat' split
      all_goals rw [settle_id (hi _)]; exact ⟨hi _, fun _ h => .inl h⟩
  | connected old hs hold hpc hcur hreg hal hup hdown =>
    have hi : s.Inv := .connected old hs hold hpc hcur hreg hal hup hdown
    have hp : ∃ up, protocol false s.delivered = some up ∧ (s.registered = true → up = true) := by
      cases hr : s.registered with
      | true => exact ⟨true, (hup hr).1, fun _ => rfl⟩
      | false =>
        obtain ⟨up, h⟩ := (hdown hr).1
        exact ⟨up, h, by simp⟩
    have hmap : ∀ k, s.socketMap = some k → k ≤ old.length := by
      intro k hk
      cases hr : s.registered with
      | true => rw [(hup hr).2] at hk; simp at hk; omega
      | false => exact Nat.le_of_lt ((hdown hr).2 k hk)
    have hclose : ∀ k, Post s ((s.closeSocket k).settle app) := by
      intro k
      by_cases hk : k = old.length
      · subst hk
        have h1 : s.closeSocket old.length = { s with socks := old ++ [Sock.up.close] } := by
          simp only [Ws.closeSocket]; rw [hs, modify_last]; rfl
        rw [h1]
        have := settle_closed (app := app) (s := { s with socks := old ++ [Sock.up.close] }) rfl hold hpc hcur hmap
          hreg hal hp
        exact ⟨this.1, fun _ => .inr this.2⟩
      · have : s.closeSocket k = s := by
          simp only [Ws.closeSocket]
          rw [hs, modify_other _ _ _ _ hk fun a ha => Sock.close_closed (hold a ha), ← hs]
        rw [this, settle_id hi]
        exact ⟨hi, fun h => .inl h⟩
    cases e with
    | opened k =>
      apply same
      simp only [Ws.handle]
      by_cases hk : k = old.length
      · subst hk; rw [hs, modify_last]; cases s; simp_all [Sock.resolve]
      · rw [hs, modify_other _ _ _ _ hk fun a ha => Sock.resolve_closed (hold a ha) true, ← hs]
    | errored k => exact ⟨(hclose k).1, fun _ => (hclose k).2⟩
    | closed k => exact ⟨(hclose k).1, fun _ => (hclose k).2⟩
    | message k text =>
      by_cases hk : k = old.length
      · subst hk
        have h1 : s.handle app (.message old.length text) = s.onMessage app text := by
          simp [Ws.handle, hs]
        rw [Ws.step, h1]
        cases hr : s.registered with
        | false =>
          have : s.onMessage app text = s := by simp [Ws.onMessage, hr]
          rw [this, settle_id hi]; exact ⟨hi, fun _ h => by simp at h⟩
        | true =>
          have hal' : s.alive = true := by rw [hal, hr]
          have hp3 : protocol false (s.delivered ++ [.message text]) = some true := by
            rw [protocol_snoc (hup hr).1]; rfl
          cases ha : app (s.delivered ++ [.message text]) with
          | false =>
            have : s.onMessage app text = { s with delivered := s.delivered ++ [.message text] } := by
              simp [Ws.onMessage, Ws.deliver, hr, hal', ha]
            rw [this]
            have hi2 : ({ s with delivered := s.delivered ++ [.message text] } : Ws).Inv :=
              .connected old hs hold hpc hcur hreg hal (fun _ => ⟨hp3, (hup hr).2⟩)
                (fun h => by rw [show s.registered = false from h] at hr; exact absurd hr (by simp))
            rw [settle_id hi2]; exact ⟨hi2, fun _ _ => .inl hr⟩
          | true =>
            have : s.onMessage app text =
                { s with delivered := s.delivered ++ [.message text], socks := old ++ [Sock.up.close],
                         isConnect := false, registered := false, alive := false } := by
              simp only [Ws.onMessage, Ws.deliver, hr, hal', Bool.true_eq_false, if_false, if_true, ha]
              exact dropResource_connected (x := Sock.up) hs hcur rfl
            rw [this]
            have := settle_closed (app := app) (s := { s with delivered := s.delivered ++ [.message text], socks := old ++ [Sock.up.close], isConnect := false, registered := false, alive := false }) rfl hold hpc hcur hmap rfl rfl ⟨true, hp3, fun _ => rfl⟩
            exact ⟨this.1, fun _ _ => .inr this.2⟩
      · apply same
        simp only [Ws.handle]
        split
        · rename_i x hx
          split
          · rfl
          · rename_i hnc
            rw [hs, List.getElem?_append] at hx
            split at hx
            · exact absurd (hold x (List.mem_of_getElem? hx)).1 hnc
            · rename_i hlt
              have h0 : k - old.length = 0 := by
                have := (List.getElem?_eq_some_iff.1 hx).1
                simp at this; omega
              omega
        · rfl
    | timeout k =>
      simp only [Ws.step, Ws.handle]
      split
      · split
        · exact ⟨(hclose k).1, fun _ => (hclose k).2⟩
        · rw [settle_id hi]; exact ⟨hi, fun _ h => .inl h⟩
      · rw [settle_id hi]; exact ⟨hi, fun _ h => .inl h⟩
    | retry => apply same; simp [Ws.handle, hpc]
    | drop =>
      cases hr : s.registered with
      | true =>
        have hd : s.handle app .drop = { s with socks := old ++ [Sock.up.close], isConnect := false, registered := false, alive := false } :=
          dropResource_connected (x := Sock.up) hs hcur hr
        rw [Ws.step, hd]
        obtain ⟨up, hp1, _⟩ := hp
        have := settle_closed (app := app) (s := { s with socks := old ++ [Sock.up.close], isConnect := false, registered := false, alive := false }) rfl hold hpc hcur hmap rfl rfl ⟨up, hp1, by simp⟩
        exact ⟨this.1, fun h => absurd rfl h⟩
      | false =>
        have hd : s.handle app .drop = { s with alive := false } := by
          simp [Ws.handle, Ws.dropResource, Ws.unregister, hr]
        have hi2 : ({ s with alive := false } : Ws).Inv :=
          .connected old hs hold hpc hcur hreg hr.symm hup hdown
        rw [Ws.step, hd, settle_id hi2]
        exact ⟨hi2, fun h => absurd rfl h⟩
    | send text =>
      have hi : ∀ l, ({ s with sent := l } : Ws).Inv := fun l =>
        .connected old hs hold hpc hcur hreg hal hup hdown
      simp only [Ws.step, Ws.handle]
      repeat' split
      all_goals rw [settle_id (hi _)]; exact ⟨hi _, fun _ h => .inl h⟩
  | idle hold hpc hcur hmap hreg hal hp =>
    have hi : s.Inv := .idle hold hpc hcur hmap hreg hal hp
    have hclose : ∀ k, Post s ((s.closeSocket k).settle app) := by
      intro k
      have : s.closeSocket k = s := by
        simp only [Ws.closeSocket]
        rw [modify_id _ _ _ fun a ha => Sock.close_closed (hold a ha)]
      rw [this, settle_id hi]
      exact ⟨hi, fun h => .inl h⟩
    cases e with
    | opened k =>
      apply same
      simp only [Ws.handle]
      rw [modify_id _ _ _ fun a ha => Sock.resolve_closed (hold a ha) true]
    | errored k => exact ⟨(hclose k).1, fun _ => (hclose k).2⟩
    | closed k => exact ⟨(hclose k).1, fun _ => (hclose k).2⟩
    | message k text =>
      apply same
      simp only [Ws.handle]
      split
      · rename_i x hx
        rw [if_pos (hold x (List.mem_of_getElem? hx)).1]
      · rfl
    | timeout k =>
      simp only [Ws.step, Ws.handle]
      split
      · split
        · exact ⟨(hclose k).1, fun _ => (hclose k).2⟩
        · rw [settle_id hi]; exact ⟨hi, fun _ h => .inl h⟩
      · rw [settle_id hi]; exact ⟨hi, fun _ h => .inl h⟩
    | retry =>
      rcases hpc with hpc | ⟨hpc, hc⟩
      · simp only [Ws.step, Ws.handle, hpc]
        split
        · rename_i hc
          have hi2 : ({ s with socks := s.socks ++ [Sock.new], pc := .awaitSocket s.socks.length } : Ws).Inv :=
            .connecting s.socks rfl hold rfl hcur hmap hreg hal hp
          rw [settle_id hi2]; exact ⟨hi2, fun _ h => .inl h⟩
        · rename_i hc
          have hi2 : ({ s with pc := .finished } : Ws).Inv :=
            .idle hold (.inr ⟨rfl, by simpa using hc⟩) hcur hmap hreg hal hp
          rw [settle_id hi2]; exact ⟨hi2, fun _ h => .inl h⟩
      · apply same; simp [Ws.handle, hpc]
    | drop =>
      have hd : s.handle app .drop = { s with isConnect := false, registered := false, alive := false } :=
        dropResource_quiet hi (by rcases hpc with hpc | ⟨hpc, _⟩ <;> simp [hpc])
      obtain ⟨up, hp1, _⟩ := hp
      have hi2 : ({ s with isConnect := false, registered := false, alive := false } : Ws).Inv :=
        .idle hold (hpc.imp id fun h => ⟨h.1, rfl⟩) hcur hmap rfl rfl ⟨up, hp1, by simp⟩
      rw [Ws.step, hd, settle_id hi2]
      exact ⟨hi2, fun h => absurd rfl h⟩
    | send text =>
      have hi : ∀ l, ({ s with sent := l } : Ws).Inv := fun l =>
        .idle hold hpc hcur hmap hreg hal hp
      simp only [Ws.step, Ws.handle]
      repeat' split
      all_goals rw [settle_id (hi _)]; exact ⟨hi _, fun _ h => .inl h⟩

theorem websocket_inv (app : List Delivered → Bool) (events : List WsEvent) :
    (websocket app events).Inv := by
  unfold websocket
  induction events using List.reverseRecOn with
  | nil => exact start_inv
  | append_singleton events e ih => rw [List.foldl_append]; exact (step_inv ih e).1

theorem websocket_append (app : List Delivered → Bool) (a b : List WsEvent) :
    websocket app (a ++ b) = b.foldl (Ws.step app) (websocket app a) := by
  simp [websocket]

theorem inv_flags {s : Ws} (h : s.Inv) : s.registered = s.isConnect ∧ s.alive = s.registered := by
  cases h with
  | connecting _ _ _ _ _ _ h1 h2 => exact ⟨h1, h2⟩
  | connected _ _ _ _ _ h1 h2 => exact ⟨h1, h2⟩
  | idle _ _ _ _ h1 h2 => exact ⟨h1, h2⟩

/-- A dropped resource: nothing is delivered, no socket is created. -/
theorem dropped_step {app : List Delivered → Bool} {s : Ws} (h : s.Inv) (hd : s.registered = false)
    (e : WsEvent) :
    (s.step app e).registered = false ∧ (s.step app e).delivered = s.delivered ∧
      (s.step app e).socks.length = s.socks.length ∧
      (∀ k : Nat, (∃ x : Sock, s.socks[k]? = some x ∧ x.isClose = true) →
        ∃ x, (s.step app e).socks[k]? = some x ∧ x.isClose = true) := by
  obtain ⟨h1, h2⟩ := inv_flags h
  have hc : s.isConnect = false := by rw [← h1, hd]
  have ha : s.alive = false := by rw [h2, hd]
  have close_close : ∀ x : Sock, x.isClose = true → x.close.isClose = true := by
    intro x hx; simp [Sock.close, hx]
  have resolve_close : ∀ (x : Sock) b, x.isClose = true → (x.resolve b).isClose = true := by
    intro x b hx; unfold Sock.resolve; split <;> exact hx
  -- the microtasks
  have settle : ∀ t : Ws, t.registered = false → t.isConnect = false →
      (t.settle app).registered = false ∧ (t.settle app).delivered = t.delivered ∧
      (t.settle app).socks.length = t.socks.length ∧
      (∀ k : Nat, (∃ x : Sock, t.socks[k]? = some x ∧ x.isClose = true) →
        ∃ x, (t.settle app).socks[k]? = some x ∧ x.isClose = true) := by
    intro t ht hc
    have done : ∀ u : Ws, u.registered = false → (u.settleDone app).registered = false ∧
        (u.settleDone app).delivered = u.delivered ∧ (u.settleDone app).socks = u.socks := by
      intro u hu
      unfold Ws.settleDone
      split
      · split
        · split
          · have : u.onClose app = u := by simp [Ws.onClose, hu]
            rw [this]
            dsimp only
            split <;> exact ⟨hu, rfl, rfl⟩
          · exact ⟨hu, rfl, rfl⟩
        · exact ⟨hu, rfl, rfl⟩
      · exact ⟨hu, rfl, rfl⟩
    have sock : (t.settleSocket app).registered = false ∧ (t.settleSocket app).delivered = t.delivered ∧
        (t.settleSocket app).socks.length = t.socks.length ∧
        (∀ k : Nat, (∃ x : Sock, t.socks[k]? = some x ∧ x.isClose = true) →
          ∃ x, (t.settleSocket app).socks[k]? = some x ∧ x.isClose = true) := by
      unfold Ws.settleSocket
      split
      · rename_i k _
        split
        · split
          · exact ⟨ht, rfl, rfl, fun _ h => h⟩
          · exact ⟨ht, rfl, rfl, fun _ h => h⟩
          · have : Ws.onSocket app { t with current := some k } k = { t with current := some k } := by
              simp [Ws.onSocket, ht]
            rw [this]
            refine ⟨ht, rfl, by simp, ?_⟩
            rintro j ⟨x, hx, hxc⟩
            dsimp only
            rw [List.getElem?_modify, hx]
            split
            · exact ⟨_, rfl, hxc⟩
            · exact ⟨_, rfl, hxc⟩
        · exact ⟨ht, rfl, rfl, fun _ h => h⟩
      · exact ⟨ht, rfl, rfl, fun _ h => h⟩
    obtain ⟨s1, s2, s3, s4⟩ := sock
    obtain ⟨d1, d2, d3⟩ := done _ s1
    unfold Ws.settle
    refine ⟨d1, d2.trans s2, ?_, ?_⟩
    · rw [d3, s3]
    · rw [d3]; exact s4
  -- the event
  have handle : (s.handle app e).registered = false ∧ (s.handle app e).isConnect = false ∧
      (s.handle app e).delivered = s.delivered ∧ (s.handle app e).socks.length = s.socks.length ∧
      (∀ k : Nat, (∃ x : Sock, s.socks[k]? = some x ∧ x.isClose = true) →
        ∃ x, (s.handle app e).socks[k]? = some x ∧ x.isClose = true) := by
    have modified : ∀ (k : Nat) (f : Sock → Sock), (∀ x : Sock, x.isClose = true → (f x).isClose = true) →
        (s.socks.modify k f).length = s.socks.length ∧
        (∀ j : Nat, (∃ x : Sock, s.socks[j]? = some x ∧ x.isClose = true) →
        ∃ x, (s.socks.modify k f)[j]? = some x ∧ x.isClose = true) := by
      intro k f hf
      refine ⟨by simp, ?_⟩
      rintro j ⟨x, hx, hxc⟩
      rw [List.getElem?_modify, hx]
      split
      · exact ⟨_, rfl, hf x hxc⟩
      · exact ⟨_, rfl, hxc⟩
    cases e with
    | opened k =>
      exact ⟨hd, hc, rfl, (modified k _ fun x hx => resolve_close x true hx).1,
        (modified k _ fun x hx => resolve_close x true hx).2⟩
    | errored k => exact ⟨hd, hc, rfl, (modified k _ close_close).1, (modified k _ close_close).2⟩
    | closed k => exact ⟨hd, hc, rfl, (modified k _ close_close).1, (modified k _ close_close).2⟩
    | message k text =>
      have : s.handle app (.message k text) = s := by
        simp only [Ws.handle, Ws.onMessage, hd, if_true]
        repeat' split
        all_goals rfl
      rw [this]; exact ⟨hd, hc, rfl, rfl, fun _ h => h⟩
    | timeout k =>
      simp only [Ws.handle]
      split
      · split
        · exact ⟨hd, hc, rfl, (modified k _ close_close).1, (modified k _ close_close).2⟩
        · exact ⟨hd, hc, rfl, rfl, fun _ h => h⟩
      · exact ⟨hd, hc, rfl, rfl, fun _ h => h⟩
    | retry =>
      simp only [Ws.handle]
      split
      · rw [if_neg (by simp [hc])]; exact ⟨hd, hc, rfl, rfl, fun _ h => h⟩
      · exact ⟨hd, hc, rfl, rfl, fun _ h => h⟩
    | drop =>
      have : s.handle app .drop = { s with alive := false } := by
        simp [Ws.handle, Ws.dropResource, Ws.unregister, hd]
      rw [this]; exact ⟨hd, hc, rfl, rfl, fun _ h => h⟩
    | send text =>
      simp only [Ws.handle]
      repeat' split
      all_goals exact ⟨hd, hc, rfl, rfl, fun _ h => h⟩
  obtain ⟨a1, a2, a3, a4, a5⟩ := handle
  obtain ⟨b1, b2, b3, b4⟩ := settle _ a1 a2
  exact ⟨b1, b2.trans a3, b3.trans a4, fun k hk => b4 k (a5 k hk)⟩

theorem dropped_steps {app : List Delivered → Bool} (later : List WsEvent) {s : Ws} (h : s.Inv)
    (hd : s.registered = false) :
    (later.foldl (Ws.step app) s).delivered = s.delivered ∧
      (later.foldl (Ws.step app) s).socks.length = s.socks.length ∧
      (∀ k : Nat, (∃ x : Sock, s.socks[k]? = some x ∧ x.isClose = true) →
        ∃ x, (later.foldl (Ws.step app) s).socks[k]? = some x ∧ x.isClose = true) := by
  induction later generalizing s with
  | nil => exact ⟨rfl, rfl, fun _ h => h⟩
  | cons e later ih =>
    obtain ⟨d1, d2, d3, d4⟩ := dropped_step (app := app) h hd e
    obtain ⟨i1, i2, i3⟩ := ih (step_inv h e).1 d1
    exact ⟨i1.trans d2, i2.trans d3, fun k hk => i3 k (d4 k hk)⟩

/-- Dropping the resource. -/
theorem drop_step {app : List Delivered → Bool} {s : Ws} (h : s.Inv) :
    (s.step app .drop).registered = false ∧ (s.step app .drop).delivered = s.delivered ∧
      (s.step app .drop).socks.length = s.socks.length ∧
      ((∀ x ∈ s.socks, x.result ≠ none) → s.registered = true → AllClosed (s.step app .drop)) := by
  cases h with
  | connecting old hs hold hpc hcur hmap hreg hal hp =>
    have hi : s.Inv := .connecting old hs hold hpc hcur hmap hreg hal hp
    have hd : s.handle app .drop = { s with isConnect := false, registered := false, alive := false } :=
      dropResource_quiet hi (by simp [hpc])
    have hst : s.step app .drop = { s with isConnect := false, registered := false, alive := false } := by
      obtain ⟨up, hp1, _⟩ := hp
      have hi : ({ s with isConnect := false, registered := false, alive := false } : Ws).Inv :=
        .connecting old hs hold hpc hcur hmap rfl rfl ⟨up, hp1, by simp⟩
      rw [Ws.step, hd, settle_id hi]
    rw [hst]
    refine ⟨rfl, rfl, rfl, fun hn => ?_⟩
    exact absurd rfl (hn Sock.new (by simp [hs]))
  | connected old hs hold hpc hcur hreg hal hup hdown =>
    cases hr : s.registered with
    | true =>
      have hd : s.handle app .drop = { s with socks := old ++ [Sock.up.close], isConnect := false, registered := false, alive := false } :=
        dropResource_connected (x := Sock.up) hs hcur hr
      have hst : s.step app .drop = { s with socks := old ++ [Sock.up.close], isConnect := false, registered := false, alive := false, pc := .finished } := by
        rw [Ws.step, hd]
        simp [Ws.settle, Ws.settleSocket, Ws.settleDone, Ws.onClose, hpc, Sock.up, Sock.close, Sock.resolve]
      rw [hst]
      refine ⟨rfl, rfl, by simp [hs], fun _ _ => ?_⟩
      intro x hx
      simp only [List.mem_append, List.mem_singleton] at hx
      rcases hx with hx | rfl
      · exact (hold x hx).1
      · rfl
    | false =>
      have hi : s.Inv := .connected old hs hold hpc hcur hreg hal hup hdown
      have := dropped_step (app := app) hi hr .drop
      exact ⟨this.1, this.2.1, this.2.2.1, fun _ h => by simp at h⟩
  | idle hold hpc hcur hmap hreg hal hp =>
    have hi : s.Inv := .idle hold hpc hcur hmap hreg hal hp
    have hd : s.handle app .drop = { s with isConnect := false, registered := false, alive := false } :=
      dropResource_quiet hi (by rcases hpc with hpc | ⟨hpc, _⟩ <;> simp [hpc])
    have hst : s.step app .drop = { s with isConnect := false, registered := false, alive := false } := by
      obtain ⟨up, hp1, _⟩ := hp
      have hi2 : ({ s with isConnect := false, registered := false, alive := false } : Ws).Inv :=
        .idle hold (hpc.imp id fun h => ⟨h.1, rfl⟩) hcur hmap rfl rfl ⟨up, hp1, by simp⟩
      rw [Ws.step, hd, settle_id hi2]
    rw [hst]
    exact ⟨rfl, rfl, rfl, fun _ _ x hx => (hold x hx).1⟩

/-- **C46** (silent).  After the resource has been dropped nothing is delivered any more, whatever happens,
and no other socket is created. -/
theorem C46_silent (app : List Delivered → Bool) (before later : List WsEvent) :
    (websocket app (before ++ [.drop] ++ later)).delivered = (websocket app before).delivered ∧
      (websocket app (before ++ [.drop] ++ later)).socks.length = (websocket app before).socks.length := by
  have hi := websocket_inv app before
  have hi2 := websocket_inv app (before ++ [.drop])
  rw [websocket_append app (before ++ [WsEvent.drop]) later]
  have hst : websocket app (before ++ [.drop]) = (websocket app before).step app .drop := by
    rw [websocket_append]; rfl
  rw [hst] at hi2 ⊢
  obtain ⟨d1, d2, d3, _⟩ := drop_step (app := app) hi
  obtain ⟨l1, l2, _⟩ := dropped_steps (app := app) later hi2 d1
  exact ⟨l1.trans d2, l2.trans d3⟩

/-- **C46** (closed).  If the resource is dropped while no connection attempt is pending (every socket
created so far has opened, failed or been closed), then every socket is closed, and stays closed.
Missing: a pending attempt, see `C46_closed_violated`. -/
theorem C46_closed_partial (app : List Delivered → Bool) (before later : List WsEvent)
    (halive : (websocket app before).alive = true)
    (hpending : ∀ x ∈ (websocket app before).socks, x.result ≠ none) :
    AllClosed (websocket app (before ++ [.drop] ++ later)) := by
  have hi := websocket_inv app before
  have hi2 := websocket_inv app (before ++ [.drop])
  rw [websocket_append app (before ++ [WsEvent.drop]) later]
  have hst : websocket app (before ++ [.drop]) = (websocket app before).step app .drop := by
    rw [websocket_append]; rfl
  rw [hst] at hi2 ⊢
  obtain ⟨d1, _, _, d4⟩ := drop_step (app := app) hi
  obtain ⟨_, l2, l3⟩ := dropped_steps (app := app) later hi2 d1
  have hall := d4 hpending (by rw [← (inv_flags hi).2]; exact halive)
  intro x hx
  obtain ⟨k, hk⟩ := List.getElem?_of_mem hx
  have hlt : k < ((websocket app before).step app .drop).socks.length := by
    rw [← l2]; exact (List.getElem?_eq_some_iff.1 hk).1
  obtain ⟨y, hy, hyc⟩ := l3 k ⟨_, List.getElem?_eq_getElem hlt, hall _ (List.getElem_mem hlt)⟩
  rw [hk] at hy
  injection hy with hy
  rw [hy]; exact hyc

/-- The decisions of the application and what has been delivered. -/
def Obeyed (app : List Delivered → Bool) (s : Ws) : Prop :=
  ∀ d rest, s.delivered = d ++ rest → d ≠ [] → app d = true → rest = [] ∧ s.alive = false

theorem dropResource_frame (s : Ws) : s.dropResource.delivered = s.delivered ∧ s.dropResource.alive = false := by
  unfold Ws.dropResource Ws.unregister Ws.dispose Ws.closeSocket
  split
  · dsimp only; split <;> exact ⟨rfl, rfl⟩
  · exact ⟨rfl, rfl⟩

theorem obeyed_of {app : List Delivered → Bool} {s t : Ws} (h : Obeyed app s) (hd : t.delivered = s.delivered)
    (ha : t.alive = true → s.alive = true) : Obeyed app t := by
  intro d rest heq hne happ
  obtain ⟨h1, h2⟩ := h d rest (hd ▸ heq) hne happ
  refine ⟨h1, ?_⟩
  cases hta : t.alive with
  | false => rfl
  | true => rw [ha hta] at h2; exact absurd h2 (by simp)

theorem deliver_obeyed {app : List Delivered → Bool} {s : Ws} (h : Obeyed app s) (d : Delivered) :
    Obeyed app (s.deliver app d) := by
  unfold Ws.deliver
  split
  · rename_i hal
    have key : ∀ t : Ws, t.delivered = s.delivered ++ [d] → (app (s.delivered ++ [d]) = true → t.alive = false) →
        Obeyed app t := by
      intro t ht happ d' rest heq hne ha
      rcases List.eq_nil_or_concat rest with rfl | ⟨rest', y, rfl⟩
      · rw [List.append_nil, ht] at heq
        exact ⟨rfl, happ (heq ▸ ha)⟩
      · rw [List.concat_eq_append, ht, ← List.append_assoc] at heq
        have := h d' rest' (List.append_inj' heq rfl).1 hne ha
        rw [hal] at this
        exact absurd this.2 (by simp)
    dsimp only
    split
    · exact key _ (dropResource_frame _).1 fun _ => (dropResource_frame _).2
    · rename_i hn
      exact key _ rfl fun hc => absurd hc hn
  · exact h

theorem onSocket_obeyed {app : List Delivered → Bool} {s : Ws} (h : Obeyed app s) (k : Nat) :
    Obeyed app (s.onSocket app k) := by
  unfold Ws.onSocket
  split
  · exact h
  · exact deliver_obeyed (s := { s with socketMap := some k }) (obeyed_of h rfl id) _

theorem onMessage_obeyed {app : List Delivered → Bool} {s : Ws} (h : Obeyed app s) (text : String) :
    Obeyed app (s.onMessage app text) := by
  unfold Ws.onMessage
  split
  · exact h
  · exact deliver_obeyed h _

theorem onClose_obeyed {app : List Delivered → Bool} {s : Ws} (h : Obeyed app s) :
    Obeyed app (s.onClose app) := by
  unfold Ws.onClose
  split
  · exact h
  · exact deliver_obeyed (s := { s with socketMap := none }) (obeyed_of h rfl id) _

theorem step_obeyed {app : List Delivered → Bool} {s : Ws} (h : Obeyed app s) (e : WsEvent) :
    Obeyed app (s.step app e) := by
  have done : ∀ u : Ws, Obeyed app u → Obeyed app (u.settleDone app) := by
    intro u hu
    unfold Ws.settleDone
    repeat' split
    · dsimp only
      split
      · exact obeyed_of (onClose_obeyed hu) rfl id
      · exact obeyed_of (onClose_obeyed hu) rfl id
    all_goals exact hu
  have sock : ∀ u : Ws, Obeyed app u → Obeyed app (u.settleSocket app) := by
    intro u hu
    unfold Ws.settleSocket
    repeat' split
    · exact hu
    · exact obeyed_of hu rfl id
    · rename_i k _ _ _ _ _ _
      exact obeyed_of (onSocket_obeyed (s := { u with current := some k }) (obeyed_of hu rfl id) k) rfl id
    all_goals exact hu
  have handle : Obeyed app (s.handle app e) := by
    cases e with
    | opened k => exact obeyed_of h rfl id
    | errored k => exact obeyed_of h rfl id
    | closed k => exact obeyed_of h rfl id
    | message k text =>
      simp only [Ws.handle]
      repeat' split
      all_goals first | exact h | exact onMessage_obeyed h _
    | timeout k =>
      simp only [Ws.handle]
      repeat' split
      all_goals exact h
    | retry =>
      simp only [Ws.handle]
      repeat' split
      all_goals exact h
    | drop =>
      refine obeyed_of h (dropResource_frame _).1 fun hc => ?_
      rw [Ws.handle, (dropResource_frame _).2] at hc
      exact absurd hc (by simp)
    | send text =>
      simp only [Ws.handle]
      repeat' split
      all_goals exact h
  exact done _ (sock _ handle)

theorem websocket_obeyed (app : List Delivered → Bool) (events : List WsEvent) :
    Obeyed app (websocket app events) := by
  unfold websocket
  induction events using List.reverseRecOn with
  | nil => intro d rest heq hne; simp [Ws.start] at heq; exact absurd heq.1 hne
  | append_singleton events e ih => rw [List.foldl_append]; exact step_obeyed ih e

/-- **C46** (dropped inside of a callback).  If the application drops the resource while it handles a
delivery, this delivery is the last one and every socket is closed. -/
theorem C46_dropped_inside (app : List Delivered → Bool) (events : List WsEvent) (hnd : .drop ∉ events)
    (d rest : List Delivered) (hd : (websocket app events).delivered = d ++ rest) (hne : d ≠ [])
    (happ : app d = true) : rest = [] ∧ AllClosed (websocket app events) := by
  obtain ⟨h1, h2⟩ := websocket_obeyed app events d rest hd hne happ
  refine ⟨h1, ?_⟩
  have hi := websocket_inv app events
  have hr : (websocket app events).registered = false := by rw [← (inv_flags hi).2]; exact h2
  clear hd happ h1 h2 hi
  suffices h : (websocket app events).registered = true ∨ AllClosed (websocket app events) by
    rcases h with h | h
    · rw [hr] at h; exact absurd h (by simp)
    · exact h
  clear hr
  induction events using List.reverseRecOn with
  | nil => exact .inl rfl
  | append_singleton events e ih =>
    have hi := websocket_inv app events
    have hst : websocket app (events ++ [e]) = (websocket app events).step app e := by
      rw [websocket_append]; rfl
    rw [hst]
    cases hr : (websocket app events).registered with
    | true => exact (step_inv hi e).2 (fun h => hnd (by simp [h])) hr
    | false =>
      rcases ih (fun h => hnd (by simp [h])) with h | h
      · rw [hr] at h; exact absurd h (by simp)
      · right
        obtain ⟨_, _, l2, l3⟩ := dropped_step (app := app) hi hr e
        intro x hx
        obtain ⟨k, hk⟩ := List.getElem?_of_mem hx
        have hlt : k < (websocket app events).socks.length := by
          rw [← l2]; exact (List.getElem?_eq_some_iff.1 hk).1
        obtain ⟨y, hy, hyc⟩ := l3 k ⟨_, List.getElem?_eq_getElem hlt, h _ (List.getElem_mem hlt)⟩
        rw [hk] at hy
        injection hy with hy
        rw [hy]; exact hyc

/-- **C46** (order).  What the application receives is a sequence of: a connection, messages, a close. -/
theorem C46_protocol (app : List Delivered → Bool) (events : List WsEvent) :
    (protocol false (websocket app events).delivered).isSome := by
  cases websocket_inv app events with
  | connecting _ _ _ _ _ _ _ _ hp => obtain ⟨up, h, _⟩ := hp; simp [h]
  | connected _ _ _ _ _ _ _ hup hdown =>
    cases hr : (websocket app events).registered with
    | true => simp [(hup hr).1]
    | false => obtain ⟨up, h⟩ := (hdown hr).1; simp [h]
  | idle _ _ _ _ _ _ hp => obtain ⟨up, h, _⟩ := hp; simp [h]

/-- **C46** (sending).  A message is sent exactly if the application has been told that a connection is up
(and has not been told that it is closed, nor dropped the resource); it is then sent on the newest socket,
which is open. -/
theorem C46_send (app : List Delivered → Bool) (events : List WsEvent) (text : String)
    (halive : (websocket app events).alive = true) :
    let s := websocket app events
    (protocol false s.delivered = some true ∧
      (websocket app (events ++ [.send text])).sent = s.sent ++ [(s.socks.length - 1, text)] ∧
      ∃ x, s.socks.getLast? = some x ∧ x.isClose = false ∧ x.result = some true) ∨
    (protocol false s.delivered = some false ∧ (websocket app (events ++ [.send text])).sent = s.sent) := by
  intro s
  have hi : s.Inv := websocket_inv app events
  have hst : websocket app (events ++ [.send text]) = s.step app (.send text) := by
    rw [websocket_append]; rfl
  have hreg : s.registered = true := by rw [← (inv_flags hi).2]; exact halive
  have quiet : (∀ k, s.socketMap = some k → ∃ x, s.socks[k]? = some x ∧ x.isClose = true) →
      (s.step app (.send text)).sent = s.sent := by
    intro hm
    have : s.handle app (.send text) = s := by
      simp only [Ws.handle]
      cases h : s.socketMap with
      | none => rfl
      | some k =>
        obtain ⟨x, hx, hxc⟩ := hm k h
        simp [hx, hxc]
    rw [Ws.step, this, settle_id hi]
  rw [hst]
  cases hi with
  | connecting old hs hold hpc hcur hmap hr hal hp =>
    right
    obtain ⟨up, hp1, hp2⟩ := hp
    refine ⟨by rw [hp1, hp2 hreg], quiet ?_⟩
    intro k hk
    have hlt := hmap k hk
    refine ⟨old[k], ?_, (hold _ (List.getElem_mem hlt)).1⟩
    rw [hs, List.getElem?_append_left hlt, List.getElem?_eq_getElem hlt]
  | connected old hs hold hpc hcur hr hal hup hdown =>
    left
    have hi' : ∀ l, ({ s with sent := l } : Ws).Inv := fun l =>
      .connected old hs hold hpc hcur hr hal hup hdown
    refine ⟨(hup hreg).1, ?_, _, by rw [hs]; simp; rfl, rfl, rfl⟩
    have : s.handle app (.send text) = { s with sent := s.sent ++ [(old.length, text)] } := by
      simp [Ws.handle, (hup hreg).2, hs]
    rw [Ws.step, this, settle_id (hi' _), hs]
    simp
  | idle hold hpc hcur hmap hr hal hp =>
    right
    obtain ⟨up, hp1, hp2⟩ := hp
    refine ⟨by rw [hp1, hp2 hreg], quiet ?_⟩
    intro k hk
    have hlt := hmap k hk
    exact ⟨s.socks[k], List.getElem?_eq_getElem hlt, (hold _ (List.getElem_mem hlt)).1⟩

/-- The code does not close a socket that is being connected when the resource is dropped: it opens later
and stays open until the other side closes it or an error occurs. -/
theorem C46_closed_violated (app : List Delivered → Bool) (later : List WsEvent)
    (h : ∀ e ∈ later, e ≠ .closed 0 ∧ e ≠ .errored 0) :
    (websocket app ([.drop, .opened 0] ++ later)).socks = [Sock.up] := by
  rw [websocket_append]
  have h0 : websocket app [.drop, .opened 0] =
      { socks := [Sock.up], pc := .awaitDone 0, isConnect := false, current := some 0, registered := false,
        socketMap := none, alive := false, delivered := [], sent := [] } := rfl
  rw [h0]
  suffices ∀ (s : Ws), s.socks = [Sock.up] → s.pc = .awaitDone 0 → s.registered = false → s.socketMap = none →
      (later.foldl (Ws.step app) s).socks = [Sock.up] from this _ rfl rfl rfl rfl
  induction later with
  | nil => intro s hs _ _ _; exact hs
  | cons e later ih =>
    intro s hs hpc hr hm
    have hset : ∀ t : Ws, t.socks = [Sock.up] → t.pc = .awaitDone 0 → t.settle app = t := by
      intro t ht htp
      simp [Ws.settle, Ws.settleSocket, Ws.settleDone, ht, htp, Sock.up]
    have key : ∃ b, s.step app e = { s with alive := b } := by
      have he := h e (by simp)
      have other : ∀ k, k ≠ 0 → s.socks.modify k Sock.close = s.socks := by
        intro k hk
        rw [hs]
        cases k with
        | zero => exact absurd rfl hk
        | succ k => simp
      have hid : s.handle app e = s → ∃ b, s.step app e = { s with alive := b } := by
        intro hh; exact ⟨s.alive, by rw [Ws.step, hh, hset s hs hpc]⟩
      cases e with
      | opened k =>
        apply hid
        have : s.socks.modify k (·.resolve true) = s.socks := by
          rw [hs]; cases k <;> simp [Sock.up, Sock.resolve]
        simp only [Ws.handle, this]
      | errored k =>
        apply hid
        simp only [Ws.handle, Ws.closeSocket, other k (fun hk => he.2 (by rw [hk]))]
      | closed k =>
        apply hid
        simp only [Ws.handle, Ws.closeSocket, other k (fun hk => he.1 (by rw [hk]))]
      | message k text =>
        apply hid
        simp only [Ws.handle, Ws.onMessage, hr, if_true]
        repeat' split
        all_goals rfl
      | timeout k =>
        apply hid
        simp only [Ws.handle]
        split
        · rename_i x hx
          have : x = Sock.up := by
            have := List.mem_of_getElem? hx; rw [hs] at this; simpa using this
          subst this; rfl
        · rfl
      | retry => apply hid; simp [Ws.handle, hpc]
      | drop =>
        refine ⟨false, ?_⟩
        have : s.handle app .drop = { s with alive := false } := by
          simp [Ws.handle, Ws.dropResource, Ws.unregister, hr]
        rw [Ws.step, this]; exact hset _ hs hpc
      | send text => apply hid; simp [Ws.handle, hm]
    obtain ⟨b, hb⟩ := key
    rw [List.foldl_cons, hb]
    exact ih (fun e he => h e (by simp [he])) _ hs hpc hr hm

/-! ## Concrete schedules -/

/-- The application drops the resource when it gets "bye". -/
def byeApp (d : List Delivered) : Bool := d.getLast? == some (.message "bye")

example : (websocket byeApp [.errored 0, .retry, .opened 1, .message 1 "a", .send "x", .closed 1, .retry, .opened 2,
      .message 2 "bye", .message 2 "z"]).delivered =
    [.connection, .message "a", .close, .connection, .message "bye"] := by decide

example : (websocket byeApp [.errored 0, .retry, .opened 1]).alive = true ∧
    (∀ x ∈ (websocket byeApp [.errored 0, .retry, .opened 1]).socks, x.result ≠ none) := by
  constructor <;> decide

end Verif.Host

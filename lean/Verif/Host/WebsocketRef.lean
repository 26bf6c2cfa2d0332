import Verif.Host.Websocket
/-!
# What a websocket resource does, completely (C84)

`Verif.Host.Websocket` proves safety: what an application may receive.  Here is the whole behaviour: on every
schedule, the application receives and sends exactly what a machine of four states says (`Reference`).

The listeners of `event_emiter.ts`, through which messages pass, are modelled below (`Emitter`).
-/

namespace Verif.Host

/-! ## Specification -/

/-- What a connection is, seen from outside.  The number is that of the connection attempt, from 0. -/
inductive Phase where
  /-- attempt `k` has started -/
  | connecting (k : Nat)
  /-- attempt `k` has succeeded -/
  | up (k : Nat)
  /-- attempt `k` will start when the delay is over -/
  | waiting (k : Nat)
  /-- the application has dropped the resource -/
  | off
  deriving DecidableEq

structure Reference where
  phase : Phase
  /-- what the application has received -/
  delivered : List Delivered
  /-- what has been sent, on the socket of which attempt -/
  sent : List (Nat × String)
  deriving DecidableEq

/-- The application receives `d`, and drops the resource if it wants to. -/
def Reference.receive (app : List Delivered → Bool) (r : Reference) (d : Delivered) (next : Phase) : Reference :=
  { r with
    delivered := r.delivered ++ [d]
    phase := if app (r.delivered ++ [d]) then .off else next }

/-- What the events mean.  An event of a socket other than the current one means nothing. -/
def Reference.step (app : List Delivered → Bool) (r : Reference) (e : WsEvent) : Reference :=
  match r.phase, e with
  | .off, _ => r
  | _, .drop => { r with phase := .off }
  | .connecting k, .opened j => if j = k then r.receive app .connection (.up k) else r
  | .connecting k, .errored j => if j = k then { r with phase := .waiting (k + 1) } else r
  | .connecting k, .closed j => if j = k then { r with phase := .waiting (k + 1) } else r
  | .connecting k, .timeout j => if j = k then { r with phase := .waiting (k + 1) } else r
  | .up k, .message j text => if j = k then r.receive app (.message text) (.up k) else r
  | .up k, .errored j => if j = k then r.receive app .close (.waiting (k + 1)) else r
  | .up k, .closed j => if j = k then r.receive app .close (.waiting (k + 1)) else r
  | .up k, .send text => { r with sent := r.sent ++ [(k, text)] }
  | .waiting k, .retry => { r with phase := .connecting k }
  | _, _ => r

/-- The reference on a schedule. -/
def reference (app : List Delivered → Bool) (events : List WsEvent) : Reference :=
  events.foldl (Reference.step app) ⟨.connecting 0, [], []⟩

/-- How many connections have been tried. -/
def Reference.attempts (r : Reference) : Option Nat :=
  match r.phase with
  | .connecting k => some (k + 1)
  | .up k => some (k + 1)
  | .waiting k => some k
  | .off => none

/-! ## Proof -/

/-- The phase of a state of the model. -/
def Ws.phase (s : Ws) : Phase :=
  if s.registered then
    match s.pc with
    | .awaitSocket k => .connecting k
    | .awaitDone k => .up k
    | .delay => .waiting s.socks.length
    | .finished => .off
  else .off

/-- The reference state of a state of the model. -/
def Ws.ref (s : Ws) : Reference := ⟨s.phase, s.delivered, s.sent⟩

theorem dropResource_sent (s : Ws) : s.dropResource.sent = s.sent := by
  unfold Ws.dropResource Ws.unregister Ws.dispose Ws.closeSocket
  split
  · dsimp only; split <;> rfl
  · rfl

theorem deliver_sent (app : List Delivered → Bool) (s : Ws) (d : Delivered) : (s.deliver app d).sent = s.sent := by
  unfold Ws.deliver
  split
  · dsimp only; split
    · rw [dropResource_sent]
    · rfl
  · rfl

theorem settle_sent (app : List Delivered → Bool) (s : Ws) : (s.settle app).sent = s.sent := by
  have h1 : ∀ t : Ws, (t.settleDone app).sent = t.sent := by
    intro t
    have : (t.onClose app).sent = t.sent := by
      unfold Ws.onClose; split
      · rfl
      · rw [deliver_sent]
    unfold Ws.settleDone
    repeat' split
    all_goals first | rfl | (dsimp only; split <;> exact this)
  have h2 : (s.settleSocket app).sent = s.sent := by
    unfold Ws.settleSocket Ws.onSocket
    repeat' split
    all_goals first | rfl | (dsimp only; rw [deliver_sent])
  rw [Ws.settle, h1, h2]

theorem step_sent (app : List Delivered → Bool) (s : Ws) (e : WsEvent) (h : ∀ text, e ≠ .send text) :
    (s.step app e).sent = s.sent := by
  rw [Ws.step, settle_sent]
  cases e with
  | opened k => rfl
  | errored k => rfl
  | closed k => rfl
  | message k text =>
    simp only [Ws.handle, Ws.onMessage]
    repeat' split
    all_goals first | rfl | rw [deliver_sent]
  | timeout k => simp only [Ws.handle]; repeat' split
                 all_goals rfl
  | retry => simp only [Ws.handle]; repeat' split
             all_goals rfl
  | drop => exact dropResource_sent s
  | send text => exact absurd rfl (h text)

/-- Every socket the map may name is closed, unless it is the one of a connection the application knows. -/
theorem send_quiet {app : List Delivered → Bool} {s : Ws} (hi : s.Inv) (text : String)
    (hm : ∀ k, s.socketMap = some k → ∃ x, s.socks[k]? = some x ∧ x.isClose = true) :
    s.step app (.send text) = s := by
  have : s.handle app (.send text) = s := by
    simp only [Ws.handle]
    cases h : s.socketMap with
    | none => rfl
    | some k => obtain ⟨x, hx, hxc⟩ := hm k h; simp [hx, hxc]
  rw [Ws.step, this, settle_id hi]

theorem off_step {app : List Delivered → Bool} {s : Ws} (hi : s.Inv) (hd : s.registered = false) (e : WsEvent) :
    (s.step app e).ref = s.ref := by
  obtain ⟨h1, h2, -, -⟩ := dropped_step (app := app) hi hd e
  have h3 : (s.step app e).sent = s.sent := by
    by_cases he : ∃ text, e = .send text
    · obtain ⟨text, rfl⟩ := he
      rw [send_quiet hi]
      intro k hk
      cases hi with
      | connecting old hs hold hpc hcur hmap =>
        have hlt := hmap k hk
        refine ⟨old[k], ?_, (hold _ (List.getElem_mem hlt)).1⟩
        rw [hs, List.getElem?_append_left hlt, List.getElem?_eq_getElem hlt]
      | connected old hs hold hpc hcur hr hal hup hdown =>
        have hlt := (hdown hd).2 k hk
        refine ⟨old[k], ?_, (hold _ (List.getElem_mem hlt)).1⟩
        rw [hs, List.getElem?_append_left hlt, List.getElem?_eq_getElem hlt]
      | idle hold hpc hcur hmap =>
        have hlt := hmap k hk
        exact ⟨s.socks[k], List.getElem?_eq_getElem hlt, (hold _ (List.getElem_mem hlt)).1⟩
    · exact step_sent app s e fun text h => he ⟨text, h⟩
  simp [Ws.ref, Ws.phase, h1, h2, h3, hd]

theorem on_step {app : List Delivered → Bool} {s : Ws} (hi : s.Inv) (hr : s.registered = true) (e : WsEvent) :
    (s.step app e).ref = s.ref.step app e := by
  have same : s.handle app e = s → s.ref.step app e = s.ref → (s.step app e).ref = s.ref.step app e := by
    intro he h; rw [Ws.step, he, settle_id hi, h]
  have hdrop : (s.step app .drop).ref = s.ref.step app .drop := by
    obtain ⟨d1, d2, -, -⟩ := drop_step (app := app) hi
    have d3 := step_sent app s .drop (by simp)
    have hl : (s.step app .drop).ref = ⟨.off, s.delivered, s.sent⟩ := by
      simp [Ws.ref, Ws.phase, d1, d2, d3]
    rw [hl]
    unfold Reference.step
    cases hp : s.phase <;> simp [Ws.ref, hp]
  obtain ⟨hc, hal⟩ := inv_flags hi
  rw [hr] at hc hal
  cases hi with
  | connecting old hs hold hpc hcur hmap hreg hal' hp =>
    have hi : s.Inv := .connecting old hs hold hpc hcur hmap hreg hal' hp
    have hph : s.ref = ⟨.connecting old.length, s.delivered, s.sent⟩ := by simp [Ws.ref, Ws.phase, hr, hpc]
    have hclose : (s.closeSocket old.length).settle app =
        { s with socks := old ++ [Sock.new.close], pc := .delay } := by
      simp [Ws.settle, Ws.settleSocket, Ws.settleDone, Ws.closeSocket, hpc, hs, modify_last, Sock.new, Sock.close,
        Sock.resolve]
    have hother : ∀ k, k ≠ old.length → s.closeSocket k = s := by
      intro k hk
      simp only [Ws.closeSocket]
      rw [hs, modify_other _ _ _ _ hk fun a ha => Sock.close_closed (hold a ha), ← hs]
    cases e with
    | opened k =>
      by_cases hk : k = old.length
      · subst hk
        cases ha : app (s.delivered ++ [.connection]) with
        | false =>
          have : s.step app (.opened old.length) =
              { s with
                socks := old ++ [Sock.up], current := some old.length, socketMap := some old.length
                delivered := s.delivered ++ [.connection], pc := .awaitDone old.length } := by
            simp [Ws.step, Ws.handle, Ws.settle, Ws.settleSocket, Ws.settleDone, Ws.onSocket, Ws.deliver, hpc, hs,
              modify_last, Sock.new, Sock.up, Sock.resolve, hr, hal, ha]
          rw [this, hph]
          simp [Ws.ref, Ws.phase, hr, Reference.step, Reference.receive, ha]
        | true =>
          have : s.step app (.opened old.length) =
              { s with
                socks := old ++ [{ isClose := true, result := some true, done := true, subscribed := true }]
                current := some old.length, socketMap := some old.length
                delivered := s.delivered ++ [.connection]
                isConnect := false, registered := false, alive := false, pc := .finished } := by
            simp [Ws.step, Ws.handle, Ws.settle, Ws.settleSocket, Ws.settleDone, Ws.onSocket, Ws.onClose, Ws.deliver,
              hpc, hs, modify_last, Sock.new, Sock.resolve, hr, hal, ha, Ws.dropResource, Ws.unregister, Ws.dispose,
              Ws.closeSocket, Sock.close]
          rw [this, hph]
          simp [Ws.ref, Ws.phase, Reference.step, Reference.receive, ha]
      · apply same
        · simp only [Ws.handle]
          rw [hs, modify_other _ _ _ _ hk fun a ha => Sock.resolve_closed (hold a ha) true, ← hs]
        · simp [hph, Reference.step, hk]
    | errored k =>
      by_cases hk : k = old.length
      · subst hk
        rw [Ws.step, show s.handle app (.errored old.length) = s.closeSocket old.length from rfl, hclose, hph]
        simp [Ws.ref, Ws.phase, hr, Reference.step]
      · exact same (hother k hk) (by simp [hph, Reference.step, hk])
    | closed k =>
      by_cases hk : k = old.length
      · subst hk
        rw [Ws.step, show s.handle app (.closed old.length) = s.closeSocket old.length from rfl, hclose, hph]
        simp [Ws.ref, Ws.phase, hr, Reference.step]
      · exact same (hother k hk) (by simp [hph, Reference.step, hk])
    | message k text =>
      apply same
      · simp only [Ws.handle]
        split
        · rename_i x hx
          split
          · rfl
          · rename_i hnc
            rw [hs, List.getElem?_append] at hx
            split at hx
            · exact absurd (hold x (List.mem_of_getElem? hx)).1 hnc
            · have : x = Sock.new := by
                have := List.mem_of_getElem? hx; simpa using this
              subst this; rfl
        · rfl
      · simp [hph, Reference.step]
    | timeout k =>
      by_cases hk : k = old.length
      · subst hk
        have : s.handle app (.timeout old.length) = s.closeSocket old.length := by
          simp [Ws.handle, hs, Sock.new]
        rw [Ws.step, this, hclose, hph]
        simp [Ws.ref, Ws.phase, hr, Reference.step]
      · apply same
        · simp only [Ws.handle, hother k hk]
          repeat' split
          all_goals rfl
        · simp [hph, Reference.step, hk]
    | retry => exact same (by simp [Ws.handle, hpc]) (by simp [hph, Reference.step])
    | drop => exact hdrop
    | send text =>
      rw [send_quiet hi]
      · simp [hph, Reference.step]
      · intro k hk
        have hlt := hmap k hk
        refine ⟨old[k], ?_, (hold _ (List.getElem_mem hlt)).1⟩
        rw [hs, List.getElem?_append_left hlt, List.getElem?_eq_getElem hlt]
  | connected old hs hold hpc hcur hreg hal' hup hdown =>
    have hi : s.Inv := .connected old hs hold hpc hcur hreg hal' hup hdown
    have hph : s.ref = ⟨.up old.length, s.delivered, s.sent⟩ := by simp [Ws.ref, Ws.phase, hr, hpc]
    have hother : ∀ k, k ≠ old.length → s.closeSocket k = s := by
      intro k hk
      simp only [Ws.closeSocket]
      rw [hs, modify_other _ _ _ _ hk fun a ha => Sock.close_closed (hold a ha), ← hs]
    have hclose : ((s.closeSocket old.length).settle app).ref = s.ref.receive app .close (.waiting (old.length + 1)) := by
      have h1 : s.closeSocket old.length = { s with socks := old ++ [Sock.up.close] } := by
        simp only [Ws.closeSocket]; rw [hs, modify_last]; rfl
      have h2 : (s.closeSocket old.length).settle app =
          (let t := Ws.onClose app { s with socks := old ++ [Sock.up.close] }
            if t.isConnect then { t with pc := .delay } else { t with pc := .finished }) := by
        rw [h1]
        simp [Ws.settle, Ws.settleSocket, Ws.settleDone, hpc, Sock.up, Sock.close, Sock.resolve]
      rw [h2]
      cases ha : app (s.delivered ++ [.close]) with
      | false =>
        have : Ws.onClose app { s with socks := old ++ [Sock.up.close] } =
            { s with socks := old ++ [Sock.up.close], socketMap := none, delivered := s.delivered ++ [.close] } := by
          simp [Ws.onClose, Ws.deliver, hr, hal, ha]
        rw [this]
        simp [← hc, Ws.ref, Ws.phase, hr, Reference.receive, ha]
      | true =>
        have hm : (old ++ [Sock.up.close]).modify old.length Sock.close = old ++ [Sock.up.close] := by
          rw [modify_last]; rfl
        have : Ws.onClose app { s with socks := old ++ [Sock.up.close] } =
            { s with socks := old ++ [Sock.up.close], socketMap := none, delivered := s.delivered ++ [.close], isConnect := false, registered := false, alive := false } := by
          simp [Ws.onClose, Ws.deliver, hr, hal, ha, Ws.dropResource, Ws.unregister, Ws.dispose, Ws.closeSocket,
            hcur, hm]
        rw [this]
        simp [Ws.ref, Ws.phase, Reference.receive, ha]
    cases e with
    | opened k =>
      apply same
      · simp only [Ws.handle]
        by_cases hk : k = old.length
        · subst hk; rw [hs, modify_last]; cases s; simp_all [Sock.resolve]
        · rw [hs, modify_other _ _ _ _ hk fun a ha => Sock.resolve_closed (hold a ha) true, ← hs]
      · simp [hph, Reference.step]
    | errored k =>
      by_cases hk : k = old.length
      · subst hk
        rw [Ws.step, show s.handle app (.errored old.length) = s.closeSocket old.length from rfl, hclose, hph]
        simp [Reference.step]
      · exact same (hother k hk) (by simp [hph, Reference.step, hk])
    | closed k =>
      by_cases hk : k = old.length
      · subst hk
        rw [Ws.step, show s.handle app (.closed old.length) = s.closeSocket old.length from rfl, hclose, hph]
        simp [Reference.step]
      · exact same (hother k hk) (by simp [hph, Reference.step, hk])
    | message k text =>
      by_cases hk : k = old.length
      · subst hk
        have h1 : s.handle app (.message old.length text) = s.onMessage app text := by simp [Ws.handle, hs]
        rw [Ws.step, h1]
        cases ha : app (s.delivered ++ [.message text]) with
        | false =>
          have : s.onMessage app text = { s with delivered := s.delivered ++ [.message text] } := by
            simp [Ws.onMessage, Ws.deliver, hr, hal, ha]
          have h2 : (s.onMessage app text).settle app = { s with delivered := s.delivered ++ [.message text] } := by
            rw [this]
            simp [Ws.settle, Ws.settleSocket, Ws.settleDone, hpc, hs]
          rw [h2, hph]
          simp [Ws.ref, Ws.phase, hr, hpc, Reference.step, Reference.receive, ha]
        | true =>
          have : s.onMessage app text =
              { s with delivered := s.delivered ++ [.message text], socks := old ++ [Sock.up.close],
                       isConnect := false, registered := false, alive := false } := by
            simp only [Ws.onMessage, Ws.deliver, hr, hal, Bool.true_eq_false, if_false, if_true, ha]
            exact dropResource_connected (x := Sock.up) hs hcur rfl
          rw [this, hph]
          simp [Ws.settle, Ws.settleSocket, Ws.settleDone, Ws.onClose, hpc, Sock.up, Sock.close, Sock.resolve,
            Ws.ref, Ws.phase, Reference.step, Reference.receive, ha]
      · apply same
        · simp only [Ws.handle]
          split
          · rename_i x hx
            split
            · rfl
            · rename_i hnc
              rw [hs, List.getElem?_append] at hx
              split at hx
              · exact absurd (hold x (List.mem_of_getElem? hx)).1 hnc
              · rename_i hlt
                have h0 : k - old.length = 0 := by
                  have := (List.getElem?_eq_some_iff.1 hx).1
                  simp at this; omega
                omega
          · rfl
        · simp [hph, Reference.step, hk]
    | timeout k =>
      apply same
      · simp only [Ws.handle]
        split
        · rename_i x hx
          split
          · rename_i hn
            by_cases hk : k = old.length
            · subst hk
              rw [hs] at hx; simp at hx; rw [← hx] at hn; simp at hn
            · exact hother k hk
          · rfl
        · rfl
      · simp [hph, Reference.step]
    | retry => exact same (by simp [Ws.handle, hpc]) (by simp [hph, Reference.step])
    | drop => exact hdrop
    | send text =>
      have h1 : s.handle app (.send text) = { s with sent := s.sent ++ [(old.length, text)] } := by
        simp [Ws.handle, (hup hr).2, hs]
      have hi' : ({ s with sent := s.sent ++ [(old.length, text)] } : Ws).Inv :=
        .connected old hs hold hpc hcur hreg hal' hup hdown
      rw [Ws.step, h1, settle_id hi', hph]
      simp [Ws.ref, Ws.phase, hr, hpc, Reference.step]
  | idle hold hpc hcur hmap hreg hal' hp =>
    have hi : s.Inv := .idle hold hpc hcur hmap hreg hal' hp
    have hpc : s.pc = .delay := by
      rcases hpc with hpc | ⟨_, h⟩
      · exact hpc
      · rw [h] at hc; simp at hc
    have hph : s.ref = ⟨.waiting s.socks.length, s.delivered, s.sent⟩ := by simp [Ws.ref, Ws.phase, hr, hpc]
    have hother : ∀ k, s.closeSocket k = s := by
      intro k
      simp only [Ws.closeSocket]
      rw [modify_id _ _ _ fun a ha => Sock.close_closed (hold a ha)]
    cases e with
    | opened k =>
      apply same
      · simp only [Ws.handle]
        rw [modify_id _ _ _ fun a ha => Sock.resolve_closed (hold a ha) true]
      · simp [hph, Reference.step]
    | errored k => exact same (hother k) (by simp [hph, Reference.step])
    | closed k => exact same (hother k) (by simp [hph, Reference.step])
    | message k text =>
      apply same
      · simp only [Ws.handle]
        split
        · rename_i x hx
          rw [if_pos (hold x (List.mem_of_getElem? hx)).1]
        · rfl
      · simp [hph, Reference.step]
    | timeout k =>
      apply same
      · simp only [Ws.handle, hother]
        repeat' split
        all_goals rfl
      · simp [hph, Reference.step]
    | retry =>
      have h1 : s.handle app .retry = { s with socks := s.socks ++ [Sock.new], pc := .awaitSocket s.socks.length } := by
        simp [Ws.handle, hpc, ← hc]
      have hi2 : ({ s with socks := s.socks ++ [Sock.new], pc := .awaitSocket s.socks.length } : Ws).Inv :=
        .connecting s.socks rfl hold rfl hcur hmap hreg hal' hp
      rw [Ws.step, h1, settle_id hi2, hph]
      simp [Ws.ref, Ws.phase, hr, Reference.step]
    | drop => exact hdrop
    | send text =>
      rw [send_quiet hi]
      · simp [hph, Reference.step]
      · intro k hk
        have hlt := hmap k hk
        exact ⟨s.socks[k], List.getElem?_eq_getElem hlt, (hold _ (List.getElem_mem hlt)).1⟩

theorem websocket_ref (app : List Delivered → Bool) (events : List WsEvent) :
    (websocket app events).ref = reference app events := by
  induction events using List.reverseRecOn with
  | nil => rfl
  | append_singleton events e ih =>
    have hi := websocket_inv app events
    have hst : websocket app (events ++ [e]) = (websocket app events).step app e := by
      rw [websocket_append]; rfl
    have hrf : reference app (events ++ [e]) = (reference app events).step app e := by
      simp [reference]
    rw [hst, hrf, ← ih]
    cases hr : (websocket app events).registered with
    | true => exact on_step hi hr e
    | false =>
      rw [off_step hi hr]
      simp [Reference.step, Ws.ref, Ws.phase, hr]

/-- **C84** (the whole behaviour).  On every schedule the application receives exactly the events of the
reference, in that order: the connection, every text that arrives while it is up, the close; the texts it sends
go out exactly while a connection is up, on its socket; the resource is alive exactly until the application
drops it, and until then a new connection is tried exactly once after each end. -/
theorem C84_reference (app : List Delivered → Bool) (events : List WsEvent) :
    (websocket app events).delivered = (reference app events).delivered ∧
      (websocket app events).sent = (reference app events).sent ∧
      ((websocket app events).alive = true ↔ (reference app events).phase ≠ .off) ∧
      ∀ n, (reference app events).attempts = some n → (websocket app events).socks.length = n := by
  have h := websocket_ref app events
  have hi := websocket_inv app events
  obtain ⟨h1, h2⟩ := inv_flags hi
  rw [← h]
  refine ⟨rfl, rfl, ?_, ?_⟩
  · rw [h2]
    cases hr : (websocket app events).registered with
    | false => simp [Ws.ref, Ws.phase, hr]
    | true =>
      cases hi with
      | connecting old hs hold hpc => simp [Ws.ref, Ws.phase, hr, hpc]
      | connected old hs hold hpc => simp [Ws.ref, Ws.phase, hr, hpc]
      | idle hold hpc =>
        rcases hpc with hpc | ⟨_, hc⟩
        · simp [Ws.ref, Ws.phase, hr, hpc]
        · rw [hr, hc] at h1; simp at h1
  · intro n hn
    cases hr : (websocket app events).registered with
    | false => simp [Ws.ref, Ws.phase, hr, Reference.attempts] at hn
    | true =>
      cases hi with
      | connecting old hs hold hpc => simp [Ws.ref, Ws.phase, hr, hpc, Reference.attempts] at hn; simp [hs, hn]
      | connected old hs hold hpc => simp [Ws.ref, Ws.phase, hr, hpc, Reference.attempts] at hn; simp [hs, hn]
      | idle hold hpc =>
        rcases hpc with hpc | ⟨hpc, hc⟩
        · simp [Ws.ref, Ws.phase, hr, hpc, Reference.attempts] at hn; exact hn
        · rw [hr, hc] at h1; simp at h1

example : (reference byeApp [.errored 0, .retry, .opened 1, .message 1 "a", .send "x", .closed 1, .retry, .opened 2,
      .message 2 "bye", .message 2 "z"]) =
    ⟨.off, [.connection, .message "a", .close, .connection, .message "bye"], [(1, "x")]⟩ := by decide

example : (reference byeApp [.timeout 0, .retry, .opened 1, .message 0 "a", .message 1 "b"]).attempts = some 2 := by
  decide

/-! ## The listeners of a connection: `event_emiter.ts` -/

/-- What a listener does with the emitter while it runs. -/
inductive ListenerAct where
  /-- `on` with another callback -/
  | on
  /-- the function returned by the `on` of listener `i` is called -/
  | off (i : Nat)
  deriving DecidableEq

/-- `EventEmitter` (`event_emiter.ts:1-6`).  Listeners are numbered in the order of their `on`. -/
structure Emitter where
  /-- the set `events`; a JavaScript set is iterated in the order of insertion -/
  events : List Nat
  /-- the flags `isActive` of the closures -/
  active : Nat → Bool
  /-- how many listeners there have ever been -/
  next : Nat

/-- `event_emiter.ts:4-6`. -/
def Emitter.empty : Emitter := ⟨[], fun _ => false, 0⟩

/-- `event_emiter.ts:8-22` `on`, and the function it returns. -/
def Emitter.act (m : Emitter) : ListenerAct → Emitter
  | .on => { events := m.events ++ [m.next], active := fun j => if j = m.next then true else m.active j,
             next := m.next + 1 }
  | .off i =>
    -- only listeners that exist have such a function
    if i < m.next then
      { m with events := m.events.filter (· != i), active := fun j => if j = i then false else m.active j }
    else m

/-- What the listeners do for one message: the calls they make on the emitter, and whether they throw. -/
abbrev Listeners := Nat → List ListenerAct × Bool

/-- `event_emiter.ts:11-15` and `28-32`: one listener of the copy.  An exception is logged. -/
def Emitter.runOne (beh : Listeners) (m : Emitter) (called : List Nat) (i : Nat) : Emitter × List Nat :=
  if m.active i then
    match beh i with
    | (acts, _throws) => (acts.foldl Emitter.act m, called ++ [i])
  else (m, called)

/-- `event_emiter.ts:27-33`: the loop over the copy. -/
def Emitter.loop (beh : Listeners) (m : Emitter) (called : List Nat) : List Nat → Emitter × List Nat
  | [] => (m, called)
  | i :: rest => let r := m.runOne beh called i; Emitter.loop beh r.1 r.2 rest

/-- `event_emiter.ts:24-34` `trigger`: the emitter after it, and which listeners have been called.  A listener
does not trigger the emitter: in `connection.ts` only the browser does. -/
def Emitter.trigger (beh : Listeners) (m : Emitter) : Emitter × List Nat := m.loop beh [] m.events

/-- The history of an emitter: calls on it from outside of its listeners, and messages. -/
inductive EmitterEvent where
  | act (a : ListenerAct)
  | message (beh : Listeners)

def Emitter.step (m : Emitter) : EmitterEvent → Emitter
  | .act a => m.act a
  | .message beh => (m.trigger beh).1

def emitter (history : List EmitterEvent) : Emitter := history.foldl Emitter.step .empty

/-- The set and the flags agree. -/
structure Emitter.Inv (m : Emitter) : Prop where
  mem : ∀ i, i ∈ m.events ↔ m.active i = true
  lt : ∀ i ∈ m.events, i < m.next
  sorted : m.events.Pairwise (· < ·)

theorem act_inv {m : Emitter} (h : m.Inv) (a : ListenerAct) : (m.act a).Inv := by
  cases a with
  | on =>
    refine ⟨?_, ?_, ?_⟩
    · intro i
      simp only [Emitter.act, List.mem_append, List.mem_singleton, h.mem]
      by_cases hi : i = m.next <;> simp [hi]
    · intro i hi
      simp only [Emitter.act, List.mem_append, List.mem_singleton] at hi ⊢
      rcases hi with hi | rfl
      · have := h.lt i hi; omega
      · omega
    · simp only [Emitter.act, List.pairwise_append, List.pairwise_singleton, List.mem_singleton]
      exact ⟨h.sorted, trivial, fun a ha b hb => hb ▸ h.lt a ha⟩
  | off i =>
    simp only [Emitter.act]
    split
    · refine ⟨?_, ?_, h.sorted.filter _⟩
      · intro j
        simp only [List.mem_filter, h.mem, bne_iff_ne]
        by_cases hj : j = i <;> simp [hj]
      · intro j hj
        exact h.lt j (List.mem_filter.1 hj).1
    · exact h

theorem acts_inv {m : Emitter} (h : m.Inv) (l : List ListenerAct) : (l.foldl Emitter.act m).Inv := by
  induction l generalizing m with
  | nil => exact h
  | cons a l ih => exact ih (act_inv h a)

theorem act_next (m : Emitter) (a : ListenerAct) : m.next ≤ (m.act a).next := by
  cases a with
  | on => simp [Emitter.act]
  | off i => simp only [Emitter.act]; split <;> simp

/-- An old listener is active after some calls exactly if it was and none of them removes it. -/
theorem acts_active {m : Emitter} (l : List ListenerAct) {i : Nat} (hi : i < m.next) :
    (l.foldl Emitter.act m).active i = true ↔ m.active i = true ∧ .off i ∉ l := by
  induction l generalizing m with
  | nil => simp
  | cons a l ih =>
    rw [List.foldl_cons, ih (Nat.lt_of_lt_of_le hi (act_next m a))]
    cases a with
    | on => simp [Emitter.act, Nat.ne_of_lt hi]
    | off j =>
      simp only [Emitter.act]
      by_cases hj : j < m.next
      · rw [if_pos hj]
        by_cases hij : i = j
        · subst hij; simp
        · simp [hij]
      · rw [if_neg hj]
        have : i ≠ j := by omega
        simp [this]

theorem acts_next (m : Emitter) (l : List ListenerAct) : m.next ≤ (l.foldl Emitter.act m).next := by
  induction l generalizing m with
  | nil => exact Nat.le_refl _
  | cons a l ih => exact Nat.le_trans (act_next m a) (ih _)

theorem loop_spec (beh : Listeners) (rest : List Nat) : ∀ (m : Emitter) (called : List Nat), m.Inv →
    (∀ i ∈ rest, i < m.next) → rest.Nodup →
    (m.loop beh called rest).1.Inv ∧ m.next ≤ (m.loop beh called rest).1.next ∧
    ∃ l, (m.loop beh called rest).2 = called ++ l ∧ l.Sublist rest ∧
      (∀ pre i post, rest = pre ++ i :: post →
        (i ∈ l ↔ m.active i = true ∧ ∀ j ∈ pre, j ∈ l → .off i ∉ (beh j).1)) ∧
      (∀ i, i < m.next → ((m.loop beh called rest).1.active i = true ↔
        m.active i = true ∧ ∀ j ∈ l, .off i ∉ (beh j).1)) := by
  induction rest with
  | nil => intro m called h _ _; exact ⟨h, Nat.le_refl _, [], by simp [Emitter.loop]⟩
  | cons a rest ih =>
    intro m called h hlt hnd
    have hna : a ∉ rest := (List.nodup_cons.1 hnd).1
    have hnd' := (List.nodup_cons.1 hnd).2
    have hal := hlt a (by simp)
    have hlt' : ∀ i ∈ rest, i < m.next := fun i hi => hlt i (by simp [hi])
    rw [Emitter.loop]
    cases hact : m.active a with
    | false =>
      have h1 : m.runOne beh called a = (m, called) := by simp [Emitter.runOne, hact]
      rw [h1]
      obtain ⟨g1, g2, l, e1, e2, e3, e4⟩ := ih m called h hlt' hnd'
      refine ⟨g1, g2, l, e1, e2.cons a, ?_, e4⟩
      have hal' : a ∉ l := fun hm => hna (e2.subset hm)
      intro pre i post hp
      cases pre with
      | nil =>
        simp only [List.nil_append, List.cons.injEq] at hp
        obtain ⟨rfl, -⟩ := hp
        simp [hact, hal']
      | cons b pre =>
        simp only [List.cons_append, List.cons.injEq] at hp
        obtain ⟨rfl, hp⟩ := hp
        rw [e3 pre i post hp]
        simp [hal']
    | true =>
      have h1 : m.runOne beh called a = ((beh a).1.foldl Emitter.act m, called ++ [a]) := by
        simp [Emitter.runOne, hact]
      rw [h1]
      have hn := acts_next m (beh a).1
      obtain ⟨g1, g2, l, e1, e2, e3, e4⟩ := ih ((beh a).1.foldl Emitter.act m) (called ++ [a]) (acts_inv h _)
        (fun i hi => Nat.lt_of_lt_of_le (hlt' i hi) hn) hnd'
      refine ⟨g1, Nat.le_trans hn g2, a :: l, by rw [e1]; simp, e2.cons_cons a, ?_, ?_⟩
      · intro pre i post hp
        cases pre with
        | nil =>
          simp only [List.nil_append, List.cons.injEq] at hp
          obtain ⟨rfl, -⟩ := hp
          simp [hact]
        | cons b pre =>
          simp only [List.cons_append, List.cons.injEq] at hp
          obtain ⟨rfl, hp⟩ := hp
          have hia : i ≠ a := by
            rintro rfl; exact hna (by rw [hp]; simp)
          have hmem : i ∈ rest := by rw [hp]; simp
          have hapre : a ∉ pre := fun hm => hna (by rw [hp]; simp [hm])
          simp only [List.mem_cons, hia, false_or]
          rw [e3 pre i post hp, acts_active _ (hlt' i hmem)]
          constructor
          · rintro ⟨⟨x1, x2⟩, x3⟩
            refine ⟨x1, ?_⟩
            intro j hj hjl
            rcases hj with rfl | hj
            · exact x2
            · rcases hjl with rfl | hjl
              · exact x2
              · exact x3 j hj hjl
          · rintro ⟨x1, x2⟩
            exact ⟨⟨x1, x2 a (.inl rfl) (.inl rfl)⟩, fun j hj hjl => x2 j (.inr hj) (.inr hjl)⟩
      · intro i hi
        rw [e4 i (Nat.lt_of_lt_of_le hi hn), acts_active _ hi]
        simp only [List.mem_cons, forall_eq_or_imp, and_assoc]

theorem step_emitter_inv {m : Emitter} (h : m.Inv) (e : EmitterEvent) : (m.step e).Inv := by
  cases e with
  | act a => exact act_inv h a
  | message beh =>
    exact (loop_spec beh m.events m [] h h.lt (h.sorted.imp fun h => Nat.ne_of_lt h)).1

theorem emitter_inv (history : List EmitterEvent) : (emitter history).Inv := by
  unfold emitter
  induction history using List.reverseRecOn with
  | nil => exact ⟨by simp [Emitter.empty], by simp [Emitter.empty], by simp [Emitter.empty]⟩
  | append_singleton history e ih => rw [List.foldl_append]; exact step_emitter_inv ih e

/-- **C84** (listeners).  Whatever has happened before, a message calls the listeners in the order in which
they were added, each at most once.  A listener is called exactly if it was there when the message came and
no listener called before it has removed it.  Listeners that throw change nothing for the others, and listeners
added meanwhile do not get this message. -/
theorem C84_listeners (history : List EmitterEvent) (beh : Listeners) :
    let m := emitter history
    ((m.trigger beh).2.Sublist m.events ∧ m.events.Pairwise (· < ·)) ∧
      (∀ pre i post, m.events = pre ++ i :: post →
        (i ∈ (m.trigger beh).2 ↔ ∀ j ∈ pre, j ∈ (m.trigger beh).2 → .off i ∉ (beh j).1)) ∧
      (∀ i ∈ m.events, i ∈ (m.trigger beh).1.events ↔ ∀ j ∈ (m.trigger beh).2, .off i ∉ (beh j).1) := by
  intro m
  have h : m.Inv := emitter_inv history
  obtain ⟨g1, _, l, e1, e2, e3, e4⟩ :=
    loop_spec beh m.events m [] h h.lt (h.sorted.imp fun h => Nat.ne_of_lt h)
  have hl : (m.trigger beh).2 = l := by rw [Emitter.trigger, e1]; simp
  rw [hl]
  refine ⟨⟨e2, h.sorted⟩, ?_, ?_⟩
  · intro pre i post hp
    rw [e3 pre i post hp]
    have : m.active i = true := (h.mem i).1 (by rw [hp]; simp)
    simp [this]
  · intro i hi
    rw [Emitter.trigger, g1.mem, e4 i (h.lt i hi)]
    simp [(h.mem i).1 hi]

/-- `connection.ts:165-170`: the loop adds one listener, which leaves the emitter alone.  So each message is
handed on exactly once: the `subscribed` of the model of a socket. -/
theorem C84_one_listener (n : Nat) (throws : Bool) (beh : Listeners) (hb : beh 0 = ([], throws)) :
    (emitter (.act .on :: List.replicate n (.message beh))).trigger beh =
      (emitter [.act .on], [0]) := by
  have key : ((emitter [.act .on]).trigger beh) = (emitter [.act .on], [0]) := by
    simp [emitter, Emitter.step, Emitter.act, Emitter.empty, Emitter.trigger, Emitter.loop, Emitter.runOne, hb]
  have : emitter (.act .on :: List.replicate n (.message beh)) = emitter [.act .on] := by
    induction n with
    | zero => rfl
    | succ n ih =>
      rw [List.replicate_succ', ← List.cons_append]
      unfold emitter at ih ⊢
      rw [List.foldl_append, ih]
      exact congrArg Prod.fst key
  rw [this, key]

/-- Three listeners: the first removes the second and throws, the third adds another. -/
def someListeners : Listeners
  | 0 => ([.off 1], true)
  | 2 => ([.on], false)
  | _ => ([], false)

example : ((emitter [.act .on, .act .on, .act .on]).trigger someListeners).2 = [0, 2] ∧
    ((emitter [.act .on, .act .on, .act .on]).trigger someListeners).1.events = [0, 2, 3] := by decide

end Verif.Host

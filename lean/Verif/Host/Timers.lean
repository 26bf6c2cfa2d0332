import Verif.Host.Access
/-!
# C53: timers

Sources: `crates/vertigo/src/driver_module/api/api_import.rs:178-264` (`interval_set`, `timeout_set`,
`set_timeout_and_detach`), `crates/vertigo/src/driver_module/api/callbacks.rs`,
`crates/vertigo/src/driver_module/src_js/api_browser/interval.ts`.

The timers of the browser follow the HTML standard (8.6, timers): one list for intervals and timeouts, ids are not used
again, the delay is converted to a signed 32 bit integer. The calls go through the model of access chains (C51). A callback
is known by the id it was registered under (C38).

Simplifications: the clamping of nested timers to 4 ms is left out (a browser may fire late anyway); the counter of
callback ids and the ids of timers do not overflow (a hypothesis of the theorems).
-/
namespace Verif.Host.Timers
open Verif.Codec
open Verif.Json (intToF64 f64ToInt)

/-! ## Model: the browser -/

/-- A timer of the browser; `every` is the delay of an interval. -/
structure Timer where
  id : Nat
  due : Int
  every : Option Nat
  callback : Nat

/-- The clock, the timers and the next id. -/
structure Browser where
  now : Int
  timers : List Timer
  next : Nat

/-- The conversion of the delay to `long` (Web IDL), and `max(0, delay)` (HTML, 8.6). -/
def delay (bits : UInt64) : Nat :=
  ((f64ToInt (-2 ^ 63) (2 ^ 63 - 1) bits + 2 ^ 31) % 2 ^ 32 - 2 ^ 31).toNat

/-- `setInterval` and `setTimeout`. -/
def Browser.set (b : Browser) (repeated : Bool) (d : Nat) (callback : Nat) : Browser :=
  { b with timers := b.timers ++ [⟨b.next, b.now + d, if repeated then some d else none, callback⟩], next := b.next + 1 }

/-- `clearInterval` and `clearTimeout`. -/
def Browser.clear (b : Browser) (id : Int) : Browser := { b with timers := b.timers.filter fun t => (t.id : Int) ≠ id }

/-! ## Model: interval.ts -/

/-- `api`, `api.interval`, and data. -/
inductive Val where
  | api
  | interval
  | js (j : Js)

/-- interval.ts:11-33 in the browser as access chains see it. Other calls than those Rust makes are exceptions. -/
def world : World Browser Val where
  api := .api
  window := .js .other
  document := .js .other
  null := .js .null
  undefined := .js .undefined
  node := fun _ _ => none
  give := fun w j => (.js j, w)
  read := fun _ r => match r with | .js j => j | _ => .other
  get := fun w r p => match r with | .api => if p = "interval" then (some .interval, w) else (some (.js .undefined), w) | _ => (none, w)
  set := fun w _ _ _ => (false, w)
  call := fun w r f args =>
    match r, args with
    | .interval, [.js (.num d), .js (.bigint c)] =>
        if f = "interval_set" then (some (.js (.num (intToF64 w.next))), w.set true (delay d) c.toNat)
        else if f = "timeout_set" then (some (.js (.num (intToF64 w.next))), w.set false (delay d) c.toNat)
        else (none, w)
    | .interval, [.js (.num id)] =>
        if f = "interval_clear" then (some (.js .undefined), w.clear (f64ToInt (-2 ^ 63) (2 ^ 63 - 1) id))
        else (none, w)
    | _, _ => (none, w)

/-! ## Model: api_import.rs, callbacks.rs -/

/-- The function registered for a callback (api_import.rs:179-182, 215-218): that of the program, or the one that
api_import.rs:253-260 makes of it. -/
inductive Kind where
  | user
  | detached
  deriving DecidableEq

/-- What the program sees, with the number of the callback `k`: a timer is set at a time, with a delay, once or repeated; its
resource is dropped; the function of the program is called. -/
inductive Entry where
  | set (now : Int) (k d : Nat) (repeated : Bool)
  | dropped (k : Nat)
  | called (now : Int) (k : Nat)

/-- The state: `store` are the registered callbacks, `held` the resources that the program holds and `boxes` the contents of the
`drop_box`es (callback and timer id); `log` is what has happened so far (not in the code); `missing` are calls for callbacks
that are not in the store. -/
structure App where
  browser : Browser
  store : List (Nat × Kind)
  nextCallback : Nat
  held : List (Nat × Int32)
  boxes : List (Nat × Int32)
  log : List Entry
  missing : List Nat

/-- A chain `api().get("interval").call(f, args)`. -/
def fetch (lossy : List UInt8 → String) (b : Browser) (f : String) (args : List JsValue) : Answer × Browser :=
  match (build [.api, .get "interval", .call f args]).toSnapshot with
  | .ok m => domAccess world lossy b m.written 0 m.size
  | _ => (.exception, b)

/-- api_import.rs:178-199, 214-235, with callbacks.rs:50-67: register the callback and set the timer. -/
def setTimer (lossy : List UInt8 → String) (f : String) (duration : UInt32) (kind : Kind) (s : App) : App × Int32 :=
  let k := s.nextCallback
  let r := fetch lossy s.browser f [.u32 duration, .u64 (UInt64.ofNat k)]
  ({ s with store := s.store ++ [(k, kind)], nextCallback := k + 1, browser := r.2 },
    match r.1 with
    | .value (.i32 id) => id
    | _ => 0)

/-- The resource of a timer is dropped: api_import.rs:203-211, 239-247, with callbacks.rs:59-64. -/
def dropTimer (lossy : List UInt8 → String) (k : Nat) (id : Int32) (s : App) : App :=
  { s with browser := (fetch lossy s.browser "interval_clear" [.i32 id]).2, store := s.store.filter (·.1 ≠ k) }

/-- What a program does with timers. `drop k` drops the resource of the timer with the callback `k`. -/
inductive Op where
  | interval (duration : UInt32)
  | timeout (duration : UInt32)
  | detach (duration : UInt32)
  | drop (k : Nat)

/-- api_import.rs:178-264 -/
def doOp (lossy : List UInt8 → String) (s : App) : Op → App
  | .interval d =>
      let r := setTimer lossy "interval_set" d .user { s with log := s.log ++ [.set s.browser.now s.nextCallback d.toNat true] }
      { r.1 with held := r.1.held ++ [(s.nextCallback, r.2)] }
  | .timeout d =>
      let r := setTimer lossy "timeout_set" d .user { s with log := s.log ++ [.set s.browser.now s.nextCallback d.toNat false] }
      { r.1 with held := r.1.held ++ [(s.nextCallback, r.2)] }
  | .detach d =>
      let r := setTimer lossy "timeout_set" d .detached { s with log := s.log ++ [.set s.browser.now s.nextCallback d.toNat false] }
      { r.1 with boxes := r.1.boxes ++ [(s.nextCallback, r.2)] }
  | .drop k =>
      match s.held.lookup k with
      | some id => { dropTimer lossy k id s with held := s.held.filter (·.1 ≠ k), log := s.log ++ [.dropped k] }
      | none => s

/-- interval.ts:13, 25 with callbacks.rs:89-99 and api_import.rs:256-259: the callback is called; the function of the
program does `ops`. -/
def callback (lossy : List UInt8 → String) (k : Nat) (ops : List Op) (s : App) : App :=
  match s.store.lookup k with
  | none => { s with missing := s.missing ++ [k] }
  | some kind =>
      let s := ops.foldl (doOp lossy) { s with log := s.log ++ [.called s.browser.now k] }
      match kind with
      | .user => s
      | .detached =>
          match s.boxes.lookup k with
          | some id => { dropTimer lossy k id s with boxes := s.boxes.filter (·.1 ≠ k) }
          | none => s

/-- What happens: the program does something, time passes, or the browser fires the timer that has the callback `k`, whose
function does `ops`. -/
inductive Event where
  | op (o : Op)
  | wait (ms : Nat)
  | fire (k : Nat) (ops : List Op)

/-- The browser fires a timer (HTML, 8.6): a timeout is removed first; an interval that is still there afterwards gets a new
time. -/
def fire (lossy : List UInt8 → String) (k : Nat) (ops : List Op) (s : App) : App :=
  match s.browser.timers.find? (·.callback = k) with
  | none => s
  | some t =>
      if t.due ≤ s.browser.now then
        match t.every with
        | none => callback lossy k ops { s with browser := s.browser.clear t.id }
        | some d =>
            let s := callback lossy k ops s
            { s with browser := { s.browser with
                timers := s.browser.timers.map fun u => if u.id = t.id then { u with due := s.browser.now + d } else u } }
      else s

def step (lossy : List UInt8 → String) (s : App) : Event → App
  | .op o => doOp lossy s o
  | .wait ms => { s with browser := { s.browser with now := s.browser.now + ms } }
  | .fire k ops => fire lossy k ops s

/-- A program that has set no timers yet; the browser may have given ids to other timers. -/
def start (now : Int) (next : Nat) : App := ⟨⟨now, [], next⟩, [], 1, [], [], [], []⟩

def run (lossy : List UInt8 → String) (s : App) (es : List Event) : App := es.foldl (step lossy) s

/-! ## Specification -/

/-- A timer: the number of the callback, when it is due, the delay if it is an interval, and whether the program holds it. -/
structure Pending where
  k : Nat
  due : Int
  every : Option Nat
  mine : Bool

/-- The timers as the program sees them: those that are set, the resources it holds, and what has happened so far. -/
structure Spec where
  now : Int
  next : Nat
  pending : List Pending
  held : List Nat
  log : List Entry

def Spec.op (p : Spec) : Op → Spec
  | .interval d =>
      { p with next := p.next + 1, pending := p.pending ++ [⟨p.next, p.now + d.toNat, some d.toNat, true⟩],
               held := p.held ++ [p.next], log := p.log ++ [.set p.now p.next d.toNat true] }
  | .timeout d =>
      { p with next := p.next + 1, pending := p.pending ++ [⟨p.next, p.now + d.toNat, none, true⟩],
               held := p.held ++ [p.next], log := p.log ++ [.set p.now p.next d.toNat false] }
  | .detach d =>
      { p with next := p.next + 1, pending := p.pending ++ [⟨p.next, p.now + d.toNat, none, false⟩],
               log := p.log ++ [.set p.now p.next d.toNat false] }
  | .drop k =>
      if k ∈ p.held then
        { p with pending := p.pending.filter (·.k ≠ k), held := p.held.filter (· ≠ k), log := p.log ++ [.dropped k] }
      else p

def Spec.event (p : Spec) : Event → Spec
  | .op o => p.op o
  | .wait ms => { p with now := p.now + ms }
  | .fire k ops =>
      match p.pending.find? (·.k = k) with
      | none => p
      | some x =>
          if x.due ≤ p.now then
            match x.every with
            | none => ops.foldl Spec.op { p with pending := p.pending.filter (·.k ≠ k), log := p.log ++ [.called p.now k] }
            | some d =>
                let p := ops.foldl Spec.op { p with log := p.log ++ [.called p.now k] }
                { p with pending := p.pending.map fun y => if y.k = k then { y with due := p.now + d } else y }
          else p

def Spec.run (p : Spec) (es : List Event) : Spec := es.foldl Spec.event p

/-- Delays below 2^31 ms. -/
def Op.Short : Op → Prop
  | .interval d | .timeout d | .detach d => d.toNat < 2 ^ 31
  | .drop _ => True

def Event.Short : Event → Prop
  | .op o => o.Short
  | .wait _ => True
  | .fire _ ops => ∀ o ∈ ops, o.Short

/-- When a call is right after what has happened before: the timer was set, its delay is over, its resource was not dropped,
and either it was not called before, or it is an interval and its delay is over since each earlier call. A timer gets a
number that no timer had before. -/
def Allowed (before : List Entry) : Entry → Prop
  | .set _ k _ _ => ∀ now d rep, Entry.set now k d rep ∉ before
  | .dropped k => ∃ now d rep, Entry.set now k d rep ∈ before
  | .called now k => ∃ now₀ d rep, Entry.set now₀ k d rep ∈ before ∧ now₀ + d ≤ now ∧ Entry.dropped k ∉ before ∧
      ∀ t, Entry.called t k ∈ before → rep = true ∧ t + d ≤ now

/-- How many timers an event can set. -/
def Event.size : Event → Nat
  | .op _ => 1
  | .wait _ => 0
  | .fire _ ops => ops.length

end Verif.Host.Timers

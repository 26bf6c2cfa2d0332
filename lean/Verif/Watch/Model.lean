/-!
# C62: `vertigo watch`

Model of `crates/vertigo-cli/src/watch/{watch_run,sse}.rs`, of the parts of `serve/serve_run.rs` that matter to it
(the global `STATE`, the address that is bound) and of `serve/watch.js`, which runs in the page.

Everything that happens concurrently is a `Step`, and the theorems hold for every order of steps: edits of files, the
notifications of the watcher, the loop of `run`, the tasks that build and serve, the tasks that check the server, and for every
page in a browser the stream of events with its helper, the delivery of messages, lost connections and reloads.
-/
namespace Verif.Watch

/-! ## Status and messages -/

/-- `Status` (watch_run.rs:20-26). Versions are unbounded here, `u32` in the code. -/
inductive Status where
  | building
  | version (n : Nat)
  | errors
  deriving DecidableEq, Repr

/-- The text of the event for a status (sse.rs:20-24). -/
def Status.message : Status → String
  | .building => "Building"
  | .version n => "Version = " ++ toString n
  | .errors => "Errors"

/-! ## Files -/

/-- A path is the list of its components. -/
abbrev Path := List String

/-- `event.paths.iter().all(..)` (watch_run.rs:71-80): the event is ignored. `Path::starts_with` compares components. -/
def ignored (excludes : List Path) (paths : List Path) : Bool :=
  paths.all fun path => excludes.any fun exclude => exclude.isPrefixOf path

/-- What is in the destination directory, and what the server serves: the result of the build with a number, which has seen so
many edits of the sources. -/
structure Bundle where
  version : Nat
  rev : Nat
  deriving DecidableEq, Repr

/-! ## Tasks -/

/-- The phases of the task of `build_and_watch` (watch_run.rs:155-193). -/
inductive Phase where
  /-- `sleep(200 ms)` -/
  | sleeping
  /-- `run_with_ws`, a synchronous function. So many edits had been made when it began. -/
  | building (since : Nat)
  /-- The build is in the destination directory; from the task that checks the server being spawned until `Server::bind`
  (synchronous as well). Whether the check is still going on. -/
  | starting (checking : Bool)
  /-- Waiting in `axum::Server::serve`. -/
  | serving (checking : Bool)
  deriving DecidableEq, Repr

structure Task where
  version : Nat
  /-- `abort` was called, but the task was inside of synchronous code. -/
  aborted : Bool
  phase : Phase
  deriving DecidableEq, Repr

/-- A build that came to an end (only used to state properties). -/
structure Built where
  version : Nat
  rev : Nat
  ok : Bool
  deriving DecidableEq, Repr

/-! ## Pages -/

/-- `MyStream` (sse.rs:29-75), with the messages that are on the way to the page. -/
structure Conn where
  /-- The helper task of `poll_next` was spawned. -/
  helper : Bool
  /-- The version of the channel that the helper has seen. Receivers are clones of the first one, which has seen version 0. -/
  seen : Nat
  /-- The task that sends the stream is going to poll it. -/
  woken : Bool
  lastEmit : Option Status
  /-- Everything emitted (only used to state properties). -/
  emitted : List Status
  wire : List String
  deriving DecidableEq, Repr

/-- `MyStream::new` (sse.rs:36-42). The first poll is made by the server. -/
def Conn.new : Conn := { helper := false, seen := 0, woken := true, lastEmit := none, emitted := [], wire := [] }

/-- What `showBuilding` has put on the page (watch.js:39-50). -/
inductive Overlay where
  | inProgress
  | errors
  deriving DecidableEq, Repr

/-- A page with the variables of `start_watch` (watch.js:6-63). -/
structure Page where
  loaded : Bundle
  last : Option String
  overlay : Option Overlay
  /-- `window.location.reload()` was called. -/
  reloading : Bool
  /-- Every message since the page was loaded (only used to state properties). -/
  heard : List String
  /-- The `EventSource`, while it is connected. -/
  conn : Option Conn
  deriving DecidableEq, Repr

/-- A page that was just loaded. -/
def Page.new (b : Bundle) : Page :=
  { loaded := b, last := none, overlay := none, reloading := false, heard := [], conn := none }

/-- `processMessage` (watch.js:13-37). -/
def Page.processMessage (p : Page) (message : String) : Page :=
  let p := { p with heard := p.heard ++ [message] }
  if message = "Building" then { p with overlay := some .inProgress }
  else if message = "Errors" then { p with overlay := some .errors }
  else if p.last = none then { p with last := some message }
  else { p with reloading := true }

/-- `poll_next` (sse.rs:48-74). The helper is spawned by the first poll. After an item the server polls again. -/
def Conn.poll (c : Conn) (status : Status) : Conn :=
  let c := { c with helper := true }
  if c.lastEmit = some status then { c with woken := false }
  else { c with lastEmit := some status, emitted := c.emitted ++ [status], wire := c.wire ++ [status.message], woken := true }

/-- One turn of the loop of the helper (sse.rs:56-61): `changed()` is ready when something was sent that it has not seen. -/
def Conn.change (c : Conn) (sent : Nat) : Conn :=
  if c.helper && decide (c.seen < sent) then { c with seen := sent, woken := true } else c

/-! ## The whole -/

/-- Everything at once. `version` to `status` are the variables of `run` (watch_run.rs:28-145) and what they point to. -/
structure World where
  /-- `--port-watch` -/
  port : Nat
  excludes : List Path
  /-- Edits of the sources so far. -/
  src : Nat
  /-- Events that the watcher has not yet reported. -/
  events : List (List Path)
  /-- The `Notified` future of the loop was woken. -/
  woken : Bool
  /-- The permit stored in `notify_build`. -/
  permit : Bool
  version : Nat
  tasks : List Task
  finished : List Built
  /-- The destination directory. -/
  dest : Option Bundle
  /-- `STATE` (serve_run.rs:23). -/
  state : Option Bundle
  /-- The channel of the status: its value, and how often something was sent. -/
  status : Status
  sent : Nat
  /-- Every status there was (only used to state properties). -/
  history : List Status
  pages : List Page
  deriving DecidableEq, Repr

/-- `run` when it comes to its loop for the first time and waits (watch_run.rs:100-142). -/
def World.start (port : Nat) (excludes : List Path) : World :=
  { port := port, excludes := excludes, src := 0, events := [], woken := false, permit := false, version := 1,
    tasks := [⟨1, false, .sleeping⟩], finished := [], dest := none, state := none, status := .building, sent := 1,
    history := [.building, .building], pages := [] }

/-- `tx.send(status)`. -/
def World.send (w : World) (status : Status) : World :=
  { w with status := status, sent := w.sent + 1, history := w.history ++ [status] }

/-- `notify_one`: a waiting future is woken, otherwise a permit is stored. -/
def World.notify (w : World) : World :=
  if w.woken then { w with permit := true } else { w with woken := true }

/-- `spawn.off()` (watch_run.rs:143, spawn.rs:15-22): the task is dropped where it waits; synchronous code runs on. -/
def abort (tasks : List Task) (version : Nat) : List Task :=
  tasks.filterMap fun t =>
    if t.version = version then
      match t.phase with
      | .sleeping | .serving _ => none
      | .building _ | .starting _ => some { t with aborted := true }
    else some t

/-- The loop goes on after `notified().await` (watch_run.rs:131-144): the task is aborted, the next one is spawned, and the loop
waits again, which uses up a permit. -/
def World.loop (w : World) : World :=
  if w.woken then
    let version := w.version + 1
    let w := World.send { w with tasks := abort w.tasks w.version ++ [⟨version, false, .sleeping⟩], version := version } .building
    { w with woken := w.permit, permit := false }
  else w

/-- The next phase of a task. -/
def setPhase (tasks : List Task) (version : Nat) (phase : Phase) : List Task :=
  tasks.map fun t => if t.version = version then { t with phase := phase } else t

/-- The end of a task. What it owns is dropped: the listener, and the task that checks the server. -/
def remove (tasks : List Task) (version : Nat) : List Task :=
  tasks.filter fun t => t.version ≠ version

/-- A server accepts connections and answers. -/
def listening (tasks : List Task) : Bool :=
  tasks.any fun t => match t.phase with
    | .serving _ => true
    | _ => false

/-- The steps of the task of `build_and_watch` (watch_run.rs:155-193). -/
inductive TaskStep where
  /-- the 200 ms are over -/
  | wake
  /-- `run_with_ws` returns; the compiler has read the sources after so many edits -/
  | built (rev : Nat) (ok : Bool)
  /-- `run_with_ws` panics, as it does if files are missing (build_run.rs:59-98) -/
  | panic
  /-- `serve::run` up to `Server::bind` (serve_run.rs:25-70): `STATE` is replaced by what is in the destination directory; the
  task panics if the address is in use, and ends where it waits for the first time if it was aborted -/
  | serve
  /-- `is_http_server_listening` succeeds (watch_run.rs:162-172) -/
  | check

def World.task (w : World) (t : Task) : TaskStep → World
  | .wake =>
      match t.phase with
      | .sleeping => { w with tasks := setPhase w.tasks t.version (.building w.src) }
      | _ => w
  | .built rev ok =>
      match t.phase with
      | .building since =>
          if since ≤ rev ∧ rev ≤ w.src then
            let w : World := { w with finished := w.finished ++ [⟨t.version, rev, ok⟩] }
            if ok then { w with dest := some ⟨t.version, rev⟩, tasks := setPhase w.tasks t.version (.starting true) }
            else World.send { w with tasks := remove w.tasks t.version } .errors
          else w
      | _ => w
  | .panic =>
      match t.phase with
      | .building _ => { w with tasks := remove w.tasks t.version }
      | _ => w
  | .serve =>
      match t.phase with
      | .starting checking =>
          let w := { w with state := w.dest }
          if listening w.tasks || t.aborted then { w with tasks := remove w.tasks t.version }
          else { w with tasks := setPhase w.tasks t.version (.serving checking) }
      | _ => w
  | .check =>
      match t.phase with
      | .starting true =>
          if listening w.tasks then World.send { w with tasks := setPhase w.tasks t.version (.starting false) } (.version t.version) else w
      | .serving true => World.send { w with tasks := setPhase w.tasks t.version (.serving false) } (.version t.version)
      | _ => w

/-- What happens to a page. -/
inductive PageStep where
  /-- the page is loaded again after `reload()` -/
  | reload
  /-- the `EventSource` connects (again) -/
  | connect
  /-- the connection is lost, with everything on the way -/
  | lose
  /-- the helper of the stream goes on -/
  | change
  /-- the stream is polled -/
  | poll
  /-- a message arrives -/
  | deliver
  /-- the user closes the message about errors (watch.js:153-156) -/
  | dismiss

/-- The address of the events is fixed in watch_run.rs:114, the page uses `--port-watch` (response_state.rs:60). -/
def eventsPort : Nat := 5555

/-- One step of a page. Pages are loaded from `STATE`, also over connections that were opened before the server was stopped. -/
def Page.step (w : World) (p : Page) : PageStep → Page
  | .reload =>
      match w.state with
      | some b => if p.reloading then Page.new b else p
      | none => p
  | .connect => if p.conn = none ∧ w.port = eventsPort then { p with conn := some Conn.new } else p
  | .lose => { p with conn := none }
  | .change =>
      match p.conn with
      | some c => { p with conn := some (c.change w.sent) }
      | none => p
  | .poll =>
      match p.conn with
      | some c => if c.woken then { p with conn := some (c.poll w.status) } else p
      | none => p
  | .deliver =>
      match p.conn with
      | some c =>
          match c.wire with
          | m :: rest => Page.processMessage { p with conn := some { c with wire := rest } } m
          | [] => p
      | none => p
  | .dismiss => if p.overlay = some .errors then { p with overlay := none } else p

inductive Step where
  /-- files are changed, and the system queues one event for them -/
  | edit (paths : List Path)
  /-- the watcher reports the next event (watch_run.rs:69-87) -/
  | event
  | loop
  | task (version : Nat) (s : TaskStep)
  /-- a page is opened in a browser -/
  | visit
  | page (i : Nat) (s : PageStep)
  /-- a page is closed -/
  | close (i : Nat)

def World.step (w : World) : Step → World
  | .edit paths =>
      { w with src := if ignored w.excludes paths then w.src else w.src + 1, events := w.events ++ [paths] }
  | .event =>
      match w.events with
      | [] => w
      | paths :: rest =>
          let w := { w with events := rest }
          if ignored w.excludes paths then w else w.notify
  | .loop => w.loop
  | .task version s =>
      match w.tasks.find? (·.version = version) with
      | some t => w.task t s
      | none => w
  | .visit =>
      match w.state with
      | some b => { w with pages := w.pages ++ [Page.new b] }
      | none => w
  | .page i s =>
      match w.pages[i]? with
      | some p => { w with pages := w.pages.set i (p.step w s) }
      | none => w
  | .close i => { w with pages := w.pages.eraseIdx i }

def World.run (w : World) (steps : List Step) : World := steps.foldl World.step w

end Verif.Watch

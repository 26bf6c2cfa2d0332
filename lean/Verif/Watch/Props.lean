import Verif.Watch.Proof
/-!
# C62: theorems

A page that is open in a browser while `vertigo watch` runs follows the sources: every edit is built, what is reported is the
outcome of the newest build, and the page is reloaded when it is out of date.
-/
namespace Verif.Watch

/-- The directories that are excluded in the examples. -/
def sampleExcludes : List Path := [["app", "target"], ["app", "build"]]

/-- An edit of a source, from the edit to the loop going on. -/
def sampleEdit : List Step := [.edit [["app", "src", "lib.rs"]], .event, .loop]

/-- A build without errors, from the task being woken to the version being reported. -/
def sampleBuild (version rev : Nat) : List Step :=
  [.task version .wake, .task version (.built rev true), .task version .serve, .task version .check]

/-- A page is opened, connects and is told the status. -/
def sampleVisit (i : Nat) : List Step :=
  [.visit, .page i .connect, .page i .poll, .page i .change, .page i .poll, .page i .deliver]

/-- The newest message gets to a page. -/
def sampleNews (i : Nat) : List Step := [.page i .change, .page i .poll, .page i .poll, .page i .deliver]

/-! ## Edits -/

/-- No edit is lost, however the edits, the notifications, the builds and the loop are interleaved: when every event was
reported and the loop has seen them all, the newest build, once it is finished, has seen every edit of the sources. -/
theorem C62_no_edit_lost (port : Nat) (excludes : List Path) (steps : List Step) :
    let w := (World.start port excludes).run steps
    Quiet w → ∀ b ∈ w.finished, b.version = w.version → b.rev = edits excludes steps := by
  intro w hq b hb hv
  have hok : Ok w := (Ok.start port excludes).run steps
  have := hok.rev (not_unnoticed hq) b hb hv
  rw [this]
  have := (run_src (World.start port excludes) steps).1
  rw [show (World.start port excludes).src = 0 from rfl, Nat.zero_add] at this
  exact this

/-- Two edits during a build: it is aborted, and the newest build has seen both. -/
example :
    let steps := [.task 1 .wake] ++ sampleEdit ++ [.task 1 (.built 0 true), .edit [["app", "build", "x.wasm"]], .event] ++
      sampleEdit ++ [.loop] ++ sampleBuild 3 2
    let w := (World.start 5555 sampleExcludes).run steps
    Quiet w ∧ ⟨3, 2, true⟩ ∈ w.finished ∧ w.version = 3 ∧ edits sampleExcludes steps = 2 := by decide +kernel

/-- Files below the excluded directories never cause a build. -/
theorem C62_excluded (w : World) (steps : List Step) (hq : Quiet w) (he : edits w.excludes steps = 0) :
    (w.run steps).version = w.version := by
  have key : ∀ (steps : List Step) (w : World), (∀ e ∈ w.events, ¬ Matters w.excludes e) → w.woken = false →
      edits w.excludes steps = 0 → (w.run steps).version = w.version := by
    intro steps
    induction steps with
    | nil => intro w _ _ _; rfl
    | cons s steps ih =>
        intro w h1 h2 h3
        rw [edits_cons] at h3
        have hs : edits w.excludes [s] = 0 := by omega
        have hr : edits (w.step s).excludes steps = 0 := by rw [(step_fixed w s).1]; omega
        have hstep : (∀ e ∈ (w.step s).events, ¬ Matters (w.step s).excludes e) ∧ (w.step s).woken = false ∧
            (w.step s).version = w.version := by
          rw [(step_fixed w s).1]
          cases s with
          | edit paths =>
              refine ⟨?_, h2, rfl⟩
              intro e hm
              simp only [World.step, List.mem_append, List.mem_singleton] at hm
              rcases hm with hm | rfl
              · exact h1 e hm
              · intro hmat; simp [edits, hmat] at hs
          | event =>
              simp only [World.step]
              split
              · exact ⟨h1, h2, rfl⟩
              · rename_i paths rest hev
                have hi : ignored w.excludes paths = true := (ignored_iff _ _).2 (h1 paths (by simp [hev]))
                simp only [hi, ↓reduceIte]
                exact ⟨fun e hm => h1 e (by simp [hev, hm]), h2, trivial⟩
          | loop =>
              have : w.step .loop = w := by simp [World.step, World.loop, h2]
              rw [this]
              exact ⟨h1, h2, rfl⟩
          | task v s =>
              simp only [World.step]
              split
              · cases s <;> simp only [World.task] <;> repeat' (first | exact ⟨h1, h2, rfl⟩ | split)
              · exact ⟨h1, h2, rfl⟩
          | visit => simp only [World.step]; split <;> exact ⟨h1, h2, rfl⟩
          | page i s => simp only [World.step]; split <;> exact ⟨h1, h2, rfl⟩
          | close i => exact ⟨h1, h2, rfl⟩
        have := ih (w.step s) hstep.1 hstep.2.1 hr
        exact this.trans hstep.2.2
  refine key steps w ?_ hq.2 he
  simp [hq.1]

/-- The files that a build writes. -/
example :
    let w := World.start 5555 sampleExcludes
    Quiet w ∧ edits w.excludes ([.edit [["app", "target", "x"], ["app", "build", "y"]], .event, .loop] ++ sampleBuild 1 0) = 0 := by
  decide +kernel

/-- Each edit causes at most one build. -/
theorem C62_builds (port : Nat) (excludes : List Path) (steps : List Step) :
    ((World.start port excludes).run steps).version ≤ 1 + edits excludes steps := by
  have h := (run_src (World.start port excludes) steps).1
  rw [show (World.start port excludes).src = 0 from rfl, Nat.zero_add] at h
  have := ((Few.start port excludes).run steps).few
  rw [h] at this
  exact Nat.le_trans (by omega) this

example : ((World.start 5555 sampleExcludes).run (sampleEdit ++ sampleEdit ++ [.loop, .loop])).version = 3 := by decide +kernel

/-! ## What is reported -/

/-- A stream of events loses nothing: when nothing is left to do on a connection, the last thing sent on it is the current
status. What is sent on it is part of what happened, in this order, and never the same thing twice in a row. -/
theorem C62_stream (port : Nat) (excludes : List Path) (steps : List Step) :
    let w := (World.start port excludes).run steps
    ∀ p ∈ w.pages, ∀ c, p.conn = some c →
      (c.Idle w → c.emitted.getLast? = some w.status) ∧ c.emitted.Sublist w.history ∧ c.emitted.IsChain (· ≠ ·) := by
  intro w p hp c hc
  have hok : Ok w := (Ok.start port excludes).run steps
  have h := (hok.page p hp).conn c hc
  refine ⟨?_, h.sub, h.chain⟩
  intro hi
  rw [h.last]
  by_contra hne
  rcases h.due hne with h' | h'
  · rw [hi.2.1] at h'; cases h'
  · have := hi.1; omega

/-- A connection on which several statuses were sent, and one (`Building`) was not seen. -/
example :
    let w := (World.start 5555 sampleExcludes).run (sampleBuild 1 0 ++ sampleVisit 0 ++ sampleEdit ++ sampleBuild 2 1 ++
      [.page 0 .change, .page 0 .poll, .page 0 .poll, .page 0 .deliver])
    ∃ p ∈ w.pages, ∃ c, p.conn = some c ∧ c.Idle w ∧ c.emitted = [.version 1, .version 2] ∧
      w.history = [.building, .building, .version 1, .building, .version 2] := by decide +kernel

/-- What is reported when everything has settled, in runs in which no edit is noticed during a build: after a build without
errors its version, and this build of all edits is what is served; after a build with errors the errors.

Missing because false: an edit during a build (`C62_stale_status_violated`, `C62_stale_state_violated`). -/
theorem C62_reported_partial (port : Nat) (excludes : List Path) (steps : List Step) (hc : Calm (World.start port excludes) steps) :
    let w := (World.start port excludes).run steps
    Settled w → ∀ b ∈ w.finished, b.version = w.version →
      (b.ok = true → w.status = .version w.version ∧ w.state = some ⟨w.version, edits excludes steps⟩) ∧
      (b.ok = false → w.status = .errors) := by
  intro w hs b hb hv
  have hst : Still w := (Still.start port excludes).run steps hc
  have hrev : b.rev = edits excludes steps := C62_no_edit_lost port excludes steps hs.1 b hb hv
  rcases hst.shape with ⟨_, h | ⟨h, rev, hf⟩⟩ | ⟨phase, ht, hp⟩
  · exact absurd hv (h b hb)
  · have := hst.unique b hb _ hf hv
    subst this
    exact ⟨by simp, fun _ => h⟩
  · have := hs.2 ⟨w.version, false, phase⟩ (by simp [ht])
    simp only at this
    subst this
    obtain ⟨h1, rev, h2, hf⟩ := hp
    have := hst.unique b hb _ hf hv
    subst this
    simp only at hrev
    subst hrev
    exact ⟨fun _ => ⟨h1, h2⟩, by simp⟩

example :
    let steps := sampleBuild 1 0 ++ sampleEdit ++ [.task 2 .wake, .task 2 (.built 1 false)] ++ sampleEdit ++ sampleBuild 3 2
    let w := (World.start 5555 sampleExcludes).run steps
    Calm (World.start 5555 sampleExcludes) steps ∧ Settled w ∧ ⟨3, 2, true⟩ ∈ w.finished ∧ ⟨2, 1, false⟩ ∈ w.finished ∧
      w.version = 3 := by decide +kernel

/-- The full statement without `Calm` is false: the build that was going on when an edit was noticed is not stopped, and its
errors are reported after the version of the next build. Everything has settled, the newest build is served, and the page says
that there are errors. -/
theorem C62_stale_status_violated : ∃ steps : List Step,
    let w := (World.start 5555 sampleExcludes).run steps
    Settled w ∧ ⟨w.version, edits sampleExcludes steps, true⟩ ∈ w.finished ∧ w.status = .errors :=
  ⟨[.task 1 .wake] ++ sampleEdit ++ sampleBuild 2 1 ++ [.task 1 (.built 0 false)], by decide +kernel⟩

/-- In the same way the build that was going on replaces what the newest server serves (`STATE` is shared). -/
theorem C62_stale_state_violated : ∃ steps : List Step,
    let w := (World.start 5555 sampleExcludes).run steps
    Settled w ∧ w.status = .version w.version ∧ w.version = 2 ∧ edits sampleExcludes steps = 1 ∧ w.state = some ⟨1, 0⟩ :=
  ⟨[.task 1 .wake] ++ sampleEdit ++ sampleBuild 2 1 ++ [.task 1 (.built 0 true), .task 1 .serve], by decide +kernel⟩

/-! ## Pages -/

/-- A page is reloaded exactly when it was told a version for the second time since it was loaded. -/
theorem C62_reload (port : Nat) (excludes : List Path) (steps : List Step) :
    ∀ p ∈ ((World.start port excludes).run steps).pages, (p.reloading = true ↔ 2 ≤ (versions p.heard).length) :=
  fun p hp => (((Ok.start port excludes).run steps).page p hp).reload

example :
    let w := (World.start 5555 sampleExcludes).run (sampleBuild 1 0 ++ sampleVisit 0 ++ sampleEdit ++ sampleNews 0 ++
      sampleBuild 2 1 ++ sampleNews 0)
    ∃ p ∈ w.pages, p.reloading = true ∧ p.heard = ["Version = 1", "Building", "Version = 2"] := by decide +kernel

/-- What the newest message has put on a page; `dismissed` says that the user may have closed the message about errors. -/
structure Covered (dismissed : Prop) (p : Page) : Prop where
  building : p.heard.getLast? = some "Building" → p.overlay = some .inProgress
  errors : p.heard.getLast? = some "Errors" → p.overlay = some .errors ∨ dismissed ∧ p.overlay = none

theorem Covered.new (d b) : Covered d (Page.new b) := by constructor <;> simp [Page.new]

theorem Covered.step {d : Prop} {w : World} {p} (h : Covered d p) (s : PageStep) (hd : s = .dismiss → d) : Covered d (p.step w s) := by
  cases s with
  | reload => simp only [Page.step]; repeat' (first | exact h | exact Covered.new _ _ | split)
  | connect => simp only [Page.step]; split <;> first | exact h | exact ⟨h.building, h.errors⟩
  | lose => exact ⟨h.building, h.errors⟩
  | change => simp only [Page.step]; split <;> first | exact h | exact ⟨h.building, h.errors⟩
  | poll => simp only [Page.step]; repeat' (first | exact h | exact ⟨h.building, h.errors⟩ | split)
  | deliver =>
      simp only [Page.step]
      split
      · split
        · rename_i m rest hw
          unfold Page.processMessage
          by_cases h1 : m = "Building"
          · subst h1; constructor <;> simp
          · by_cases h2 : m = "Errors"
            · subst h2; constructor <;> simp
            · simp only [h1, h2, ↓reduceIte]
              split <;> constructor <;> simp [h1, h2]
        · exact h
      · exact h
  | dismiss =>
      simp only [Page.step]
      split
      · rename_i ho
        refine ⟨fun hl => ?_, fun _ => .inr ⟨hd rfl, rfl⟩⟩
        have := h.building hl
        rw [ho] at this
        cases this
      · exact h

theorem pages_step (w : World) (s : Step) (p : Page) (hp : p ∈ (w.step s).pages) :
    p ∈ w.pages ∨ (∃ b, p = Page.new b) ∨ ∃ q ∈ w.pages, ∃ i s', s = .page i s' ∧ p = q.step w s' := by
  cases s with
  | edit paths => exact .inl hp
  | event =>
      refine .inl ?_
      revert hp
      simp only [World.step, World.notify]
      repeat' (first | exact id | split)
  | loop =>
      refine .inl ?_
      revert hp
      simp only [World.step, World.loop]
      split <;> exact id
  | task v s =>
      refine .inl ?_
      revert hp
      simp only [World.step]
      split
      · cases s <;> simp only [World.task] <;> repeat' (first | exact id | split)
      · exact id
  | visit =>
      revert hp
      simp only [World.step]
      split
      · intro hp
        simp only [List.mem_append, List.mem_singleton] at hp
        rcases hp with hp | hp
        · exact .inl hp
        · exact .inr (.inl ⟨_, hp⟩)
      · exact .inl
  | page i s =>
      revert hp
      simp only [World.step]
      split
      · rename_i q hq
        intro hp
        rcases List.mem_or_eq_of_mem_set hp with hp | hp
        · exact .inl hp
        · exact .inr (.inr ⟨q, List.mem_of_getElem? hq, i, s, rfl, hp⟩)
      · exact .inl
  | close i => exact .inl (List.mem_of_mem_eraseIdx hp)

theorem covered_run {d : Prop} {w : World} (h : ∀ p ∈ w.pages, Covered d p) (steps : List Step) (hd : (∃ i, Step.page i .dismiss ∈ steps) → d) :
    ∀ p ∈ (w.run steps).pages, Covered d p := by
  induction steps generalizing w with
  | nil => exact h
  | cons s steps ih =>
      refine ih (w := w.step s) (fun p hp => ?_) fun ⟨i, hi⟩ => hd ⟨i, by simp [hi]⟩
      rcases pages_step w s p hp with hp | ⟨b, rfl⟩ | ⟨q, hq, i, s', rfl, rfl⟩
      · exact h p hp
      · exact Covered.new _ _
      · exact (h q hq).step s' fun e => hd ⟨i, by simp [e]⟩

/-- A page that has got every message says what is going on, whatever happened before: while something is built, that it is built;
when the build had errors, that there are errors, unless a user has closed such a message. -/
theorem C62_covered (port : Nat) (excludes : List Path) (steps : List Step) :
    let w := (World.start port excludes).run steps
    ∀ p ∈ w.pages, ∀ c, p.conn = some c → c.Idle w →
      (w.status = .building → p.overlay = some .inProgress) ∧
      (w.status = .errors → p.overlay = some .errors ∨ p.overlay = none ∧ ∃ i, Step.page i .dismiss ∈ steps) := by
  intro w p hp c hc hi
  have hok : Ok w := (Ok.start port excludes).run steps
  have hcov : Covered (∃ i, Step.page i .dismiss ∈ steps) p := covered_run (w := World.start port excludes) (by simp [World.start]) steps id p hp
  have hlast := (C62_stream port excludes steps p hp c hc).1 hi
  obtain ⟨pre, del, h1, h2⟩ := (hok.page p hp).wire c hc
  rw [hi.2.2, List.append_nil] at h2
  have hl : p.heard.getLast? = some w.status.message := by
    have : del.getLast? = some w.status.message := by rw [h2, List.getLast?_map, hlast, Option.map_some]
    rw [h1, List.getLast?_append, this]; rfl
  constructor
  · intro hs
    exact hcov.building (by rw [hl, hs]; rfl)
  · intro hs
    rcases hcov.errors (by rw [hl, hs]; rfl) with h | ⟨h, h'⟩
    · exact .inl h
    · exact .inr ⟨h', h⟩

/-- A page that is told of a build, of its errors, and whose user then closes the message. -/
example :
    let steps := sampleBuild 1 0 ++ sampleVisit 0 ++ sampleEdit ++ sampleNews 0
    let w := (World.start 5555 sampleExcludes).run steps
    let w' := w.run ([.task 2 .wake, .task 2 (.built 1 false)] ++ sampleNews 0)
    (∃ p ∈ w.pages, (∃ c, p.conn = some c ∧ c.Idle w) ∧ w.status = .building ∧ p.overlay = some .inProgress) ∧
    (∃ p ∈ w'.pages, (∃ c, p.conn = some c ∧ c.Idle w') ∧ w'.status = .errors ∧ p.overlay = some .errors) ∧
    ∃ p ∈ (w'.run [.page 0 .dismiss]).pages, (∃ c, p.conn = some c ∧ c.Idle w') ∧ p.overlay = none := by decide +kernel

/-- When everything has settled after a build without errors (no edit was noticed during a build), a page that has got every
message, and that was told first the version that it had loaded, shows the newest build, with all edits, and no message covers
it.

Missing because false: pages that are told something else first (`C62_overlay_violated`, `C62_stale_page_violated`). -/
theorem C62_page_partial (port : Nat) (excludes : List Path) (steps : List Step) (hc : Calm (World.start port excludes) steps) :
    let w := (World.start port excludes).run steps
    Settled w → ⟨w.version, edits excludes steps, true⟩ ∈ w.finished →
    ∀ p ∈ w.pages, p.reloading = false → ∀ c, p.conn = some c → c.Idle w →
      p.heard.head? = some (Status.version p.loaded.version).message →
      p.loaded = ⟨w.version, edits excludes steps⟩ ∧ p.overlay = none := by
  intro w hs hb p hp hr c hcn hi hh
  have hst : Still w := (Still.start port excludes).run steps hc
  have hok : Ok w := (Ok.start port excludes).run steps
  have hpage := hok.page p hp
  have hstatus := ((C62_reported_partial port excludes steps hc hs _ hb rfl).1 rfl).1
  have hlast := (C62_stream port excludes steps p hp c hcn).1 hi
  obtain ⟨pre, del, h1, h2⟩ := hpage.wire c hcn
  rw [hi.2.2, List.append_nil] at h2
  have hl : p.heard.getLast? = some (Status.version w.version).message := by
    have : del.getLast? = some (Status.version w.version).message := by
      rw [h2, List.getLast?_map, hlast, Option.map_some, hstatus]
    rw [h1, List.getLast?_append, this]; rfl
  have hone : (versions p.heard).length < 2 := by
    have := hpage.reload
    rw [hr] at this
    simp only [Bool.false_eq_true, false_iff] at this
    omega
  -- only one version was told, the first message and the last one are versions: there is one message
  have hsingle : p.heard = [(Status.version p.loaded.version).message] := by
    cases hq : p.heard with
    | nil => rw [hq] at hh; cases hh
    | cons a rest =>
        rw [hq] at hh hl hone
        cases hh
        cases rest with
        | nil => rfl
        | cons b rest' =>
            exfalso
            have hin : (Status.version w.version).message ∈ b :: rest' := by
              rw [List.getLast?_cons_cons] at hl
              exact List.mem_of_getLast? hl
            have hv := version_message
            have h3 : versions ((Status.version p.loaded.version).message :: b :: rest') =
                (Status.version p.loaded.version).message :: versions (b :: rest') := by
              unfold versions
              rw [List.filter_cons_of_pos]
              simpa using hv _
            rw [h3] at hone
            have h4 : (Status.version w.version).message ∈ versions (b :: rest') := by
              unfold versions
              rw [List.mem_filter]
              exact ⟨hin, by simpa using hv _⟩
            have := List.length_pos_of_mem h4
            simp only [List.length_cons] at hone
            omega
  rw [hsingle] at hl
  have hver : p.loaded.version = w.version := message_injective (by simpa using hl)
  have hmem := hst.page p hp
  have hun := hst.unique _ hmem _ hb hver
  constructor
  · cases hlo : p.loaded with
    | mk v r => rw [hlo] at hun; simpa using hun
  · refine hpage.overlay ?_
    rw [hsingle]
    unfold versions
    rw [List.filter_cons_of_pos (by simpa using version_message _)]
    rfl

/-- A page that was reloaded. -/
example :
    let steps := sampleBuild 1 0 ++ sampleVisit 0 ++ sampleEdit ++ sampleNews 0 ++ sampleBuild 2 1 ++ sampleNews 0 ++
      [.page 0 .reload, .page 0 .connect, .page 0 .poll, .page 0 .change, .page 0 .poll, .page 0 .deliver]
    let w := (World.start 5555 sampleExcludes).run steps
    Calm (World.start 5555 sampleExcludes) steps ∧ Settled w ∧ ⟨w.version, edits sampleExcludes steps, true⟩ ∈ w.finished ∧
    ∃ p ∈ w.pages, p.reloading = false ∧ (∃ c, p.conn = some c ∧ c.Idle w) ∧
      p.heard.head? = some (Status.version p.loaded.version).message ∧ p.loaded = ⟨2, 1⟩ := by decide +kernel

/-- A page that is opened when the server runs but was not yet checked is told that a build is going on and then the version. It
is not reloaded, and the message that covers the page stays forever. -/
theorem C62_overlay_violated : ∃ steps : List Step,
    let w := (World.start 5555 sampleExcludes).run steps
    Calm (World.start 5555 sampleExcludes) steps ∧ Settled w ∧ w.status = .version 1 ∧
    ∃ p ∈ w.pages, p.reloading = false ∧ (∃ c, p.conn = some c ∧ c.Idle w) ∧ p.loaded = ⟨1, 0⟩ ∧
      p.overlay = some .inProgress :=
  ⟨[.task 1 .wake, .task 1 (.built 0 true), .task 1 .serve] ++ sampleVisit 0 ++ [.task 1 .check] ++ sampleNews 0,
    by decide +kernel⟩

/-- A page that was loaded before a build and connects after it takes the newest version for its own, and stays out of date. -/
theorem C62_stale_page_violated : ∃ steps : List Step,
    let w := (World.start 5555 sampleExcludes).run steps
    Calm (World.start 5555 sampleExcludes) steps ∧ Settled w ∧ w.status = .version 2 ∧
    ∃ p ∈ w.pages, p.reloading = false ∧ (∃ c, p.conn = some c ∧ c.Idle w) ∧ p.loaded = ⟨1, 0⟩ :=
  ⟨sampleBuild 1 0 ++ [.visit] ++ sampleEdit ++ sampleBuild 2 1 ++
    [.page 0 .connect, .page 0 .poll, .page 0 .change, .page 0 .poll, .page 0 .deliver], by decide +kernel⟩

/-- A page whose connection is lost is reloaded when it is connected again, although nothing was built. -/
theorem C62_needless_reload_violated : ∃ steps : List Step,
    let w := (World.start 5555 sampleExcludes).run steps
    edits sampleExcludes steps = 0 ∧ w.version = 1 ∧ ∃ p ∈ w.pages, p.reloading = true ∧ some p.loaded = w.state :=
  ⟨sampleBuild 1 0 ++ sampleVisit 0 ++ [.page 0 .lose, .page 0 .connect, .page 0 .poll, .page 0 .deliver], by decide +kernel⟩

/-- With any other `--port-watch` than 5555 no page is ever told anything or reloaded: the events are always served on 5555. -/
theorem C62_port_violated (port : Nat) (hport : port ≠ 5555) (excludes : List Path) (steps : List Step) :
    ∀ p ∈ ((World.start port excludes).run steps).pages, p.heard = [] ∧ p.reloading = false := by
  intro p hp
  have h : Deaf (World.start port excludes) := ⟨hport, by simp [World.start]⟩
  exact ((h.run steps).page p hp).2

end Verif.Watch

import Verif.Watch.Spec
import Std.Data.String.ToNat
import Mathlib.Data.List.Chain
/-!
# C62: invariants
-/
namespace Verif.Watch

theorem ignored_iff (excludes paths : List Path) : ignored excludes paths = true ↔ ¬ Matters excludes paths := by
  unfold ignored Matters
  simp

/-! ## Messages -/

theorem version_message (n : Nat) : (Status.version n).message ≠ "Building" ∧ (Status.version n).message ≠ "Errors" := by
  constructor <;>
  · intro h
    have := congrArg (fun s => s.toList.head?) h
    simp [Status.message] at this

theorem message_injective {m n : Nat} (h : (Status.version m).message = (Status.version n).message) : m = n := by
  simp only [Status.message] at h
  have h := congrArg String.toList h
  simp only [String.toList_append] at h
  have h := List.append_cancel_left h
  exact Nat.repr_injective (String.toList_injective h)

/-! ## Connections -/

structure ConnOk (status : Status) (sent : Nat) (history : List Status) (c : Conn) : Prop where
  fresh : c.helper = false → c.lastEmit = none ∧ c.woken = true
  due : c.lastEmit ≠ some status → c.woken = true ∨ c.seen < sent
  seen : c.seen ≤ sent
  last : c.emitted.getLast? = c.lastEmit
  chain : c.emitted.IsChain (· ≠ ·)
  sub : c.emitted.Sublist history
  before : c.lastEmit ≠ some status → c.emitted.Sublist history.dropLast

theorem ConnOk.new (status sent history) : ConnOk status sent history Conn.new := by
  constructor <;> simp [Conn.new]

theorem ConnOk.send {status sent history c} (h : ConnOk status sent history c) (t : Status) :
    ConnOk t (sent + 1) (history ++ [t]) c := by
  constructor
  · exact h.fresh
  · intro _; right; have := h.seen; omega
  · have := h.seen; omega
  · exact h.last
  · exact h.chain
  · exact h.sub.trans (List.sublist_append_left _ _)
  · intro _; simpa using h.sub

theorem ConnOk.poll {status sent history c} (h : ConnOk status sent history c) (hl : history.getLast? = some status) :
    ConnOk status sent history (c.poll status) := by
  simp only [Conn.poll]
  split
  · rename_i he
    exact ⟨by simp, by simp [he], h.seen, h.last, h.chain, h.sub, by simp [he]⟩
  · rename_i he
    refine ⟨by simp, by simp, h.seen, by simp, ?_, ?_, by simp⟩
    · rw [List.isChain_append]
      refine ⟨h.chain, by simp, ?_⟩
      intro x hx y hy
      rw [h.last] at hx
      simp at hy
      intro e
      subst e hy
      exact he hx
    · have hb := h.before he
      have hd : history = history.dropLast ++ [status] := by
        have hne : history ≠ [] := by rintro rfl; simp at hl
        have hg := List.dropLast_append_getLast hne
        rw [List.getLast?_eq_some_getLast hne] at hl
        rw [Option.some.inj hl] at hg
        exact hg.symm
      rw [hd]
      exact hb.append (List.Sublist.refl _)

theorem ConnOk.change {status sent history c} (h : ConnOk status sent history c) : ConnOk status sent history (c.change sent) := by
  unfold Conn.change
  split
  · rename_i hh
    simp only [Bool.and_eq_true, decide_eq_true_eq] at hh
    exact ⟨by simp [hh.1], by simp, by simp, h.last, h.chain, h.sub, h.before⟩
  · exact h

theorem ConnOk.wire {status sent history c} (h : ConnOk status sent history c) (wire : List String) :
    ConnOk status sent history { c with wire := wire } := ⟨h.fresh, h.due, h.seen, h.last, h.chain, h.sub, h.before⟩

/-! ## Pages -/

structure PageOk (status : Status) (sent : Nat) (history : List Status) (p : Page) : Prop where
  conn : ∀ c, p.conn = some c → ConnOk status sent history c
  wire : ∀ c, p.conn = some c → ∃ pre del, p.heard = pre ++ del ∧ del ++ c.wire = c.emitted.map Status.message
  last : p.last = (versions p.heard).head?
  reload : p.reloading = true ↔ 2 ≤ (versions p.heard).length
  overlay : versions p.heard = p.heard → p.overlay = none

theorem PageOk.new (status sent history b) : PageOk status sent history (Page.new b) := by
  constructor <;> simp [Page.new, versions]

theorem PageOk.send {status sent history p} (h : PageOk status sent history p) (t : Status) :
    PageOk t (sent + 1) (history ++ [t]) p :=
  ⟨fun c hc => (h.conn c hc).send t, h.wire, h.last, h.reload, h.overlay⟩

theorem PageOk.setConn {status sent history p} (h : PageOk status sent history p) (c' : Option Conn)
    (hc : ∀ c, c' = some c → ConnOk status sent history c)
    (hw : ∀ c, c' = some c → ∃ pre del, p.heard = pre ++ del ∧ del ++ c.wire = c.emitted.map Status.message) :
    PageOk status sent history { p with conn := c' } :=
  ⟨hc, hw, h.last, h.reload, h.overlay⟩

theorem versions_append (a b : List String) : versions (a ++ b) = versions a ++ versions b := by simp [versions]

theorem versions_length_le (a : List String) : (versions a).length ≤ a.length := List.length_filter_le _ _

theorem PageOk.processMessage {status sent history p c m rest} (h : PageOk status sent history p) (hp : p.conn = some c)
    (hw : c.wire = m :: rest) :
    PageOk status sent history (Page.processMessage { p with conn := some { c with wire := rest } } m) := by
  have hconn : ConnOk status sent history { c with wire := rest } := (h.conn c hp).wire rest
  have hwire : ∃ pre del, p.heard ++ [m] = pre ++ del ∧ del ++ rest = c.emitted.map Status.message := by
    obtain ⟨pre, del, h1, h2⟩ := h.wire c hp
    exact ⟨pre, del ++ [m], by rw [h1, List.append_assoc], by rw [← h2, hw]; simp⟩
  have hlast := h.last
  have hreload := h.reload
  have hover := h.overlay
  have hle := versions_length_le p.heard
  unfold Page.processMessage
  by_cases h1 : m = "Building"
  · subst h1
    simp only [↓reduceIte]
    refine ⟨by simpa using hconn, by simpa using hwire, ?_, ?_, ?_⟩
    · simp [hlast, versions]
    · simp [hreload, versions]
    · intro hv
      exfalso
      have := congrArg List.length hv
      simp [versions] at this
      simp [versions] at hle
      omega
  · by_cases h2 : m = "Errors"
    · subst h2
      simp only [↓reduceIte, h1]
      refine ⟨by simpa using hconn, by simpa using hwire, ?_, ?_, ?_⟩
      · simp [hlast, versions]
      · simp [hreload, versions]
      · intro hv
        exfalso
        have := congrArg List.length hv
        simp [versions] at this
        simp [versions] at hle
        omega
    · have hm : versions [m] = [m] := by simp [versions, h1, h2]
      have hov : versions (p.heard ++ [m]) = p.heard ++ [m] → p.overlay = none := by
        intro hv
        rw [versions_append, hm] at hv
        exact hover (List.append_cancel_right hv)
      simp only [h1, h2, ↓reduceIte]
      split
      · rename_i hn
        have hnil : versions p.heard = [] := by rw [hlast] at hn; simpa using hn
        refine ⟨by simpa using hconn, by simpa using hwire, ?_, ?_, hov⟩
        · simp [versions_append, hm, hnil]
        · rw [hreload]; simp [versions_append, hm, hnil]
      · rename_i hn
        have hne : versions p.heard ≠ [] := by intro e; rw [hlast, e] at hn; simp at hn
        refine ⟨by simpa using hconn, by simpa using hwire, ?_, ?_, hov⟩
        · rw [versions_append, List.head?_append, ← hlast]
          cases hl : p.last with
          | none => exact absurd hl hn
          | some x => rfl
        · have : 0 < (versions p.heard).length := List.length_pos_iff.mpr hne
          simp [versions_append, hm]; omega

theorem PageOk.step {w : World} {p} (h : PageOk w.status w.sent w.history p) (hl : w.history.getLast? = some w.status) (s : PageStep) :
    PageOk w.status w.sent w.history (p.step w s) := by
  cases s with
  | reload =>
      simp only [Page.step]
      split
      · split
        · exact PageOk.new _ _ _ _
        · exact h
      · exact h
  | connect =>
      simp only [Page.step]
      split
      · refine h.setConn _ ?_ ?_
        · intro c hc; cases hc; exact ConnOk.new _ _ _
        · intro c hc; cases hc; exact ⟨p.heard, [], by simp, by simp [Conn.new]⟩
      · exact h
  | lose =>
      simp only [Page.step]
      exact h.setConn _ (by simp) (by simp)
  | change =>
      simp only [Page.step]
      split
      · rename_i c hc
        refine h.setConn _ ?_ ?_
        · intro c' hc'; cases hc'; exact (h.conn c hc).change
        · intro c' hc'; cases hc'
          have := h.wire c hc
          unfold Conn.change
          split <;> exact this
      · exact h
  | poll =>
      simp only [Page.step]
      split
      · rename_i c hc
        split
        · refine h.setConn _ ?_ ?_
          · intro c' hc'; cases hc'; exact (h.conn c hc).poll hl
          · intro c' hc'; cases hc'
            obtain ⟨pre, del, h1, h2⟩ := h.wire c hc
            refine ⟨pre, del, h1, ?_⟩
            simp only [Conn.poll]
            split
            · exact h2
            · simp only [List.map_append, ← h2, List.append_assoc, List.map_cons, List.map_nil]
        · exact h
      · exact h
  | deliver =>
      simp only [Page.step]
      split
      · rename_i c hc
        split
        · rename_i m rest hw
          exact h.processMessage hc hw
        · exact h
      · exact h
  | dismiss =>
      simp only [Page.step]
      split
      · exact ⟨h.conn, h.wire, h.last, h.reload, fun _ => rfl⟩
      · exact h

/-! ## The loop and the tasks, in every run -/

/-- No event that matters is waiting, and the loop has seen everything. -/
def Unnoticed (w : World) : Prop := (∃ e ∈ w.events, Matters w.excludes e) ∨ w.woken = true

structure Ok (w : World) : Prop where
  permit : w.permit = true → w.woken = true
  task : ∀ t ∈ w.tasks, t.version ≤ w.version
  built : ∀ b ∈ w.finished, b.version ≤ w.version
  since : ¬ Unnoticed w → ∀ t ∈ w.tasks, t.version = w.version → ∀ n, t.phase = .building n → n = w.src
  rev : ¬ Unnoticed w → ∀ b ∈ w.finished, b.version = w.version → b.rev = w.src
  last : w.history.getLast? = some w.status
  page : ∀ p ∈ w.pages, PageOk w.status w.sent w.history p

theorem Ok.start (port excludes) : Ok (World.start port excludes) := by
  constructor <;> simp [World.start]

theorem Ok.send {w : World} (h : Ok w) (t : Status) : Ok (w.send t) :=
  ⟨h.permit, h.task, h.built, h.since, h.rev, by simp [World.send], fun p hp => (h.page p hp).send t⟩

theorem mem_setPhase {tasks : List Task} {v ph t} (h : t ∈ setPhase tasks v ph) :
    ∃ t' ∈ tasks, t.version = t'.version ∧ t.aborted = t'.aborted ∧ (t.phase = if t'.version = v then ph else t'.phase) := by
  simp only [setPhase, List.mem_map] at h
  obtain ⟨t', ht', rfl⟩ := h
  refine ⟨t', ht', ?_⟩
  split <;> simp_all

theorem mem_remove {tasks : List Task} {v t} (h : t ∈ remove tasks v) : t ∈ tasks ∧ t.version ≠ v := by
  simpa [remove] using h

theorem mem_abort {tasks : List Task} {v t} (h : t ∈ abort tasks v) :
    ∃ t' ∈ tasks, t.version = t'.version ∧ t.phase = t'.phase ∧ (t'.version = v → t'.AtWork) := by
  simp only [abort, List.mem_filterMap] at h
  obtain ⟨t', ht', h⟩ := h
  refine ⟨t', ht', ?_⟩
  split at h
  · split at h
    · cases h
    · cases h
    · cases h; rename_i hp; exact ⟨rfl, rfl, fun _ => .inl ⟨_, hp⟩⟩
    · cases h; rename_i hp; exact ⟨rfl, rfl, fun _ => .inr ⟨_, hp⟩⟩
  · cases h; rename_i hn; exact ⟨rfl, rfl, fun e => absurd e hn⟩

/-- Only tasks and what they have built changed. -/
theorem Ok.tasks {w : World} (h : Ok w) (tasks : List Task) (dest state : Option Bundle)
    (ht : ∀ t ∈ tasks, ∃ t' ∈ w.tasks, t.version = t'.version ∧ ∀ n, t.phase = .building n → t'.phase = .building n ∨ n = w.src) :
    Ok { w with tasks := tasks, dest := dest, state := state } := by
  refine ⟨h.permit, ?_, h.built, ?_, h.rev, h.last, h.page⟩
  · intro t hm
    obtain ⟨t', hm', hv, _⟩ := ht t hm
    simp only [hv]
    exact h.task t' hm'
  · intro hu t hm hv n hn
    obtain ⟨t', hm', hv', hb⟩ := ht t hm
    rcases hb n hn with hb | hb
    · exact h.since hu t' hm' (hv'.symm.trans hv) n hb
    · exact hb

theorem Ok.task' {w : World} (h : Ok w) (t : Task) (ht : t ∈ w.tasks) (s : TaskStep) : Ok (w.task t s) := by
  cases s with
  | wake =>
      simp only [World.task]
      split
      · refine h.tasks _ w.dest w.state ?_
        intro t1 h1
        obtain ⟨t', ht', hv, _, hp⟩ := mem_setPhase h1
        refine ⟨t', ht', hv, ?_⟩
        intro n hn
        rw [hp] at hn
        split at hn
        · right; cases hn; rfl
        · left; exact hn
      · exact h
  | built rev ok =>
      simp only [World.task]
      split
      · rename_i since hs
        split
        · rename_i hr
          have hf : Ok { w with finished := w.finished ++ [⟨t.version, rev, ok⟩] } := by
            refine ⟨h.permit, h.task, ?_, h.since, ?_, h.last, h.page⟩
            · intro b hb
              simp only [List.mem_append, List.mem_singleton] at hb
              rcases hb with hb | rfl
              · exact h.built b hb
              · exact h.task t ht
            · intro hu b hb hv
              simp only [List.mem_append, List.mem_singleton] at hb
              rcases hb with hb | rfl
              · exact h.rev hu b hb hv
              · have := h.since hu t ht hv since hs
                simp only
                omega
          split
          · refine hf.tasks _ _ w.state ?_
            intro t1 h1
            obtain ⟨t', ht', hv, _, hp⟩ := mem_setPhase h1
            refine ⟨t', ht', hv, ?_⟩
            intro n hn
            rw [hp] at hn
            split at hn
            · cases hn
            · left; exact hn
          · refine Ok.send (hf.tasks _ w.dest w.state ?_) _
            intro t1 h1
            exact ⟨t1, (mem_remove h1).1, rfl, fun n hn => .inl hn⟩
        · exact h
      · exact h
  | panic =>
      simp only [World.task]
      split
      · refine h.tasks _ w.dest w.state ?_
        intro t1 h1
        exact ⟨t1, (mem_remove h1).1, rfl, fun n hn => .inl hn⟩
      · exact h
  | serve =>
      simp only [World.task]
      split
      · split
        · refine h.tasks _ w.dest _ ?_
          intro t1 h1
          exact ⟨t1, (mem_remove h1).1, rfl, fun n hn => .inl hn⟩
        · refine h.tasks _ w.dest _ ?_
          intro t1 h1
          obtain ⟨t', ht', hv, _, hp⟩ := mem_setPhase h1
          refine ⟨t', ht', hv, ?_⟩
          intro n hn
          rw [hp] at hn
          split at hn
          · cases hn
          · left; exact hn
      · exact h
  | check =>
      simp only [World.task]
      split
      · split
        · refine Ok.send (h.tasks _ w.dest w.state ?_) _
          intro t1 h1
          obtain ⟨t', ht', hv, _, hp⟩ := mem_setPhase h1
          refine ⟨t', ht', hv, ?_⟩
          intro n hn
          rw [hp] at hn
          split at hn
          · cases hn
          · left; exact hn
        · exact h
      · refine Ok.send (h.tasks _ w.dest w.state ?_) _
        intro t1 h1
        obtain ⟨t', ht', hv, _, hp⟩ := mem_setPhase h1
        refine ⟨t', ht', hv, ?_⟩
        intro n hn
        rw [hp] at hn
        split at hn
        · cases hn
        · left; exact hn
      · exact h

theorem Ok.loop {w : World} (h : Ok w) : Ok w.loop := by
  unfold World.loop
  split
  · have hs : Ok (World.send
        { w with tasks := abort w.tasks w.version ++ [⟨w.version + 1, false, .sleeping⟩], version := w.version + 1 } .building) := by
      apply Ok.send
      refine ⟨h.permit, ?_, ?_, ?_, ?_, h.last, h.page⟩
      · intro t ht
        simp only [List.mem_append, List.mem_singleton] at ht
        rcases ht with ht | rfl
        · obtain ⟨t', ht', hv, _⟩ := mem_abort ht
          have := h.task t' ht'
          simp only
          omega
        · simp
      · intro b hb
        have := h.built b hb
        simp only
        omega
      · intro _ t ht hv n hn
        simp only [List.mem_append, List.mem_singleton] at ht
        rcases ht with ht | rfl
        · obtain ⟨t', ht', hv', _⟩ := mem_abort ht
          have := h.task t' ht'
          simp only at hv
          omega
        · cases hn
      · intro _ b hb hv
        have := h.built b hb
        simp only at hv
        omega
    refine ⟨by simp, hs.task, hs.built, ?_, ?_, hs.last, hs.page⟩
    · intro _ t ht hv n hn
      simp only [World.send, List.mem_append, List.mem_singleton] at ht hv
      rcases ht with ht | rfl
      · obtain ⟨t', ht', hv', _⟩ := mem_abort ht
        have := h.task t' ht'
        omega
      · cases hn
    · intro _ b hb hv
      have := h.built b hb
      simp only [World.send] at hv
      omega
  · exact h

theorem Ok.step {w : World} (h : Ok w) (s : Step) : Ok (w.step s) := by
  cases s with
  | edit paths =>
      simp only [World.step]
      have hu : ¬ Unnoticed { w with src := if ignored w.excludes paths then w.src else w.src + 1, events := w.events ++ [paths] } →
          ¬ Unnoticed w ∧ ignored w.excludes paths = true := by
        intro hu
        simp only [Unnoticed, not_or, List.mem_append, List.mem_singleton, not_exists, not_and] at hu ⊢
        refine ⟨⟨fun e he => hu.1 e (.inl he), hu.2⟩, ?_⟩
        rw [ignored_iff]
        exact hu.1 paths (.inr rfl)
      refine ⟨h.permit, h.task, h.built, ?_, ?_, h.last, h.page⟩
      · intro hn t ht hv n hp
        obtain ⟨h1, h2⟩ := hu hn
        simp only [h2, ↓reduceIte]
        exact h.since h1 t ht hv n hp
      · intro hn b hb hv
        obtain ⟨h1, h2⟩ := hu hn
        simp only [h2, ↓reduceIte]
        exact h.rev h1 b hb hv
  | event =>
      simp only [World.step]
      split
      · exact h
      · rename_i paths rest he
        split
        · rename_i hi
          have hu : ¬ Unnoticed { w with events := rest } → ¬ Unnoticed w := by
            intro hu
            simp only [Unnoticed, not_or, not_exists, not_and] at hu ⊢
            refine ⟨?_, hu.2⟩
            intro e hm
            rw [he] at hm
            simp only [List.mem_cons] at hm
            rcases hm with rfl | hm
            · exact (ignored_iff _ _).1 hi
            · exact hu.1 e hm
          exact ⟨h.permit, h.task, h.built, fun hn => h.since (hu hn), fun hn => h.rev (hu hn), h.last, h.page⟩
        · unfold World.notify
          split
          · rename_i hw
            refine ⟨fun _ => hw, h.task, h.built, ?_, ?_, h.last, h.page⟩
            · intro hn; exact absurd (.inr hw) hn
            · intro hn; exact absurd (.inr hw) hn
          · refine ⟨fun _ => rfl, h.task, h.built, ?_, ?_, h.last, h.page⟩
            · intro hn; exact absurd (.inr rfl) hn
            · intro hn; exact absurd (.inr rfl) hn
  | loop => exact h.loop
  | task v s =>
      simp only [World.step]
      split
      · rename_i t hf
        exact h.task' t (List.mem_of_find?_eq_some hf) s
      · exact h
  | visit =>
      simp only [World.step]
      split
      · refine ⟨h.permit, h.task, h.built, h.since, h.rev, h.last, ?_⟩
        intro p hp
        simp only [List.mem_append, List.mem_singleton] at hp
        rcases hp with hp | rfl
        · exact h.page p hp
        · exact PageOk.new _ _ _ _
      · exact h
  | page i s =>
      simp only [World.step]
      split
      · rename_i p hp
        refine ⟨h.permit, h.task, h.built, h.since, h.rev, h.last, ?_⟩
        intro q hq
        rcases List.mem_or_eq_of_mem_set hq with hq | rfl
        · exact h.page q hq
        · exact (h.page p (List.mem_of_getElem? hp)).step h.last s
      · exact h
  | close i =>
      simp only [World.step]
      exact ⟨h.permit, h.task, h.built, h.since, h.rev, h.last, fun p hp => h.page p (List.mem_of_mem_eraseIdx hp)⟩

theorem Ok.run {w : World} (h : Ok w) (steps : List Step) : Ok (w.run steps) := by
  induction steps generalizing w with
  | nil => exact h
  | cons s steps ih => exact ih (h.step s)

theorem not_unnoticed {w : World} (h : Quiet w) : ¬ Unnoticed w := by
  simp [Unnoticed, h.1, h.2]

/-! ## The number of edits -/

theorem step_fixed (w : World) (s : Step) : (w.step s).excludes = w.excludes ∧ (w.step s).port = w.port := by
  cases s with
  | edit paths => exact ⟨rfl, rfl⟩
  | event =>
      simp only [World.step]
      split
      · exact ⟨rfl, rfl⟩
      · split
        · exact ⟨rfl, rfl⟩
        · unfold World.notify; split <;> exact ⟨rfl, rfl⟩
  | loop => simp only [World.step, World.loop]; split <;> exact ⟨rfl, rfl⟩
  | task v s =>
      simp only [World.step]
      split
      · cases s <;> simp only [World.task] <;> repeat' (first | exact ⟨rfl, rfl⟩ | split)
      · exact ⟨rfl, rfl⟩
  | visit => simp only [World.step]; split <;> exact ⟨rfl, rfl⟩
  | page i s => simp only [World.step]; split <;> exact ⟨rfl, rfl⟩
  | close i => exact ⟨rfl, rfl⟩

theorem step_src (w : World) (s : Step) :
    (w.step s).src = w.src + edits w.excludes [s] := by
  cases s with
  | edit paths =>
      simp only [World.step, edits]
      by_cases hm : Matters w.excludes paths
      · have : ¬ ignored w.excludes paths = true := by rw [ignored_iff]; simpa using hm
        simp [hm, this]
      · have := (ignored_iff w.excludes paths).2 hm
        simp [hm, this]
  | event =>
      simp only [World.step, edits]
      split
      · rfl
      · split
        · rfl
        · unfold World.notify; split <;> rfl
  | loop => simp only [World.step, World.loop, edits]; split <;> rfl
  | task v s =>
      simp only [World.step, edits]
      split
      · cases s <;> simp only [World.task] <;> repeat' (first | rfl | split)
      · rfl
  | visit => simp only [World.step, edits]; split <;> rfl
  | page i s => simp only [World.step, edits]; split <;> rfl
  | close i => rfl

theorem edits_cons (excludes) (s : Step) (steps) : edits excludes (s :: steps) = edits excludes [s] + edits excludes steps := by
  cases s <;> simp [edits]

theorem run_src (w : World) (steps : List Step) :
    (w.run steps).src = w.src + edits w.excludes steps ∧ (w.run steps).excludes = w.excludes ∧ (w.run steps).port = w.port := by
  induction steps generalizing w with
  | nil => exact ⟨rfl, rfl, rfl⟩
  | cons s steps ih =>
      obtain ⟨h1, h2, h3⟩ := ih (w.step s)
      obtain ⟨f1, f2⟩ := step_fixed w s
      refine ⟨?_, h2.trans f1, h3.trans f2⟩
      rw [edits_cons, ← Nat.add_assoc, ← step_src, ← f1]
      exact h1

/-! ## The number of builds -/

/-- The edits that were not yet noticed: events, and the two places where a notification is kept. -/
def waiting (w : World) : Nat :=
  (w.events.filter fun e => !ignored w.excludes e).length + w.woken.toNat + w.permit.toNat

structure Few (w : World) : Prop where
  few : w.version + waiting w ≤ 1 + w.src

theorem Few.start (port excludes) : Few (World.start port excludes) := ⟨by simp [World.start, waiting]⟩

theorem Few.step {w : World} (h : Few w) (s : Step) : Few (w.step s) := by
  constructor
  have h := h.few
  unfold waiting at h ⊢
  rw [(step_fixed w s).1]
  cases s with
  | edit paths =>
      simp only [World.step, List.filter_append, List.length_append]
      by_cases hi : ignored w.excludes paths = true <;> simp [hi] <;> omega
  | event =>
      cases he : w.events with
      | nil =>
          have : w.step .event = w := by simp [World.step, he]
          rw [this]
          exact h
      | cons paths rest =>
          rw [he] at h
          by_cases hi : ignored w.excludes paths = true
          · have : w.step .event = { w with events := rest } := by simp [World.step, he, hi]
            rw [this]
            rw [List.filter_cons_of_neg (by simp [hi])] at h
            exact h
          · rw [List.filter_cons_of_pos (by simp [hi]), List.length_cons] at h
            cases hw : w.woken with
            | true =>
                have : w.step .event = { w with events := rest, permit := true } := by simp [World.step, he, hi, World.notify, hw]
                rw [this]
                cases hp : w.permit <;> simp [hw, hp] at h ⊢ <;> omega
            | false =>
                have : w.step .event = { w with events := rest, woken := true } := by simp [World.step, he, hi, World.notify, hw]
                rw [this]
                simp [hw] at h ⊢
                omega
  | loop =>
      simp only [World.step, World.loop]
      split
      · rename_i hw
        simp only [hw, Bool.toNat_true] at h
        simp only [World.send, Bool.toNat_false]
        omega
      · exact h
  | task v s =>
      simp only [World.step]
      split
      · cases s <;> simp only [World.task] <;> repeat' (first | exact h | split)
      · exact h
  | visit => simp only [World.step]; split <;> exact h
  | page i s => simp only [World.step]; split <;> exact h
  | close i => exact h

theorem Few.run {w : World} (h : Few w) (steps : List Step) : Few (w.run steps) := by
  induction steps generalizing w with
  | nil => exact h
  | cons s steps ih => exact ih (h.step s)

/-! ## Calm runs -/

/-- The newest build is not finished. -/
def Unfinished (w : World) : Prop := ∀ b ∈ w.finished, b.version ≠ w.version

def PhaseOk (w : World) : Phase → Prop
  | .sleeping | .building _ => w.status = .building ∧ Unfinished w
  | .starting checking => checking = true ∧ w.status = .building ∧
      ∃ rev, w.dest = some ⟨w.version, rev⟩ ∧ ⟨w.version, rev, true⟩ ∈ w.finished
  | .serving checking => w.status = (if checking then .building else .version w.version) ∧
      ∃ rev, w.state = some ⟨w.version, rev⟩ ∧ ⟨w.version, rev, true⟩ ∈ w.finished

structure Still (w : World) : Prop where
  shape : (w.tasks = [] ∧ (Unfinished w ∨ w.status = .errors ∧ ∃ rev, ⟨w.version, rev, false⟩ ∈ w.finished)) ∨
    ∃ phase, w.tasks = [⟨w.version, false, phase⟩] ∧ PhaseOk w phase
  unique : ∀ b ∈ w.finished, ∀ b' ∈ w.finished, b.version = b'.version → b = b'
  le : ∀ b ∈ w.finished, b.version ≤ w.version
  dest : ∀ b, w.dest = some b → ⟨b.version, b.rev, true⟩ ∈ w.finished
  state : ∀ b, w.state = some b → ⟨b.version, b.rev, true⟩ ∈ w.finished
  page : ∀ p ∈ w.pages, ⟨p.loaded.version, p.loaded.rev, true⟩ ∈ w.finished

theorem Still.start (port excludes) : Still (World.start port excludes) := by
  constructor
  · right; exact ⟨.sleeping, rfl, rfl, by simp [Unfinished, World.start]⟩
  all_goals simp [World.start]

theorem Still.task {w : World} (h : Still w) (v : Nat) (s : TaskStep) : Still (w.step (.task v s)) := by
  simp only [World.step]
  rcases h.shape with ⟨h0, _⟩ | ⟨phase, h1, hp⟩
  · rw [h0]; exact h
  rw [h1, List.find?_singleton]
  by_cases hv : w.version = v
  · simp only [hv, decide_true, ↓reduceIte]
    subst hv
    have hset : ∀ ph, setPhase [⟨w.version, false, phase⟩] w.version ph = [⟨w.version, false, ph⟩] := by simp [setPhase]
    have hrem : remove [⟨w.version, false, phase⟩] w.version = [] := by simp [remove]
    cases s with
    | wake =>
        simp only [World.task]
        split
        · refine ⟨?_, h.unique, h.le, h.dest, h.state, h.page⟩
          right
          exact ⟨.building w.src, by simp only [h1]; exact hset _, hp⟩
        · exact h
    | built rev ok =>
        simp only [World.task]
        split
        · split
          · have hun : ∀ b ∈ w.finished ++ [⟨w.version, rev, ok⟩], ∀ b' ∈ w.finished ++ [⟨w.version, rev, ok⟩],
                b.version = b'.version → b = b' := by
              intro b hb b' hb' hv
              simp only [List.mem_append, List.mem_singleton] at hb hb'
              rcases hb with hb | rfl <;> rcases hb' with hb' | rfl
              · exact h.unique b hb b' hb' hv
              · exact absurd hv (hp.2 b hb)
              · exact absurd hv.symm (hp.2 b' hb')
              · rfl
            have hle : ∀ b ∈ w.finished ++ [⟨w.version, rev, ok⟩], b.version ≤ w.version := by
              intro b hb
              simp only [List.mem_append, List.mem_singleton] at hb
              rcases hb with hb | rfl
              · exact h.le b hb
              · exact Nat.le_refl _
            split
            · rename_i hok; subst hok
              refine ⟨?_, hun, hle, ?_, ?_, ?_⟩
              · right
                refine ⟨.starting true, ?_, rfl, hp.1, rev, rfl, ?_⟩
                · simp only [h1]; exact hset _
                · simp
              · intro b hb
                cases hb
                simp
              · intro b hb
                exact List.mem_append_left _ (h.state b hb)
              · intro p hp'
                exact List.mem_append_left _ (h.page p hp')
            · rename_i hok
              have hok : ok = false := by simpa using hok
              subst hok
              refine ⟨?_, hun, hle, ?_, ?_, ?_⟩
              · left
                refine ⟨?_, .inr ⟨rfl, rev, ?_⟩⟩
                · simp only [World.send, h1]; exact hrem
                · simp [World.send]
              · intro b hb
                exact List.mem_append_left _ (h.dest b hb)
              · intro b hb
                exact List.mem_append_left _ (h.state b hb)
              · intro p hp'
                exact List.mem_append_left _ (h.page p hp')
          · exact h
        · exact h
    | panic =>
        simp only [World.task]
        split
        · refine ⟨?_, h.unique, h.le, h.dest, h.state, h.page⟩
          left
          exact ⟨by simp only [h1]; exact hrem, .inl hp.2⟩
        · exact h
    | serve =>
        simp only [World.task]
        split
        · obtain ⟨hck, hst, rev, hd, hf⟩ := hp
          subst hck
          have hl : listening w.tasks = false := by simp [listening, h1]
          simp only [hl, Bool.or_self, Bool.false_eq_true, ↓reduceIte]
          refine ⟨?_, h.unique, h.le, h.dest, h.dest, h.page⟩
          right
          exact ⟨.serving true, by simp only [h1]; exact hset _, by simpa using hst, rev, hd, hf⟩
        · exact h
    | check =>
        simp only [World.task]
        split
        · have hl : listening w.tasks = false := by simp [listening, h1]
          simp only [hl, Bool.false_eq_true, ↓reduceIte]
          exact h
        · obtain ⟨_, rev, hd, hf⟩ := hp
          refine ⟨?_, h.unique, h.le, h.dest, h.state, h.page⟩
          right
          exact ⟨.serving false, by simp only [World.send, h1]; exact hset _, by simp [World.send], rev, hd, hf⟩
        · exact h
  · simp only [hv, decide_false, Bool.false_eq_true, ↓reduceIte]
    exact h

theorem Still.loop {w : World} (h : Still w) (hw : w.woken = true → ∀ t ∈ w.tasks, ¬ t.AtWork) : Still w.loop := by
  unfold World.loop
  split
  · rename_i hwk
    have hab : abort w.tasks w.version = [] := by
      rcases h.shape with ⟨h0, _⟩ | ⟨phase, h1, _⟩
      · rw [h0]; rfl
      · have := hw hwk ⟨w.version, false, phase⟩ (by simp [h1])
        rw [h1]
        cases phase with
        | sleeping => simp [abort]
        | serving ck => simp [abort]
        | building n => exact absurd (.inl ⟨n, rfl⟩) this
        | starting ck => exact absurd (.inr ⟨ck, rfl⟩) this
    refine ⟨?_, h.unique, ?_, h.dest, h.state, h.page⟩
    · right
      refine ⟨.sleeping, by simp [World.send, hab], rfl, ?_⟩
      intro b hb
      have := h.le b hb
      simp only [World.send]
      omega
    · intro b hb
      have := h.le b hb
      simp only [World.send]
      omega
  · exact h

theorem Still.step {w : World} (h : Still w) (s : Step) (hs : s ≠ .loop) : Still (w.step s) := by
  cases s with
  | edit paths => exact ⟨h.shape, h.unique, h.le, h.dest, h.state, h.page⟩
  | event =>
      simp only [World.step]
      split
      · exact h
      · split
        · exact ⟨h.shape, h.unique, h.le, h.dest, h.state, h.page⟩
        · unfold World.notify
          split <;> exact ⟨h.shape, h.unique, h.le, h.dest, h.state, h.page⟩
  | loop => exact absurd rfl hs
  | task v s => exact h.task v s
  | visit =>
      simp only [World.step]
      split
      · rename_i b hb
        refine ⟨h.shape, h.unique, h.le, h.dest, h.state, ?_⟩
        intro p hp
        simp only [List.mem_append, List.mem_singleton] at hp
        rcases hp with hp | rfl
        · exact h.page p hp
        · exact h.state b hb
      · exact h
  | page i s =>
      simp only [World.step]
      split
      · rename_i p hp
        refine ⟨h.shape, h.unique, h.le, h.dest, h.state, ?_⟩
        intro q hq
        rcases List.mem_or_eq_of_mem_set hq with hq | rfl
        · exact h.page q hq
        · have hold := h.page p (List.mem_of_getElem? hp)
          cases s with
          | reload =>
              simp only [Page.step]
              split
              · rename_i b hb
                split
                · exact h.state b hb
                · exact hold
              · exact hold
          | deliver =>
              simp only [Page.step]
              split
              · split
                · simp only [Page.processMessage]
                  repeat' (first | exact hold | split)
                · exact hold
              · exact hold
          | _ => simp only [Page.step]; repeat' (first | exact hold | split)
      · exact h
  | close i => exact ⟨h.shape, h.unique, h.le, h.dest, h.state, fun p hp => h.page p (List.mem_of_mem_eraseIdx hp)⟩

theorem Still.run {w : World} (h : Still w) (steps : List Step) (hc : Calm w steps) : Still (w.run steps) := by
  induction steps generalizing w with
  | nil => exact h
  | cons s steps ih =>
      cases s with
      | loop => exact ih (w := w.step .loop) (h.loop hc.1) hc.2
      | _ => exact ih (h.step _ (by simp)) hc

/-! ## Other ports -/

structure Deaf (w : World) : Prop where
  port : w.port ≠ eventsPort
  page : ∀ p ∈ w.pages, p.conn = none ∧ p.heard = [] ∧ p.reloading = false

theorem Deaf.step {w : World} (h : Deaf w) (s : Step) : Deaf (w.step s) := by
  refine ⟨by rw [(step_fixed w s).2]; exact h.port, ?_⟩
  cases s with
  | edit paths => exact h.page
  | event =>
      simp only [World.step]
      split
      · exact h.page
      · split
        · exact h.page
        · unfold World.notify
          split <;> exact h.page
  | loop => simp only [World.step, World.loop]; split <;> exact h.page
  | task v s =>
      simp only [World.step]
      split
      · cases s <;> simp only [World.task] <;> repeat' (first | exact h.page | split)
      · exact h.page
  | visit =>
      simp only [World.step]
      split
      · intro p hp
        simp only [List.mem_append, List.mem_singleton] at hp
        rcases hp with hp | rfl
        · exact h.page p hp
        · exact ⟨rfl, rfl, rfl⟩
      · exact h.page
  | page i s =>
      simp only [World.step]
      split
      · rename_i p hp
        intro q hq
        rcases List.mem_or_eq_of_mem_set hq with hq | rfl
        · exact h.page q hq
        · obtain ⟨h1, h2, h3⟩ := h.page p (List.mem_of_getElem? hp)
          cases s <;> simp only [Page.step, h1, h.port, and_false, ↓reduceIte]
          case reload => split <;> simp_all
          case dismiss => split <;> simp_all
          all_goals simp_all
      · exact h.page
  | close i => exact fun p hp => h.page p (List.mem_of_mem_eraseIdx hp)

theorem Deaf.run {w : World} (h : Deaf w) (steps : List Step) : Deaf (w.run steps) := by
  induction steps generalizing w with
  | nil => exact h
  | cons s steps ih => exact ih (h.step s)

end Verif.Watch

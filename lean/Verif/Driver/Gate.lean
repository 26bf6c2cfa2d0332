import Verif.Dom.Batch
import Mathlib.Data.List.Induction
/-!
# C22: DOM output is held back during start-up and then delivered completely

Source: `crates/vertigo/src/driver_module/dom.rs` (`StateInitiation`, `Commands`).
-/
namespace Verif.Driver

open Verif.Dom

/-- dom.rs:15-19. -/
inductive StateInitiation where
  | waiting (counter : Nat)
  | ready
  deriving Repr, DecidableEq

/-- dom.rs:21-24. -/
def StateInitiation.new : StateInitiation := .waiting 0

/-- dom.rs:30-34 (fewer than 2^32 requests at a time). -/
def StateInitiation.up : StateInitiation → StateInitiation
  | .waiting n => .waiting (n + 1)
  | .ready => .ready

/-- dom.rs:39-52. `none`: `counter -= 1` underflows (panic). -/
def StateInitiation.down : StateInitiation → Option (StateInitiation × Bool)
  | .waiting 0 => none
  | .waiting (n + 1) => if n = 0 then some (.ready, true) else some (.waiting n, false)
  | .ready => some (.ready, false)

/-- dom.rs:55-62 (`Commands`). `sent` are the arguments of `dom_bulk_update`. -/
structure Commands where
  state : StateInitiation := .new
  commands : List Cmd := []
  logEnabled : Bool := false
  logVec : List Cmd := []
  sent : List (List Cmd) := []

/-- dom.rs:75-79. -/
def Commands.logStart (s : Commands) : Commands := { s with logEnabled := true }

/-- dom.rs:81-84. -/
def Commands.logTake (s : Commands) : Commands × List Cmd :=
  ({ s with logEnabled := false, logVec := [] }, s.logVec)

/-- dom.rs:86-92. -/
def Commands.addCommand (s : Commands) (c : Cmd) : Commands :=
  let s := if s.logEnabled then { s with logVec := s.logVec ++ [c] } else s
  { s with commands := s.commands ++ [c] }

/-- dom.rs:94-109 (the conversion to JSON is C28). -/
def Commands.flushInner (s : Commands) : Commands :=
  let state := s.commands
  let s := { s with commands := [] }
  if state = [] then s else { s with sent := s.sent ++ [sortCommands state] }

/-- dom.rs:111-117. -/
def Commands.flush (s : Commands) : Commands :=
  if s.state = .ready then s.flushInner else s

/-- dom.rs:119-123. -/
def Commands.fetchUp (s : Commands) : Commands := { s with state := s.state.up }

/-- dom.rs:125-131. -/
def Commands.fetchDown (s : Commands) : Option Commands :=
  match s.state.down with
  | none => none
  | some (st, send) =>
      let s := { s with state := st }
      some (if send then s.flushInner else s)

/-- What can happen: a command is issued, a flush (after the outermost transaction and at
the end of start-up), a request starts, a request ends; the log for tests. -/
inductive Op where
  | add (c : Cmd)
  | flush
  | up
  | down
  | logStart
  | logTake
  deriving DecidableEq

def Commands.step (s : Commands) : Op → Option Commands
  | .add c => some (s.addCommand c)
  | .flush => some s.flush
  | .up => some s.fetchUp
  | .down => s.fetchDown
  | .logStart => some s.logStart
  | .logTake => some s.logTake.1

def Commands.run (s : Commands) : List Op → Option Commands
  | [] => some s
  | o :: os =>
      match s.step o with
      | none => none
      | some s => s.run os

/-! ## Specification -/

/-- The commands issued in a history. -/
def issued (h : List Op) : List Cmd :=
  h.filterMap fun o => match o with | .add c => some c | _ => none

def starts (h : List Op) : Nat := h.count .up
def ends (h : List Op) : Nat := h.count .down

/-- At some moment the last outstanding request has ended. -/
def Opened (h : List Op) : Prop := ∃ p q, h = p ++ .down :: q ∧ starts p = ends p + 1

theorem Opened.append {h} (ho : Opened h) (k) : Opened (h ++ k) := by
  obtain ⟨p, q, rfl, e⟩ := ho
  exact ⟨p, q ++ k, by simp, e⟩

theorem opened_snoc {h o} : Opened (h ++ [o]) ↔ Opened h ∨ (o = .down ∧ starts h = ends h + 1) := by
  constructor
  · rintro ⟨p, q, e, hc⟩
    rcases List.eq_nil_or_concat q with rfl | ⟨q', x, rfl⟩
    · have := List.append_inj' (s₁ := h) (t₁ := [o]) (s₂ := p) (t₂ := [.down]) e rfl
      obtain ⟨rfl, h2⟩ := this
      cases h2
      exact .inr ⟨rfl, hc⟩
    · have e' : h ++ [o] = (p ++ .down :: q') ++ [x] := by rw [e]; simp
      obtain ⟨rfl, _⟩ := List.append_inj' e' rfl
      exact .inl ⟨p, q', rfl, hc⟩
  · rintro (h1 | ⟨rfl, h1⟩)
    · exact h1.append _
    · exact ⟨h, [], rfl, h1⟩

/-! ## Invariant -/

structure GInv (h : List Op) (s : Commands) : Prop where
  ready : s.state = .ready ↔ Opened h
  waiting : ∀ n, s.state = .waiting n → starts h = ends h + n ∧ s.sent = []
  chunks : ∃ chunks : List (List Cmd), chunks.flatten ++ s.commands = issued h ∧ s.sent = chunks.map sortCommands ∧ [] ∉ chunks

theorem issued_snoc (h : List Op) (o) : issued (h ++ [o]) = issued h ++ (match o with | .add c => [c] | _ => []) := by
  simp only [issued, List.filterMap_append]
  congr 1
  cases o <;> rfl

theorem starts_snoc (h : List Op) (o) : starts (h ++ [o]) = starts h + (if o = .up then 1 else 0) := by
  simp only [starts, List.count_append, List.count_singleton]
  cases o <;> simp

theorem ends_snoc (h : List Op) (o) : ends (h ++ [o]) = ends h + (if o = .down then 1 else 0) := by
  simp only [ends, List.count_append, List.count_singleton]
  cases o <;> simp

/-- Sending everything keeps the account of chunks. -/
theorem flushInner_chunks {s : Commands} {l : List Cmd}
    (h : ∃ chunks : List (List Cmd), chunks.flatten ++ s.commands = l ∧ s.sent = chunks.map sortCommands ∧ [] ∉ chunks) :
    (∃ chunks : List (List Cmd), chunks.flatten ++ s.flushInner.commands = l ∧ s.flushInner.sent = chunks.map sortCommands ∧ [] ∉ chunks) ∧
    s.flushInner.commands = [] ∧ s.flushInner.state = s.state := by
  obtain ⟨chunks, h1, h2, h3⟩ := h
  unfold Commands.flushInner
  simp only
  split
  · rename_i e
    exact ⟨⟨chunks, by rw [e] at h1; exact h1, h2, h3⟩, rfl, rfl⟩
  · rename_i e
    exact ⟨⟨chunks ++ [s.commands], by simp [h1], by simp [h2], by simp [h3, Ne.symm e]⟩, rfl, rfl⟩

theorem GInv.init : GInv [] {} := by
  refine ⟨?_, ?_, [], rfl, rfl, by simp⟩
  · constructor
    · intro h; cases h
    · rintro ⟨p, q, e, _⟩; simp at e
  · intro n e; cases e; exact ⟨rfl, rfl⟩

theorem GInv.step {h s s' o} (inv : GInv h s) (hs : s.step o = some s') : GInv (h ++ [o]) s' := by
  have quiet : ∀ o, o ≠ .up → o ≠ .down → (Opened (h ++ [o]) ↔ Opened h) ∧ starts (h ++ [o]) = starts h ∧ ends (h ++ [o]) = ends h := by
    intro o h1 h2
    exact ⟨by rw [opened_snoc]; simp [h2], by rw [starts_snoc]; simp [h1], by rw [ends_snoc]; simp [h2]⟩
  cases o with
  | add c =>
    obtain ⟨q1, q2, q3⟩ := quiet (.add c) (by simp) (by simp)
    cases hs
    have e1 : (s.addCommand c).state = s.state := by unfold Commands.addCommand; simp only; split <;> rfl
    have e2 : (s.addCommand c).commands = s.commands ++ [c] := by unfold Commands.addCommand; simp only; split <;> rfl
    have e3 : (s.addCommand c).sent = s.sent := by unfold Commands.addCommand; simp only; split <;> rfl
    refine ⟨by rw [e1, q1]; exact inv.ready, ?_, ?_⟩
    · intro n hn; rw [e1] at hn; rw [q2, q3, e3]; exact inv.waiting n hn
    · obtain ⟨chunks, c1, c2, c3⟩ := inv.chunks
      exact ⟨chunks, by rw [e2, issued_snoc, ← c1]; simp, by rw [e3, c2], c3⟩
  | flush =>
    obtain ⟨q1, q2, q3⟩ := quiet .flush (by simp) (by simp)
    cases hs
    unfold Commands.flush
    split
    · rename_i hr
      obtain ⟨f1, f2, f3⟩ := flushInner_chunks inv.chunks
      refine ⟨by rw [f3, q1]; exact inv.ready, ?_, ?_⟩
      · intro n hn; rw [f3, hr] at hn; cases hn
      · simpa [issued_snoc] using f1
    · refine ⟨by rw [q1]; exact inv.ready, ?_, ?_⟩
      · intro n hn; rw [q2, q3]; exact inv.waiting n hn
      · simpa [issued_snoc] using inv.chunks
  | logStart =>
    obtain ⟨q1, q2, q3⟩ := quiet .logStart (by simp) (by simp)
    cases hs
    refine ⟨by rw [q1]; exact inv.ready, ?_, ?_⟩
    · intro n hn; rw [q2, q3]; exact inv.waiting n hn
    · simpa [issued_snoc, Commands.logStart] using inv.chunks
  | logTake =>
    obtain ⟨q1, q2, q3⟩ := quiet .logTake (by simp) (by simp)
    cases hs
    refine ⟨by rw [q1]; exact inv.ready, ?_, ?_⟩
    · intro n hn; rw [q2, q3]; exact inv.waiting n hn
    · simpa [issued_snoc, Commands.logTake] using inv.chunks
  | up =>
    cases hs
    have hc : ∃ chunks : List (List Cmd), chunks.flatten ++ s.fetchUp.commands = issued (h ++ [.up]) ∧ s.fetchUp.sent = chunks.map sortCommands ∧ [] ∉ chunks := by
      simpa [issued_snoc, Commands.fetchUp] using inv.chunks
    refine ⟨?_, ?_, hc⟩
    · rw [opened_snoc, ← inv.ready]
      simp only [Commands.fetchUp]
      cases s.state <;> simp [StateInitiation.up]
    · intro n hn
      simp only [Commands.fetchUp] at hn ⊢
      cases hst : s.state with
      | ready => rw [hst] at hn; cases hn
      | waiting m =>
        rw [hst] at hn; simp only [StateInitiation.up, StateInitiation.waiting.injEq] at hn
        obtain ⟨w1, w2⟩ := inv.waiting m hst
        refine ⟨?_, w2⟩
        rw [starts_snoc, ends_snoc]
        simp; omega
  | down =>
    simp only [Commands.step, Commands.fetchDown] at hs
    cases hst : s.state with
    | ready =>
      rw [hst] at hs
      simp only [StateInitiation.down, Option.some.injEq] at hs
      have e : s' = s := by rw [← hs]; cases s; simp at hst; simp [hst]
      subst e
      refine ⟨?_, ?_, ?_⟩
      · rw [opened_snoc, ← inv.ready, hst]; simp
      · intro n hn; rw [hst] at hn; cases hn
      · simpa [issued_snoc] using inv.chunks
    | waiting m =>
      obtain ⟨w1, w2⟩ := inv.waiting m hst
      have hno : ¬ Opened h := by rw [← inv.ready, hst]; simp
      rw [hst] at hs
      cases m with
      | zero => cases hs
      | succ m =>
        simp only [StateInitiation.down] at hs
        by_cases hm : m = 0
        · subst hm
          simp only [if_true, Option.some.injEq] at hs
          subst hs
          obtain ⟨f1, f2, f3⟩ := flushInner_chunks (s := { s with state := .ready }) inv.chunks
          refine ⟨?_, ?_, ?_⟩
          · rw [f3, opened_snoc]; simp; exact Or.inr (by omega)
          · intro n hn; rw [f3] at hn; cases hn
          · simpa [issued_snoc] using f1
        · simp only [hm, if_false, Option.some.injEq, Bool.false_eq_true] at hs
          subst hs
          refine ⟨?_, ?_, ?_⟩
          · rw [opened_snoc]
            simp only [reduceCtorEq, false_iff, not_or]
            exact ⟨hno, by rintro ⟨_, h⟩; omega⟩
          · intro n hn
            simp only [StateInitiation.waiting.injEq] at hn
            subst hn
            refine ⟨?_, w2⟩
            rw [starts_snoc, ends_snoc]; simp; omega
          · simpa [issued_snoc] using inv.chunks

theorem run_snoc (s : Commands) (h : List Op) (o : Op) :
    s.run (h ++ [o]) = match s.run h with | none => none | some s => s.step o := by
  induction h generalizing s with
  | nil => simp only [List.nil_append, Commands.run]; cases s.step o <;> rfl
  | cons x h ih =>
    simp only [List.cons_append, Commands.run]
    cases s.step x with
    | none => rfl
    | some s => exact ih s

theorem run_inv (h : List Op) : ∀ s, Commands.run {} h = some s → GInv h s := by
  induction h using List.reverseRecOn with
  | nil => intro s e; cases e; exact GInv.init
  | append_singleton h o ih =>
    intro s e
    rw [run_snoc] at e
    split at e
    · cases e
    · rename_i s1 h1; exact (ih s1 h1).step e

/-! ## The property -/

/-- **C22.** Nothing is sent to the host before the last initial request has ended. -/
theorem C22_nothing_before_open {h s} (hr : Commands.run {} h = some s) (hno : ¬ Opened h) : s.sent = [] := by
  have inv := run_inv h s hr
  cases hst : s.state with
  | ready => exact absurd (inv.ready.mp hst) hno
  | waiting n => exact (inv.waiting n hst).2

/-- **C22.** In every history the commands issued are the ones sent, in batches of
consecutive commands (each batch sorted), followed by the ones still waiting: every command
is sent at most once, none is lost, and no empty batch is sent. -/
theorem C22_each_command_once_in_batches {h s} (hr : Commands.run {} h = some s) :
    ∃ batches : List (List Cmd), batches.flatten ++ s.commands = issued h ∧ s.sent = batches.map sortCommands ∧ [] ∉ batches :=
  (run_inv h s hr).chunks

/-- **C22.** When the last initial request ends, everything issued so far is sent. -/
theorem C22_open_delivers_everything {h s} (hr : Commands.run {} (h ++ [.down]) = some s)
    (hno : ¬ Opened h) (ho : Opened (h ++ [.down])) : s.commands = [] := by
  rw [run_snoc] at hr
  split at hr
  · cases hr
  rename_i s1 h1
  have inv := run_inv h s1 h1
  rw [opened_snoc] at ho
  rcases ho with ho | ⟨_, ho⟩
  · exact absurd ho hno
  cases hst : s1.state with
  | ready => exact absurd (inv.ready.mp hst) hno
  | waiting n =>
    obtain ⟨w1, _⟩ := inv.waiting n hst
    have : n = 1 := by omega
    subst this
    simp only [Commands.step, Commands.fetchDown, hst, StateInitiation.down, if_true, Option.some.injEq] at hr
    subst hr
    exact (flushInner_chunks (s := { s1 with state := .ready }) inv.chunks).2.1

/-- **C22.** From then on, for ever, a flush sends everything issued before it: the gate
does not close again, whatever requests follow. -/
theorem C22_never_closes {h s} (hr : Commands.run {} (h ++ [.flush]) = some s) (ho : Opened h) : s.commands = [] := by
  rw [run_snoc] at hr
  split at hr
  · cases hr
  rename_i s1 h1
  have inv := run_inv h s1 h1
  cases hr
  simp only [Commands.flush, inv.ready.mpr ho, if_true]
  exact (flushInner_chunks inv.chunks).2.1

/-- **C22.** The only way to fail is the end of a request that has not started, before the
gate is open. -/
theorem C22_panics_iff {h o s} (hr : Commands.run {} h = some s) :
    Commands.run {} (h ++ [o]) = none ↔ o = .down ∧ ¬ Opened h ∧ starts h = ends h := by
  have inv := run_inv h s hr
  rw [run_snoc, hr]
  simp only
  cases o with
  | down =>
    simp only [Commands.step, Commands.fetchDown, true_and]
    cases hst : s.state with
    | ready =>
      simp only [StateInitiation.down, reduceCtorEq, false_iff, not_and]
      exact fun hno => absurd (inv.ready.mp hst) hno
    | waiting n =>
      have hno : ¬ Opened h := by rw [← inv.ready, hst]; simp
      obtain ⟨w1, _⟩ := inv.waiting n hst
      cases n with
      | zero => simp [StateInitiation.down, hno]; omega
      | succ n =>
        simp only [StateInitiation.down, hno, not_false_eq_true, true_and]
        by_cases hn : n = 0
        · simp [hn]; omega
        · simp [hn]; omega
  | _ => simp [Commands.step]

/-- **C22 with C21.** After a flush of an open gate the browser shows the page that immediate
execution of all issued commands would show, provided that every batch satisfies the
conditions of C21. -/
theorem C22_page {h s b} (hr : Commands.run {} (h ++ [.flush]) = some s) (ho : Opened h)
    (hb : Browser.init.run (issued h) = .ok b)
    (hroot : ∀ c ∈ issued h, ∀ id, c.removes = some id → isRoot id = false)
    (hno : ∀ pre batch post b1, pre ++ batch ++ post = issued h → Browser.init.run pre = .ok b1 →
      NoInsertBelowRemoved b1 batch) :
    Browser.init.run s.sent.flatten = .ok b := by
  obtain ⟨batches, e1, e2, _⟩ := C22_each_command_once_in_batches hr
  rw [C22_never_closes hr ho, issued_snoc] at e1
  simp only [List.append_nil] at e1
  rw [e2]
  refine C21_sorted_session ⟨[], rfl⟩ (by rw [e1]; exact hb) (by rw [e1]; exact hroot) ?_
  intro pre batch post b1 e hb1
  refine hno pre.flatten batch post.flatten b1 ?_ hb1
  rw [← e1, e]; simp

theorem run_append (ops ops' : List Op) (s : Commands) :
    s.run (ops ++ ops') = (s.run ops).bind fun s => s.run ops' := by
  induction ops generalizing s with
  | nil => rfl
  | cons o ops ih =>
    simp only [List.cons_append, Commands.run]
    cases s.step o with
    | none => rfl
    | some s => exact ih s

/-- Other operations leave the log alone. -/
theorem log_other {s s' : Commands} {o : Op} (h : s.step o = some s') :
    match o with
    | .add c => s'.logEnabled = s.logEnabled ∧ s'.logVec = if s.logEnabled then s.logVec ++ [c] else s.logVec
    | .logStart => s'.logEnabled = true ∧ s'.logVec = s.logVec
    | .logTake => s'.logEnabled = false ∧ s'.logVec = []
    | _ => s'.logEnabled = s.logEnabled ∧ s'.logVec = s.logVec := by
  cases o with
  | add c =>
    cases h
    simp only [Commands.addCommand]
    cases hs : s.logEnabled <;> simp [hs]
  | logStart => cases h; exact ⟨rfl, rfl⟩
  | logTake => cases h; exact ⟨rfl, rfl⟩
  | up => cases h; exact ⟨rfl, rfl⟩
  | flush =>
    cases h
    simp only [Commands.flush, Commands.flushInner]
    split <;> (try split) <;> exact ⟨rfl, rfl⟩
  | down =>
    simp only [Commands.step, Commands.fetchDown] at h
    split at h
    · cases h
    · cases h
      simp only [Commands.flushInner]
      split <;> (try split) <;> exact ⟨rfl, rfl⟩

/-- The log for tests has exactly the commands issued while it was on: whatever happened before it was started (other logs
that were taken, commands without a log), and whatever else happens while it is on. -/
theorem C22_log {before off on : List Op} {s : Commands} (hb : before = [] ∨ before.getLast? = some .logTake)
    (hoff : .logStart ∉ off) (hon : .logTake ∉ on)
    (hr : Commands.run {} (before ++ off ++ .logStart :: on) = some s) : s.logTake.2 = issued on := by
  have hclean : ∀ (s s' : Commands), s.run off = some s' → s.logEnabled = false → s.logVec = [] →
      s'.logVec = [] := by
    clear hr
    induction off with
    | nil => intro s s' h _ h2; cases h; exact h2
    | cons o off ih =>
      intro s s' h h1 h2
      simp only [Commands.run] at h
      cases hs : s.step o with
      | none => simp [hs] at h
      | some t =>
        simp only [hs] at h
        simp only [List.mem_cons, not_or] at hoff
        have hl := log_other hs
        refine ih hoff.2 t s' h ?_ ?_ <;> cases o <;> simp_all
  have hlog : ∀ (s s' : Commands), s.run on = some s' → s.logEnabled = true → s'.logVec = s.logVec ++ issued on := by
    clear hr
    induction on with
    | nil => intro s s' h _; cases h; simp [issued]
    | cons o on ih =>
      intro s s' h h1
      simp only [Commands.run] at h
      cases hs : s.step o with
      | none => simp [hs] at h
      | some t =>
        simp only [hs] at h
        simp only [List.mem_cons, not_or] at hon
        have hl := log_other hs
        have ht : t.logEnabled = true := by cases o <;> simp_all
        rw [ih hon.2 t s' h ht]
        cases o <;> simp_all [issued]
  rw [List.append_assoc, run_append] at hr
  cases h1 : Commands.run {} before with
  | none => simp [h1] at hr
  | some s1 =>
    simp only [h1, Option.bind_some] at hr
    have hs1 : s1.logEnabled = false ∧ s1.logVec = [] := by
      rcases hb with rfl | hb
      · cases h1; exact ⟨rfl, rfl⟩
      · obtain ⟨l, rfl⟩ := List.getLast?_eq_some_iff.mp hb
        rw [run_append] at h1
        cases h2 : Commands.run {} l with
        | none => simp [h2] at h1
        | some s2 =>
          simp only [h2, Option.bind_some, Commands.run, Commands.step] at h1
          cases h1
          exact log_other (s := s2) (o := .logTake) rfl
    rw [run_append] at hr
    cases h3 : s1.run off with
    | none => simp [h3] at hr
    | some s3 =>
      simp only [h3, Option.bind_some, Commands.run, Commands.step] at hr
      rw [Commands.logTake, hlog _ _ hr rfl]
      simp only [Commands.logStart]
      rw [hclean _ _ h3 hs1.1 hs1.2]
      rfl

/-! ## A concrete history -/

/-- Start-up with one request of the application that ends later. -/
def exampleHistory : List Op :=
  [.add (.createNode 4 "div"), .up, .up, .flush, .add (.insertBefore 3 4 none), .down, .flush,
   .add (.createText 5 "loaded"), .add (.insertBefore 4 5 none), .down,
   .up, .add (.removeText 5), .add (.setAttr 4 "a" "b"), .flush, .down]

example : (Commands.run {} (exampleHistory.take 9)).map (·.sent) = some [] := by decide +kernel
/-- Two logs, one after the other. -/
example : (Commands.run {} ([.logStart, .add (.createText 5 "first"), .logTake] ++ [.add (.createText 6 "unseen"), .up] ++
    .logStart :: [.add (.createText 7 "second"), .flush, .down, .add (.removeText 7)])).map (·.logTake.2) =
    some [.createText 7 "second", .removeText 7] := by decide +kernel
example : (Commands.run {} exampleHistory).map (·.sent) = some
    [[.createNode 4 "div", .insertBefore 3 4 none, .createText 5 "loaded", .insertBefore 4 5 none],
     [.setAttr 4 "a" "b", .removeText 5]] := by decide +kernel
example : Opened exampleHistory := ⟨exampleHistory.take 9, exampleHistory.drop 10, rfl, rfl⟩

end Verif.Driver

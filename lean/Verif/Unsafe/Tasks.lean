/-!
# C82: the memory of spawned tasks

Source: `crates/vertigo/src/driver_module/utils/futures_spawn.rs` with `api_import.rs:250-264`.

The wakers of tasks are raw pointers with a table of functions; the references are counted by hand. The model has the counters of `Rc`,
and the memory of each task. Undefined behaviour (a counter is used after the memory was given back, or the memory is given back while the
future with its waker is in it) is the outcome `none`.

What futures do is arbitrary: each poll, and each drop of a future, is a list of actions on wakers, and may spawn tasks. Whoever holds wakers
(futures, channels, the code of the program) is not distinguished: `wakers` are all of them, apart from the one of each task itself.

Simplifications: no panics. The counters do not overflow.
-/
namespace Verif.Unsafe.Tasks

/-! ## Model -/

/-- The contents of the memory of a task, with the counter of its `Rc` (futures_spawn.rs:18-26). `future`: there is `Some(Inner)`, a future with
the own waker of the task. -/
structure Task where
  strong : Nat
  future : Bool
  deriving DecidableEq

/-- A future is polled (with its answer), is dropped. -/
inductive Event where
  | polled (t : Nat) (ready : Bool)
  | dropped (t : Nat)
  deriving DecidableEq

/-- `tasks`: `none` if the memory was given back. `timers`: the closures of line 45 that have not been called yet, by the task they refer to.
`wakers`: by the task they refer to. -/
structure State where
  tasks : List (Option Task)
  timers : List Nat
  wakers : List Nat
  log : List Event

def State.get (s : State) (t : Nat) : Option Task := (s.tasks[t]?).join

/-- `Rc::clone` -/
def rcClone (s : State) (t : Nat) : Option State :=
  match s.get t with
  | some task => some { s with tasks := s.tasks.set t (some { task with strong := task.strong + 1 }) }
  | none => none

/-- `drop(Rc)`: the last one drops the contents, too; the waker in it would use the counter again. -/
def rcDrop (s : State) (t : Nat) : Option State :=
  match s.get t with
  | some task =>
      if 1 < task.strong then some { s with tasks := s.tasks.set t (some { task with strong := task.strong - 1 }) }
      else if task.future then none
      else some { s with tasks := s.tasks.set t none }
  | none => none

/-- futures_spawn.rs:42-48 (`wake_by_ref`): the closure has a clone. -/
def wakeByRef (s : State) (t : Nat) : Option State := do
  let s ← rcClone s t
  some { s with timers := s.timers ++ [t] }

/-- futures_spawn.rs:51-54: the `Rc` of the pointer is not dropped (`ManuallyDrop`), a clone becomes the new waker. -/
def rawClone (s : State) (t : Nat) : Option (State × Nat) := do
  let s ← rcClone s t
  some (s, t)

/-- futures_spawn.rs:56-59: the `Rc` of the pointer is dropped at the end. -/
def rawWake (s : State) (t : Nat) : Option State := do
  let s ← wakeByRef s t
  rcDrop s t

/-- futures_spawn.rs:61-64: the `Rc` of the pointer is not dropped. -/
def rawWakeByRef (s : State) (t : Nat) : Option State := wakeByRef s t

/-- futures_spawn.rs:66-68 -/
def rawDrop (s : State) (t : Nat) : Option State := rcDrop s t

/-- futures_spawn.rs:29-40 (`spawn`): `Rc::new`, a clone for the own waker, a timer; `this` is dropped at the end. -/
def spawn (s : State) : Option State := do
  let t := s.tasks.length
  let s := { s with tasks := s.tasks ++ [some ⟨1, false⟩] }
  let s ← rcClone s t
  let s := { s with tasks := s.tasks.set t ((s.get t).map fun task => { task with future := true }) }
  let s ← wakeByRef s t
  rcDrop s t

/-- The uses of wakers: `i` is one of the wakers; `own` is the one of the context of a poll. -/
inductive Act where
  | clone (i : Nat)
  | cloneOwn
  | wake (i : Nat)
  | wakeByRef (i : Nat)
  | wakeOwnByRef
  | drop (i : Nat)
  | spawn

/-- One action; `own` is the task that is being polled. Without such a waker nothing is done. -/
def State.act (own : Option Nat) (s : State) : Act → Option State
  | .clone i =>
      match s.wakers[i]? with
      | some t => do
          let (s, t) ← rawClone s t
          some { s with wakers := s.wakers ++ [t] }
      | none => some s
  | .cloneOwn =>
      match own with
      | some t => do
          let (s, t) ← rawClone s t
          some { s with wakers := s.wakers ++ [t] }
      | none => some s
  | .wake i =>
      match s.wakers[i]? with
      | some t => rawWake { s with wakers := s.wakers.eraseIdx i } t
      | none => some s
  | .wakeByRef i =>
      match s.wakers[i]? with
      | some t => rawWakeByRef s t
      | none => some s
  | .wakeOwnByRef =>
      match own with
      | some t => rawWakeByRef s t
      | none => some s
  | .drop i =>
      match s.wakers[i]? with
      | some t => rawDrop { s with wakers := s.wakers.eraseIdx i } t
      | none => some s
  | .spawn => spawn s

def State.acts (own : Option Nat) (s : State) : List Act → Option State
  | [] => some s
  | a :: l => do
      let s ← s.act own a
      s.acts own l

/-- futures_spawn.rs:76-92 (`run`): the future does `acts` in its poll; if it is ready, it is dropped, which does `dropActs`, and then the
own waker. -/
def State.runTask (s : State) (t : Nat) (acts : List Act) (ready : Bool) (dropActs : List Act) : Option State :=
  match s.get t with
  | some task =>
      if task.future then do
        let s ← { s with log := s.log ++ [Event.polled t ready] }.acts (some t) acts
        if ready then
          let s ← { s with log := s.log ++ [Event.dropped t] }.acts none dropActs
          let s ← rawDrop s t
          some { s with tasks := s.tasks.set t ((s.get t).map fun task => { task with future := false }) }
        else some s
      else some s
  | none => none

/-- What happens: an action outside of polls, or the host calls the closure of a timer, which is dropped afterwards (api_import.rs:250-264). -/
inductive Op where
  | act (a : Act)
  | fire (i : Nat) (acts : List Act) (ready : Bool) (dropActs : List Act)

def State.step (s : State) : Op → Option State
  | .act a => s.act none a
  | .fire i acts ready dropActs =>
      match s.timers[i]? with
      | some t => do
          let s ← { s with timers := s.timers.eraseIdx i }.runTask t acts ready dropActs
          rcDrop s t
      | none => some s

def State.run (s : State) : List Op → Option State
  | [] => some s
  | op :: ops => do
      let s ← s.step op
      s.run ops

def State.empty : State := ⟨[], [], [], []⟩

/-! ## Proofs -/

/-- `1` if the future with its waker is there. -/
def ownOf : Option Task → Nat
  | some task => if task.future then 1 else 0
  | none => 0

def strongOf : Option Task → Nat
  | some task => task.strong
  | none => 0

def own (s : State) (t : Nat) : Nat := ownOf (s.get t)

def strong (s : State) (t : Nat) : Nat := strongOf (s.get t)

/-- The counters are right; `e` are references that are held on the stack. -/
structure Inv (e : List Nat) (s : State) : Prop where
  count : ∀ t, strong s t = s.timers.count t + s.wakers.count t + e.count t + own s t
  pos : ∀ t task, s.get t = some task → 0 < task.strong

theorem get_set (s : State) (t : Nat) (x : Option Task) (ht : t < s.tasks.length) (u : Nat) :
    ({ s with tasks := s.tasks.set t x } : State).get u = if u = t then x else s.get u := by
  simp only [State.get, List.getElem?_set]
  by_cases h : u = t
  · subst h; simp [ht]
  · rw [if_neg (Ne.symm h), if_neg h]

theorem get_lt {s : State} {t : Nat} {x : Task} (h : s.get t = some x) : t < s.tasks.length := by
  simp only [State.get] at h
  by_cases hl : t < s.tasks.length
  · exact hl
  · rw [List.getElem?_eq_none (by omega)] at h; simp at h

/-- Everything but the memory of `t` stays; its future stays as it is. -/
structure Same (s s' : State) : Prop where
  timers : s'.timers = s.timers
  wakers : s'.wakers = s.wakers
  log : s'.log = s.log
  length : s'.tasks.length = s.tasks.length

/-- The memory of `t` changes. -/
theorem inv_set {e e' : List Nat} {s : State} (i : Inv e s) {t : Nat} (ht : t < s.tasks.length) {x : Option Task}
    (hx : ∀ y, x = some y → 0 < y.strong) (he : ∀ u, u ≠ t → e'.count u = e.count u)
    (hc : strongOf x = s.timers.count t + s.wakers.count t + e'.count t + ownOf x) :
    Inv e' { s with tasks := s.tasks.set t x } := by
  constructor
  · intro u
    have := i.count u
    simp only [strong, own, get_set s t _ ht] at this ⊢
    by_cases hu : u = t
    · subst hu
      simp only [if_true]
      exact hc
    · simp only [if_neg hu, he u hu]
      exact this
  · intro u y hy
    rw [get_set s t _ ht] at hy
    split at hy
    · exact hx y hy
    · exact i.pos u y hy

theorem own_set {s : State} {t : Nat} (ht : t < s.tasks.length) {x : Option Task} (u : Nat) :
    own { s with tasks := s.tasks.set t x } u = if u = t then ownOf x else own s u := by
  simp only [own, get_set s t _ ht]
  by_cases hu : u = t <;> simp [hu]

theorem count_ne {t u : Nat} {e : List Nat} (h : u ≠ t) : (t :: e).count u = e.count u := by
  rw [List.count_cons, show (t == u) = false by simpa using Ne.symm h]; simp

theorem inv_count {e : List Nat} {s : State} (i : Inv e s) {t : Nat} {task : Task} (hg : s.get t = some task) :
    task.strong = s.timers.count t + s.wakers.count t + e.count t + if task.future then 1 else 0 := by
  have := i.count t
  simpa only [strong, own, hg, strongOf, ownOf] using this

/-- The futures stay as they are; `t` is the new reference. -/
theorem rcClone_ok {e : List Nat} {s : State} (i : Inv e s) {t : Nat} (h : 0 < strong s t) :
    ∃ s', rcClone s t = some s' ∧ Inv (t :: e) s' ∧ Same s s' ∧ (∀ u, own s' u = own s u) := by
  simp only [strong, strongOf] at h
  cases hg : s.get t with
  | none => rw [hg] at h; simp at h
  | some task =>
    have hl := get_lt hg
    have hc := inv_count i hg
    have e1 : rcClone s t = some { s with tasks := s.tasks.set t (some { task with strong := task.strong + 1 }) } := by simp only [rcClone, hg]
    refine ⟨_, e1, inv_set i hl ?_ (fun u hu => count_ne hu) ?_, ⟨rfl, rfl, rfl, by simp⟩, ?_⟩
    · intro y hy; cases hy; simp
    · simp only [List.count_cons_self, strongOf, ownOf]; omega
    · intro u
      rw [own_set hl]
      by_cases hu : u = t
      · subst hu; simp [own, ownOf, hg]
      · simp [hu]

theorem rcDrop_ok {e : List Nat} {s : State} {t : Nat} (i : Inv (t :: e) s) :
    ∃ s', rcDrop s t = some s' ∧ Inv e s' ∧ Same s s' ∧ (∀ u, own s' u = own s u) := by
  cases hg : s.get t with
  | none =>
    have hc := i.count t
    simp only [strong, own, strongOf, ownOf, List.count_cons_self, hg] at hc
    omega
  | some task =>
    have hl := get_lt hg
    have hc := inv_count i hg
    rw [List.count_cons_self] at hc
    by_cases h1 : 1 < task.strong
    · have e1 : rcDrop s t = some { s with tasks := s.tasks.set t (some { task with strong := task.strong - 1 }) } := by
        simp only [rcDrop, hg, if_pos h1]
      refine ⟨_, e1, inv_set i hl ?_ (fun u hu => (count_ne hu).symm) ?_, ⟨rfl, rfl, rfl, by simp⟩, ?_⟩
      · intro y hy; cases hy; simp; omega
      · simp only [strongOf, ownOf]; omega
      · intro u
        rw [own_set hl]
        by_cases hu : u = t
        · subst hu; simp [own, ownOf, hg]
        · simp [hu]
    · have hf : task.future = false := by
        cases hf : task.future
        · rfl
        · simp only [hf, if_true] at hc; omega
      have e1 : rcDrop s t = some { s with tasks := s.tasks.set t none } := by
        simp only [rcDrop, hg, if_neg h1, hf, Bool.false_eq_true, if_false]
      simp only [hf, Bool.false_eq_true, if_false] at hc
      refine ⟨_, e1, inv_set i hl ?_ (fun u hu => (count_ne hu).symm) ?_, ⟨rfl, rfl, rfl, by simp⟩, ?_⟩
      · intro y hy; cases hy
      · simp only [strongOf, ownOf]; omega
      · intro u
        rw [own_set hl]
        by_cases hu : u = t
        · subst hu; simp [own, ownOf, hg, hf]
        · simp [hu]

theorem count_eraseIdx {l : List Nat} : ∀ {i t : Nat}, l[i]? = some t → ∀ u, (t :: l.eraseIdx i).count u = l.count u := by
  induction l with
  | nil => intro i t h; simp at h
  | cons x l ih =>
    intro i t h u
    cases i with
    | zero => simp at h; subst h; simp
    | succ i =>
      simp only [List.getElem?_cons_succ] at h
      have := ih h u
      simp only [List.eraseIdx_cons_succ, List.count_cons] at this ⊢
      omega

theorem inv_timer {e : List Nat} {s : State} {t : Nat} (i : Inv (t :: e) s) : Inv e { s with timers := s.timers ++ [t] } := by
  refine ⟨fun u => ?_, i.pos⟩
  have := i.count u
  simp only [strong, own, State.get, List.count_append, List.count_cons, List.count_nil] at this ⊢
  omega

theorem inv_waker {e : List Nat} {s : State} {t : Nat} (i : Inv (t :: e) s) : Inv e { s with wakers := s.wakers ++ [t] } := by
  refine ⟨fun u => ?_, i.pos⟩
  have := i.count u
  simp only [strong, own, State.get, List.count_append, List.count_cons, List.count_nil] at this ⊢
  omega

theorem inv_untimer {e : List Nat} {s : State} {t j : Nat} (h : s.timers[j]? = some t) (i : Inv e s) : Inv (t :: e) { s with timers := s.timers.eraseIdx j } := by
  refine ⟨fun u => ?_, i.pos⟩
  have := i.count u
  have hu := count_eraseIdx h u
  simp only [strong, own, State.get, List.count_cons] at this hu ⊢
  omega

theorem inv_unwaker {e : List Nat} {s : State} {t j : Nat} (h : s.wakers[j]? = some t) (i : Inv e s) : Inv (t :: e) { s with wakers := s.wakers.eraseIdx j } := by
  refine ⟨fun u => ?_, i.pos⟩
  have := i.count u
  have hu := count_eraseIdx h u
  simp only [strong, own, State.get, List.count_cons] at this hu ⊢
  omega

/-- What actions do: futures stay as they are, new ones are there; `o` is the task that is being polled. -/
structure Keep (o : Option Nat) (s s' : State) : Prop where
  length : s.tasks.length ≤ s'.tasks.length
  log : s'.log = s.log
  old : ∀ u, u < s.tasks.length → own s' u = own s u
  new : ∀ u, s.tasks.length ≤ u → u < s'.tasks.length → own s' u = 1
  quiet : ∀ u, u < s.tasks.length → u ∉ s.timers → u ∉ s.wakers → o ≠ some u → u ∉ s'.timers ∧ u ∉ s'.wakers

theorem Keep.refl (o : Option Nat) (s : State) : Keep o s s :=
  ⟨Nat.le_refl _, rfl, fun _ _ => rfl, fun u h1 h2 => by omega, fun _ _ h1 h2 _ => ⟨h1, h2⟩⟩

theorem Keep.trans {o : Option Nat} {s s1 s2 : State} (h : Keep o s s1) (h' : Keep o s1 s2) : Keep o s s2 := by
  have l1 := h.length
  have l2 := h'.length
  refine ⟨by omega, h'.log.trans h.log, fun u hu => ?_, fun u h1 h2 => ?_, fun u hu h1 h2 h3 => ?_⟩
  · rw [h'.old u (by omega), h.old u hu]
  · by_cases hu : u < s1.tasks.length
    · rw [h'.old u hu, h.new u h1 hu]
    · exact h'.new u (by omega) h2
  · have := h.quiet u hu h1 h2 h3
    exact h'.quiet u (by omega) this.1 this.2 h3

/-- The references of `t` changed, and the lists of timers and wakers. -/
theorem Keep.mk' {o : Option Nat} {s s' : State} (hl : s'.tasks.length = s.tasks.length) (hlog : s'.log = s.log) (ho : ∀ u, own s' u = own s u)
    (hq : ∀ u, u ∉ s.timers → u ∉ s.wakers → o ≠ some u → u ∉ s'.timers ∧ u ∉ s'.wakers) : Keep o s s' :=
  ⟨by omega, hlog, fun u _ => ho u, fun u h1 h2 => by omega, fun u _ => hq u⟩

theorem strong_timer {e : List Nat} {s : State} (i : Inv e s) {t : Nat} (h : t ∈ s.timers ∨ t ∈ s.wakers ∨ t ∈ e) : 0 < strong s t := by
  have := i.count t
  rcases h with h | h | h <;> have := List.count_pos_iff.mpr h <;> omega

theorem wakeByRef_ok {e : List Nat} {s : State} (i : Inv e s) {t : Nat} (h : 0 < strong s t) :
    ∃ s', wakeByRef s t = some s' ∧ Inv e s' ∧ s'.tasks.length = s.tasks.length ∧ s'.log = s.log ∧ s'.timers = s.timers ++ [t] ∧ s'.wakers = s.wakers ∧
      (∀ u, own s' u = own s u) := by
  obtain ⟨s1, e1, i1, h1, o1⟩ := rcClone_ok i h
  refine ⟨{ s1 with timers := s1.timers ++ [t] }, by simp [wakeByRef, e1], inv_timer i1, h1.length, h1.log, by rw [← h1.timers], h1.wakers, o1⟩

theorem rawClone_ok {e : List Nat} {s : State} (i : Inv e s) {t : Nat} (h : 0 < strong s t) {o : Option Nat} (ht : t ∈ s.wakers ∨ o = some t) :
    ∃ s', (do let (s, t) ← rawClone s t; some { s with wakers := s.wakers ++ [t] }) = some s' ∧ Inv e s' ∧ Keep o s s' := by
  obtain ⟨s1, e1, i1, h1, o1⟩ := rcClone_ok i h
  refine ⟨{ s1 with wakers := s1.wakers ++ [t] }, by simp [rawClone, e1], inv_waker i1, .mk' h1.length h1.log o1 ?_⟩
  intro u hu1 hu2 hu3
  refine ⟨by rw [show ({ s1 with wakers := s1.wakers ++ [t] } : State).timers = _ from h1.timers]; exact hu1, ?_⟩
  show u ∉ s1.wakers ++ [t]
  rw [h1.wakers]
  simp only [List.mem_append, List.mem_singleton, not_or]
  refine ⟨hu2, ?_⟩
  rintro rfl
  rcases ht with ht | ht
  · exact hu2 ht
  · exact hu3 ht

theorem rawWakeByRef_ok {e : List Nat} {s : State} (i : Inv e s) {t : Nat} (h : 0 < strong s t) {o : Option Nat} (ht : t ∈ s.wakers ∨ o = some t) :
    ∃ s', rawWakeByRef s t = some s' ∧ Inv e s' ∧ Keep o s s' := by
  obtain ⟨s1, e1, i1, h1, h2, h3, h4, o1⟩ := wakeByRef_ok i h
  refine ⟨s1, e1, i1, .mk' h1 h2 o1 ?_⟩
  intro u hu1 hu2 hu3
  rw [h3, h4]
  simp only [List.mem_append, List.mem_singleton, not_or]
  refine ⟨⟨hu1, ?_⟩, hu2⟩
  rintro rfl
  rcases ht with ht | ht
  · exact hu2 ht
  · exact hu3 ht

theorem spawn_ok {e : List Nat} {s : State} (i : Inv e s) (o : Option Nat) : ∃ s', spawn s = some s' ∧ Inv e s' ∧ Keep o s s' := by
  have hget : ∀ u, ({ s with tasks := s.tasks ++ [some ⟨1, false⟩] } : State).get u = if u = s.tasks.length then some ⟨1, false⟩ else s.get u := by
    intro u
    simp only [State.get]
    by_cases hu : u = s.tasks.length
    · subst hu; simp
    · rw [if_neg hu]
      by_cases h : u < s.tasks.length
      · rw [List.getElem?_append_left h]
      · rw [List.getElem?_eq_none (by simp; omega), List.getElem?_eq_none (by omega)]
  have hnone : s.get s.tasks.length = none := by simp [State.get]
  have hc := i.count s.tasks.length
  simp only [strong, own, hnone, strongOf, ownOf] at hc
  have i0 : Inv (s.tasks.length :: e) { s with tasks := s.tasks ++ [some ⟨1, false⟩] } := by
    constructor
    · intro u
      have := i.count u
      simp only [strong, own, hget] at this ⊢
      by_cases hu : u = s.tasks.length
      · subst hu
        simp only [if_true, List.count_cons_self, Bool.false_eq_true, if_false, strongOf, ownOf]
        omega
      · simp only [if_neg hu, count_ne hu]
        exact this
    · intro u x hx
      rw [hget] at hx
      split at hx
      · cases hx; simp
      · exact i.pos u x hx
  obtain ⟨s1, e1, i1, h1, o1⟩ := rcClone_ok i0 (t := s.tasks.length) (strong_timer i0 (.inr (.inr (by simp))))
  have hl1 : s.tasks.length < s1.tasks.length := by rw [h1.length]; simp
  have i2 : Inv (s.tasks.length :: e) { s1 with tasks := s1.tasks.set s.tasks.length ((s1.get s.tasks.length).map fun task => { task with future := true }) } := by
    have ho := o1 s.tasks.length
    simp only [own, hget, if_true, ownOf, Bool.false_eq_true, if_false] at ho
    have hs := strong_timer i1 (t := s.tasks.length) (.inr (.inr (by simp)))
    cases hg : s1.get s.tasks.length with
    | none => simp only [strong, strongOf, hg] at hs; omega
    | some task =>
      have hc := inv_count i1 hg
      rw [hg] at ho
      simp only at ho
      simp only [List.count_cons_self, ho] at hc
      refine inv_set i1 hl1 ?_ ?_ ?_
      · intro y hy; cases hy; exact i1.pos s.tasks.length task hg
      · intro u hu; simp only [count_ne hu]
      · simp only [Option.map_some, strongOf, ownOf, if_true, List.count_cons_self]; omega
  have e2 := wakeByRef_ok i2 (t := s.tasks.length) (strong_timer i2 (.inr (.inr (by simp))))
  obtain ⟨s3, e3, i3, l3, g3, t3, w3, o3⟩ := e2
  obtain ⟨s4, e4, i4, h4, o4⟩ := rcDrop_ok i3
  refine ⟨s4, ?_, i4, ?_⟩
  · simp only [spawn, e1, Option.bind_eq_bind, Option.bind_some, e3, e4]
  · have own1 : ∀ u, own s4 u = if u = s.tasks.length then 1 else own s u := by
      intro u
      rw [o4, o3, own_set hl1]
      by_cases hu : u = s.tasks.length
      · subst hu
        simp only [if_true]
        have hs := strong_timer i1 (t := s.tasks.length) (.inr (.inr (by simp)))
        cases hg : s1.get s.tasks.length with
        | none => simp only [strong, strongOf, hg] at hs; omega
        | some task => simp [ownOf]
      · rw [if_neg hu, if_neg hu, o1]
        simp only [own, hget, if_neg hu]
    have hlen : s4.tasks.length = s.tasks.length + 1 := by
      rw [h4.length, l3]
      simp [h1.length]
    refine ⟨by omega, ?_, ?_, ?_, ?_⟩
    · rw [h4.log, g3]; exact h1.log
    · intro u hu
      rw [own1, if_neg (by omega)]
    · intro u h1 h2
      rw [own1, if_pos (by omega)]
    · intro u hu hu1 hu2 _
      rw [h4.timers, h4.wakers, t3, w3]
      show u ∉ s1.timers ++ _ ∧ u ∉ s1.wakers
      rw [h1.timers, h1.wakers]
      simp only [List.mem_append, List.mem_singleton, not_or]
      exact ⟨⟨hu1, by omega⟩, hu2⟩

theorem mem_of_eraseIdx {l : List Nat} {j u : Nat} (h : u ∉ l) : u ∉ l.eraseIdx j := fun hm => h (List.mem_of_mem_eraseIdx hm)

theorem act_ok {e : List Nat} {s : State} (i : Inv e s) {o : Option Nat} (ho : ∀ t, o = some t → t ∈ e) (a : Act) :
    ∃ s', s.act o a = some s' ∧ Inv e s' ∧ Keep o s s' := by
  cases a with
  | clone j =>
    simp only [State.act]
    split
    · rename_i t ht
      have hm := List.mem_of_getElem? ht
      exact rawClone_ok i (strong_timer i (.inr (.inl hm))) (.inl hm)
    · exact ⟨s, rfl, i, .refl o s⟩
  | cloneOwn =>
    simp only [State.act]
    split
    · rename_i t
      exact rawClone_ok i (strong_timer i (.inr (.inr (ho _ rfl)))) (.inr rfl)
    · exact ⟨s, rfl, i, .refl _ s⟩
  | wake j =>
    simp only [State.act]
    split
    · rename_i t ht
      have hm := List.mem_of_getElem? ht
      have i1 := inv_unwaker ht i
      obtain ⟨s2, e2, i2, h1, h2, h3, h4, o2⟩ := wakeByRef_ok (t := t) i1 (strong_timer i1 (.inr (.inr (by simp))))
      obtain ⟨s3, e3, i3, h5, o3⟩ := rcDrop_ok i2
      refine ⟨s3, by simp only [rawWake, e2, Option.bind_eq_bind, Option.bind_some, e3], i3, .mk' (h5.length.trans h1) (h5.log.trans h2) ?_ ?_⟩
      · intro u
        rw [o3, o2]
        rfl
      · intro u hu1 hu2 _
        rw [h5.timers, h5.wakers, h3, h4]
        simp only [List.mem_append, List.mem_singleton, not_or]
        exact ⟨⟨hu1, by rintro rfl; exact hu2 hm⟩, mem_of_eraseIdx hu2⟩
    · exact ⟨s, rfl, i, .refl o s⟩
  | wakeByRef j =>
    simp only [State.act]
    split
    · rename_i t ht
      have hm := List.mem_of_getElem? ht
      exact rawWakeByRef_ok i (strong_timer i (.inr (.inl hm))) (.inl hm)
    · exact ⟨s, rfl, i, .refl o s⟩
  | wakeOwnByRef =>
    simp only [State.act]
    split
    · rename_i t
      exact rawWakeByRef_ok i (strong_timer i (.inr (.inr (ho _ rfl)))) (.inr rfl)
    · exact ⟨s, rfl, i, .refl _ s⟩
  | drop j =>
    simp only [State.act]
    split
    · rename_i t ht
      have i1 := inv_unwaker ht i
      obtain ⟨s2, e2, i2, h2, o2⟩ := rcDrop_ok i1
      refine ⟨s2, e2, i2, .mk' h2.length h2.log (fun u => by rw [o2]; rfl) ?_⟩
      intro u hu1 hu2 _
      rw [h2.timers, h2.wakers]
      exact ⟨hu1, mem_of_eraseIdx hu2⟩
    · exact ⟨s, rfl, i, .refl o s⟩
  | spawn => exact spawn_ok i o

theorem acts_ok {e : List Nat} {o : Option Nat} (ho : ∀ t, o = some t → t ∈ e) (l : List Act) :
    ∀ {s : State}, Inv e s → ∃ s', s.acts o l = some s' ∧ Inv e s' ∧ Keep o s s' := by
  induction l with
  | nil => intro s i; exact ⟨s, rfl, i, .refl o s⟩
  | cons a l ih =>
    intro s i
    obtain ⟨s1, e1, i1, k1⟩ := act_ok i ho a
    obtain ⟨s2, e2, i2, k2⟩ := ih i1
    exact ⟨s2, by simp only [State.acts, e1, Option.bind_eq_bind, Option.bind_some, e2], i2, k1.trans k2⟩

/-- What the timer of a task does. -/
structure Ran (t : Nat) (s s' : State) : Prop where
  length : s.tasks.length ≤ s'.tasks.length
  old : ∀ u, u < s.tasks.length → u ≠ t → own s' u = own s u
  new : ∀ u, s.tasks.length ≤ u → u < s'.tasks.length → own s' u = 1
  quiet : ∀ u, u < s.tasks.length → u ∉ s.timers → u ∉ s.wakers → u ≠ t → u ∉ s'.timers ∧ u ∉ s'.wakers
  log : (own s t = 0 ∧ own s' t = 0 ∧ s'.log = s.log) ∨ (own s t = 1 ∧ own s' t = 1 ∧ s'.log = s.log ++ [.polled t false]) ∨
    (own s t = 1 ∧ own s' t = 0 ∧ s'.log = s.log ++ [.polled t true, .dropped t])

theorem runTask_ok {e : List Nat} {s : State} {t : Nat} (i : Inv (t :: e) s) (acts : List Act) (ready : Bool) (dropActs : List Act) :
    ∃ s', s.runTask t acts ready dropActs = some s' ∧ Inv (t :: e) s' ∧ Ran t s s' := by
  have hs := strong_timer i (t := t) (.inr (.inr (by simp)))
  cases hg : s.get t with
  | none => simp only [strong, strongOf, hg] at hs; omega
  | some task =>
    have ht := get_lt hg
    by_cases hf : task.future
    · have hown : own s t = 1 := by simp [own, ownOf, hg, hf]
      have i0 : Inv (t :: e) { s with log := s.log ++ [Event.polled t ready] } := ⟨i.count, i.pos⟩
      obtain ⟨s1, e1, i1, k1⟩ := acts_ok (o := some t) (by intro u hu; cases hu; simp) acts i0
      have kl1 := k1.length
      simp only at kl1
      cases ready with
      | false =>
        refine ⟨s1, by simp only [State.runTask, hg, hf, if_true, e1, Option.bind_eq_bind, Option.bind_some, Bool.false_eq_true, if_false], i1, ?_⟩
        refine ⟨kl1, fun u h1 _ => k1.old u h1, k1.new, fun u h1 h2 h3 h4 => k1.quiet u h1 h2 h3 (by simpa using Ne.symm h4), ?_⟩
        exact .inr (.inl ⟨hown, (k1.old t ht).trans hown, k1.log⟩)
      | true =>
        have i1' : Inv (t :: e) { s1 with log := s1.log ++ [Event.dropped t] } := ⟨i1.count, i1.pos⟩
        obtain ⟨s2, e2, i2, k2⟩ := acts_ok (o := none) (by intro u hu; cases hu) dropActs i1'
        have kl2 := k2.length
        simp only at kl2
        have hown2 : own s2 t = 1 := by rw [k2.old t (by simp only; omega)]; exact (k1.old t ht).trans hown
        -- the own waker and the closure
        have hc2 := i2.count t
        rw [List.count_cons_self, hown2] at hc2
        cases hg2 : s2.get t with
        | none => simp only [own, ownOf, hg2] at hown2; omega
        | some task2 =>
          have hf2 : task2.future = true := by
            simp only [own, ownOf, hg2] at hown2
            cases h : task2.future
            · simp [h] at hown2
            · rfl
          simp only [strong, strongOf, hg2] at hc2
          have hlt := get_lt hg2
          have e3 : rawDrop s2 t = some { s2 with tasks := s2.tasks.set t (some { task2 with strong := task2.strong - 1 }) } := by
            simp only [rawDrop, rcDrop, hg2]
            rw [if_pos (by omega)]
          have hset : (({ s2 with tasks := s2.tasks.set t (some { task2 with strong := task2.strong - 1 }) } : State).get t) =
              some { task2 with strong := task2.strong - 1 } := by rw [get_set s2 t _ hlt]; simp
          refine ⟨{ s2 with tasks := s2.tasks.set t (some ⟨task2.strong - 1, false⟩) }, ?_, ?_, ?_⟩
          · simp only [State.runTask, hg, hf, if_true, e1, Option.bind_eq_bind, Option.bind_some, e2, e3, hset, Option.map_some, List.set_set]
          · refine inv_set i2 hlt ?_ (fun _ _ => rfl) ?_
            · intro y hy; cases hy; simp only; omega
            · simp only [strongOf, ownOf, List.count_cons_self, Bool.false_eq_true, if_false]; omega
          · have ho : ∀ u, own { s2 with tasks := s2.tasks.set t (some ⟨task2.strong - 1, false⟩) } u = if u = t then 0 else own s2 u := by
              intro u
              rw [own_set hlt]
              simp [ownOf]
            refine ⟨by simp only [List.length_set]; omega, ?_, ?_, ?_, ?_⟩
            · intro u h1 h2
              rw [ho, if_neg h2, k2.old u (by simp only; omega)]
              exact k1.old u h1
            · intro u h1 h2
              simp only [List.length_set] at h2
              rw [ho, if_neg (by omega)]
              by_cases hu : u < s1.tasks.length
              · rw [k2.old u hu]; exact k1.new u h1 hu
              · exact k2.new u (by simp only; omega) h2
            · intro u h1 h2 h3 h4
              have := k1.quiet u h1 h2 h3 (by simpa using Ne.symm h4)
              exact k2.quiet u (by simp only; omega) this.1 this.2 (by simp)
            · refine .inr (.inr ⟨hown, by rw [ho, if_pos rfl], ?_⟩)
              show s2.log = _
              rw [k2.log]
              simp only [k1.log, List.append_assoc, List.cons_append, List.nil_append]
    · have hown : own s t = 0 := by simp [own, ownOf, hg, hf]
      refine ⟨s, by simp only [State.runTask, hg, hf, if_false, Bool.false_eq_true], i, ⟨Nat.le_refl _, fun _ _ _ => rfl, fun u h1 h2 => by omega,
        fun u _ h1 h2 _ => ⟨h1, h2⟩, .inl ⟨hown, hown, rfl⟩⟩⟩

theorem step_ok {s : State} (i : Inv [] s) (op : Op) :
    ∃ s', s.step op = some s' ∧ Inv [] s' ∧ (Keep none s s' ∨ ∃ t, t ∈ s.timers ∧ Ran t s s') := by
  cases op with
  | act a =>
    obtain ⟨s', e, i', k⟩ := act_ok i (o := none) (by intro t h; cases h) a
    exact ⟨s', e, i', .inl k⟩
  | fire j acts ready dropActs =>
    simp only [State.step]
    split
    · rename_i t ht
      have i1 := inv_untimer ht i
      obtain ⟨s2, e2, i2, r⟩ := runTask_ok i1 acts ready dropActs
      obtain ⟨s3, e3, i3, h3, o3⟩ := rcDrop_ok i2
      refine ⟨s3, by simp only [e2, Option.bind_eq_bind, Option.bind_some, e3], i3, .inr ⟨t, List.mem_of_getElem? ht, ?_⟩⟩
      refine ⟨?_, ?_, ?_, ?_, ?_⟩
      · rw [h3.length]; exact r.length
      · intro u h1 h2; rw [o3]; exact r.old u h1 h2
      · intro u h1 h2; rw [o3]; rw [h3.length] at h2; exact r.new u h1 h2
      · intro u h1 h2 h4 h5
        rw [h3.timers, h3.wakers]
        exact r.quiet u h1 (mem_of_eraseIdx h2) h4 h5
      · rw [o3, h3.log]; exact r.log
    · exact ⟨s, rfl, i, .inl (.refl none s)⟩

/-- The events of a task. -/
structure Logged (s : State) : Prop where
  dropped : ∀ t, .dropped t ∈ s.log ↔ t < s.tasks.length ∧ own s t = 0
  ready : ∀ t, .polled t true ∈ s.log ↔ .dropped t ∈ s.log
  order : s.log.Pairwise fun a b => ∀ t, a = .dropped t → (∀ r, b ≠ .polled t r) ∧ b ≠ .dropped t

theorem logged_snoc {l : List Event} (h : l.Pairwise fun a b => ∀ t, a = .dropped t → (∀ r, b ≠ .polled t r) ∧ b ≠ .dropped t) {t : Nat} (ht : .dropped t ∉ l)
    {x : Event} (hx : (∃ r, x = .polled t r) ∨ x = .dropped t) :
    (l ++ [x]).Pairwise fun a b => ∀ t, a = .dropped t → (∀ r, b ≠ .polled t r) ∧ b ≠ .dropped t := by
  rw [List.pairwise_append]
  refine ⟨h, by simp, ?_⟩
  intro a ha b hb u hu
  simp only [List.mem_singleton] at hb
  subst hb hu
  have : u ≠ t := by rintro rfl; exact ht ha
  rcases hx with ⟨r, rfl⟩ | rfl
  · simp [Ne.symm this]
  · simp [Ne.symm this]

theorem logged_keep {s s' : State} (g : Logged s) (k : Keep none s s') : Logged s' := by
  have := k.length
  refine ⟨fun t => ?_, by rw [k.log]; exact g.ready, by rw [k.log]; exact g.order⟩
  rw [k.log, g.dropped]
  constructor
  · rintro ⟨h1, h2⟩
    exact ⟨by omega, by rw [k.old t h1, h2]⟩
  · rintro ⟨h1, h2⟩
    by_cases ht : t < s.tasks.length
    · exact ⟨ht, by rw [← k.old t ht, h2]⟩
    · rw [k.new t (by omega) h1] at h2; simp at h2

theorem logged_ran {s s' : State} {t : Nat} (g : Logged s) (ht : t < s.tasks.length) (r : Ran t s s') : Logged s' := by
  have hl := r.length
  have others : ∀ u, u ≠ t → ((.dropped u ∈ s.log) ↔ u < s'.tasks.length ∧ own s' u = 0) := by
    intro u hu
    rw [g.dropped]
    constructor
    · rintro ⟨h1, h2⟩
      exact ⟨by omega, by rw [r.old u h1 hu, h2]⟩
    · rintro ⟨h1, h2⟩
      by_cases hut : u < s.tasks.length
      · exact ⟨hut, by rw [← r.old u hut hu, h2]⟩
      · rw [r.new u (by omega) h1] at h2; simp at h2
  rcases r.log with ⟨h1, h2, h3⟩ | ⟨h1, h2, h3⟩ | ⟨h1, h2, h3⟩
  · refine ⟨fun u => ?_, by rw [h3]; exact g.ready, by rw [h3]; exact g.order⟩
    rw [h3]
    by_cases hu : u = t
    · subst hu
      exact ⟨fun _ => ⟨by omega, h2⟩, fun _ => (g.dropped u).mpr ⟨ht, h1⟩⟩
    · exact others u hu
  · have hnot : Event.dropped t ∉ s.log := fun h => by have := ((g.dropped t).mp h).2; omega
    refine ⟨fun u => ?_, by rw [h3]; simpa using g.ready, by rw [h3]; exact logged_snoc g.order hnot (.inl ⟨_, rfl⟩)⟩
    rw [h3]
    simp only [List.mem_append, List.mem_singleton, reduceCtorEq, or_false]
    by_cases hu : u = t
    · subst hu
      exact ⟨fun h => absurd h hnot, fun h => by omega⟩
    · exact others u hu
  · have hnot : Event.dropped t ∉ s.log := fun h => by have := ((g.dropped t).mp h).2; omega
    refine ⟨fun u => ?_, fun u => by rw [h3]; simp [g.ready], ?_⟩
    · rw [h3]
      simp only [List.mem_append, List.mem_cons, List.not_mem_nil, or_false, reduceCtorEq, false_or, Event.dropped.injEq]
      by_cases hu : u = t
      · subst hu
        exact ⟨fun _ => ⟨by omega, h2⟩, fun _ => .inr rfl⟩
      · rw [← others u hu]
        simp [hu]
    · rw [h3, show s.log ++ [.polled t true, .dropped t] = (s.log ++ [.polled t true]) ++ [.dropped t] by simp]
      exact logged_snoc (logged_snoc g.order hnot (.inl ⟨_, rfl⟩)) (t := t) (by simp [hnot]) (.inr rfl)

theorem timer_lt {s : State} (i : Inv [] s) {t : Nat} (h : t ∈ s.timers) : t < s.tasks.length := by
  have := strong_timer i (.inl h)
  cases hg : s.get t with
  | none => simp only [strong, strongOf, hg] at this; omega
  | some x => exact get_lt hg

theorem run_ok (ops : List Op) : ∀ {s : State}, Inv [] s → Logged s → ∃ s', s.run ops = some s' ∧ Inv [] s' ∧ Logged s' := by
  induction ops with
  | nil => intro s i g; exact ⟨s, rfl, i, g⟩
  | cons op ops ih =>
    intro s i g
    obtain ⟨s1, e1, i1, h1⟩ := step_ok i op
    have g1 : Logged s1 := by
      rcases h1 with k | ⟨t, ht, r⟩
      · exact logged_keep g k
      · exact logged_ran g (timer_lt i ht) r
    obtain ⟨s2, e2, h2⟩ := ih i1 g1
    exact ⟨s2, by simp only [State.run, e1, Option.bind_eq_bind, Option.bind_some, e2], h2⟩

theorem inv_empty : Inv [] State.empty := by
  constructor
  · intro t; simp [strong, own, State.get, State.empty, strongOf, ownOf]
  · intro t x h; simp [State.get, State.empty] at h

theorem logged_empty : Logged State.empty := by
  constructor
  · intro t; simp [State.empty]
  · intro t; simp [State.empty]
  · simp [State.empty]

theorem get_none {s : State} (i : Inv [] s) (t : Nat) : s.get t = none ↔ own s t = 0 ∧ t ∉ s.timers ∧ t ∉ s.wakers := by
  have hc := i.count t
  simp only [List.count_nil] at hc
  constructor
  · intro h
    simp only [strong, strongOf, h] at hc
    exact ⟨by omega, List.count_eq_zero.mp (by omega), List.count_eq_zero.mp (by omega)⟩
  · rintro ⟨h1, h2, h3⟩
    rw [List.count_eq_zero.mpr h2, List.count_eq_zero.mpr h3, h1] at hc
    cases hg : s.get t with
    | none => rfl
    | some x =>
      have := i.pos t x hg
      simp only [strong, strongOf, hg] at hc
      omega

theorem run_append (ops ops' : List Op) : ∀ {s s' : State}, s.run ops = some s' → s.run (ops ++ ops') = s'.run ops' := by
  induction ops with
  | nil => intro s s' h; cases h; rfl
  | cons op ops ih =>
    intro s s' h
    simp only [State.run, Option.bind_eq_bind] at h
    simp only [List.cons_append, State.run, Option.bind_eq_bind]
    cases e : s.step op with
    | none => rw [e] at h; cases h
    | some s1 => rw [e] at h; exact ih h

theorem quiet_run {t : Nat} (ops : List Op) : ∀ {s : State}, Inv [] s → t < s.tasks.length → own s t = 1 → t ∉ s.timers → t ∉ s.wakers →
    ∃ s', s.run ops = some s' ∧ Inv [] s' ∧ own s' t = 1 ∧ (∀ r, s'.log.count (.polled t r) = s.log.count (.polled t r)) := by
  induction ops with
  | nil => intro s i _ ho _ _; exact ⟨s, rfl, i, ho, fun _ => rfl⟩
  | cons op ops ih =>
    intro s i hl ho h1 h2
    obtain ⟨s1, e1, i1, hk⟩ := step_ok i op
    have : t < s1.tasks.length ∧ own s1 t = 1 ∧ t ∉ s1.timers ∧ t ∉ s1.wakers ∧ (∀ r, s1.log.count (.polled t r) = s.log.count (.polled t r)) := by
      rcases hk with k | ⟨u, hu, r⟩
      · have := k.length
        have q := k.quiet t hl h1 h2 (by simp)
        exact ⟨by omega, by rw [k.old t hl, ho], q.1, q.2, fun _ => by rw [k.log]⟩
      · have := r.length
        have hut : t ≠ u := by rintro rfl; exact h1 hu
        have q := r.quiet t hl h1 h2 hut
        refine ⟨by omega, by rw [r.old t hl hut, ho], q.1, q.2, ?_⟩
        intro r'
        rcases r.log with ⟨-, -, e⟩ | ⟨-, -, e⟩ | ⟨-, -, e⟩ <;> rw [e] <;> simp [List.count_cons, Ne.symm hut]
    obtain ⟨g1, g2, g3, g4, g5⟩ := this
    obtain ⟨s2, e2, i2, o2, c2⟩ := ih i1 g1 g2 g3 g4
    exact ⟨s2, by simp only [State.run, e1, Option.bind_eq_bind, Option.bind_some, e2], i2, o2, fun r => by rw [c2, g5]⟩

/-! ## Theorems -/

/-- **C82** (part): whatever futures do with their wakers, nothing undefined happens. The memory of a task is given back when its future has been
dropped and no waker and no timer refers to it, and not before. A future is dropped when it is ready: once, and it is never polled afterwards. The full property says in
addition that the memory of a task is given back when nothing can wake it any more. -/
theorem C82_tasks_partial (ops : List Op) : ∃ s, State.empty.run ops = some s ∧
    (∀ t, t < s.tasks.length → (s.get t = none ↔ .dropped t ∈ s.log ∧ t ∉ s.timers ∧ t ∉ s.wakers)) ∧
    (∀ t, .polled t true ∈ s.log ↔ .dropped t ∈ s.log) ∧
    s.log.Pairwise (fun a b => ∀ t, a = .dropped t → (∀ r, b ≠ .polled t r) ∧ b ≠ .dropped t) := by
  obtain ⟨s, e, i, g⟩ := run_ok ops inv_empty logged_empty
  refine ⟨s, e, fun t ht => ?_, g.ready, g.order⟩
  rw [get_none i, g.dropped]
  simp [ht]

/-- Two tasks: the first one keeps a waker and spawns the second one, which finishes; then the first one is woken, finishes, and its last
waker is dropped. -/
example : (State.empty.run [.act .spawn, .fire 0 [.cloneOwn, .cloneOwn, .spawn] false [], .fire 0 [] true [], .act (.wake 0), .fire 0 [] true []]).map
      (fun s => (s.tasks, s.timers, s.wakers, s.log)) =
    some ([some ⟨1, false⟩, none], [], [0], [.polled 0 false, .polled 1 true, .dropped 1, .polled 0 true, .dropped 0]) ∧
  (State.empty.run [.act .spawn, .fire 0 [.cloneOwn, .cloneOwn, .spawn] false [], .fire 0 [] true [], .act (.wake 0), .fire 0 [] true [.drop 0]]).map
      (fun s => (s.tasks, s.timers, s.wakers)) = some ([none, none], [], []) := by
  decide +kernel

/-- **C82**, where it fails: a future that waits, and that nothing can wake any more, is kept with its memory for ever: the task has a waker of its own.
Such futures are never dropped, whatever the program does. -/
theorem C82_forgotten_violated (ops : List Op) (s : State) (h : State.empty.run ops = some s) (t : Nat) (ht : t < s.tasks.length)
    (hd : .dropped t ∉ s.log) (h1 : t ∉ s.timers) (h2 : t ∉ s.wakers) (ops' : List Op) :
    ∃ s', State.empty.run (ops ++ ops') = some s' ∧ s'.get t ≠ none ∧ .dropped t ∉ s'.log ∧ (∀ r, s'.log.count (.polled t r) = s.log.count (.polled t r)) := by
  obtain ⟨s0, e, i, g⟩ := run_ok ops inv_empty logged_empty
  rw [h] at e
  cases e
  have ho : own s t = 1 := by
    rw [g.dropped] at hd
    have : own s t ≠ 0 := fun h => hd ⟨ht, h⟩
    simp only [own, ownOf] at this ⊢
    split at this
    · split at this
      · rename_i h; simp [h]
      · simp at this
    · simp at this
  obtain ⟨s', e', i', o', c'⟩ := quiet_run ops' i ht ho h1 h2
  rw [run_append _ _ h]
  obtain ⟨s2, e2, -, g2⟩ := run_ok ops' i g
  rw [e'] at e2
  cases e2
  refine ⟨s', e', ?_, ?_, c'⟩
  · intro hn
    have := ((get_none i' t).mp hn).1
    omega
  · intro hm
    have := ((g2.dropped t).mp hm).2
    omega

/-- A future that waits without keeping its waker. -/
example : (State.empty.run [.act .spawn, .fire 0 [] false []]).map (fun s => (s.tasks, s.timers, s.wakers, s.log)) =
    some ([some ⟨1, true⟩], [], [], [.polled 0 false]) := by decide +kernel

end Verif.Unsafe.Tasks

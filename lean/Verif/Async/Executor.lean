import Mathlib.Data.List.Induction
import Mathlib.Data.List.Nodup
/-!
# The task executor (C39)

`crates/vertigo/src/driver_module/utils/futures_spawn.rs`, on top of `set_timeout_and_detach`
(`api_import.rs:214-264`).  A wake-up of a task asks the host for a timer of 0 ms whose callback polls the
task.  Futures are arbitrary: a poll carries the wake-ups and spawns the future performs and whether it is
ready.  The host is arbitrary: it fires any pending timer at any time, in any order.

Not modelled: reference counting of wakers, and a poll that makes the host call back before it returns
(the borrow of `futures_spawn.rs:77` would be taken twice).
-/

namespace Verif.Async

/-- What a running future, or anybody else holding a waker, may do. -/
inductive Act where
  | wake (t : Nat)
  | spawn

/-- What happens: somebody wakes or spawns a task, or the host fires its `i`-th pending timer.  If that
leads to a poll, the future performs `acts` and is ready or not. -/
inductive ExOp where
  | act (a : Act)
  | fire (i : Nat) (acts : List Act) (ready : Bool)

/-- What can be seen from outside. -/
inductive ExEvent where
  | spawned (t : Nat)
  | woken (t : Nat)
  | polled (t : Nat)
  | done (t : Nat)
  deriving DecidableEq

/-- Tasks (`futures_spawn.rs:18-26`: `live t` says that `inner` is `Some`), the callbacks registered for
timers with the task each of them runs, the timers pending in the host as pairs of handle and callback id,
and the events so far (the log is not part of the code). -/
structure Exec where
  nextTask : Nat
  live : Nat → Bool
  counter : Nat
  callbacks : Nat → Option Nat
  nextHandle : Nat
  timers : List (Nat × Nat)
  log : List ExEvent

/-- At the start there is nothing. -/
def Exec.new : Exec :=
  { nextTask := 0, live := fun _ => false, counter := 1, callbacks := fun _ => none, nextHandle := 1,
    timers := [], log := [] }

/-- `futures_spawn.rs:42-48` `wake_by_ref`: register a callback that runs the task and ask the host for a
timer (`api_import.rs:215-235`; the host numbers its timers).  There are wakers only for spawned tasks. -/
def Exec.wake (s : Exec) (t : Nat) : Exec :=
  if t < s.nextTask then
    { s with
      counter := s.counter + 1
      callbacks := fun c => if c = s.counter then some t else s.callbacks c
      nextHandle := s.nextHandle + 1
      timers := s.timers ++ [(s.nextHandle, s.counter)]
      log := s.log ++ [.woken t] }
  else s

/-- `futures_spawn.rs:29-40` `spawn`. -/
def Exec.spawn (s : Exec) : Exec :=
  Exec.wake { s with
    nextTask := s.nextTask + 1
    live := fun t => if t = s.nextTask then true else s.live t
    log := s.log ++ [.spawned s.nextTask] } s.nextTask

/-- One action. -/
def Exec.act (s : Exec) : Act → Exec
  | .wake t => s.wake t
  | .spawn => s.spawn

/-- The beginning of a poll (`futures_spawn.rs:83-86`). -/
def Exec.poll (s : Exec) (t : Nat) : Exec := { s with log := s.log ++ [.polled t] }

/-- The future is ready: `futures_spawn.rs:88-90`. -/
def Exec.finish (s : Exec) (t : Nat) : Exec :=
  { s with live := fun i => if i = t then false else s.live i, log := s.log ++ [.done t] }

/-- `futures_spawn.rs:76-92` `run`. -/
def Exec.run (s : Exec) (t : Nat) (acts : List Act) (ready : Bool) : Exec :=
  if s.live t then
    let s' := acts.foldl Exec.act (s.poll t)
    if ready then s'.finish t else s'
  else s

/-- `api_import.rs:239-247`: clear the timer and drop the callback. -/
def Exec.clear (s : Exec) (handle c : Nat) : Exec :=
  { s with
    timers := s.timers.filter fun x => x.1 != handle
    callbacks := fun i => if i = c then none else s.callbacks i }

/-- The host fires a timer: the timer is gone, and the callback is called (`callbacks.rs:89-99`).  The
callback (`api_import.rs:256-259`) runs the task and then drops its own resources. -/
def Exec.fire (s : Exec) (i : Nat) (acts : List Act) (ready : Bool) : Exec :=
  match s.timers[i]? with
  | none => s
  | some (handle, c) =>
    let s := { s with timers := s.timers.eraseIdx i }
    match s.callbacks c with
    | none => s
    | some t => (s.run t acts ready).clear handle c

/-- One operation. -/
def Exec.step (s : Exec) : ExOp → Exec
  | .act a => s.act a
  | .fire i acts ready => s.fire i acts ready

/-- A whole execution. -/
def execution (ops : List ExOp) : Exec := ops.foldl Exec.step Exec.new

/-! ## Proof -/

/-- Some pending timer will poll task `t`. -/
def Exec.Pending (s : Exec) (t : Nat) : Prop := ∃ x ∈ s.timers, s.callbacks x.2 = some t

/-- The invariant. -/
structure Exec.Ok (s : Exec) : Prop where
  wakes : ∀ a b t, s.log = a ++ .woken t :: b → .polled t ∈ b ∨ .done t ∈ s.log ∨ s.Pending t
  over : ∀ a b t, s.log = a ++ .done t :: b → .polled t ∉ b
  dead : ∀ t, .done t ∈ s.log → s.live t = false
  gone : ∀ t, t < s.nextTask → s.live t = false → .done t ∈ s.log
  task : ∀ t, s.nextTask ≤ t → s.live t = false
  unborn : ∀ t, s.nextTask ≤ t → .done t ∉ s.log
  known : ∀ c t, s.callbacks c = some t → t < s.nextTask
  fresh : ∀ c, s.counter ≤ c → s.callbacks c = none
  handles : (s.timers.map Prod.fst).Nodup
  ids : (s.timers.map Prod.snd).Nodup
  below : ∀ x ∈ s.timers, x.1 < s.nextHandle ∧ x.2 < s.counter
  served : ∀ x ∈ s.timers, (s.callbacks x.2).isSome

theorem Exec.new_ok : Exec.new.Ok := by
  refine ⟨?_, ?_, ?_, ?_, ?_, ?_, ?_, ?_, ?_, ?_, ?_, ?_⟩ <;> simp [Exec.new]

/-- Appending one event to a log. -/
theorem snoc_split {a b : List ExEvent} {l : List ExEvent} {e x : ExEvent} (h : l ++ [x] = a ++ e :: b) :
    (∃ b', b = b' ++ [x] ∧ l = a ++ e :: b') ∨ (b = [] ∧ e = x ∧ a = l) := by
  rcases List.eq_nil_or_concat b with rfl | ⟨b', y, rfl⟩
  · right
    have := List.append_inj' h rfl
    simp only [List.cons.injEq, and_true] at this
    exact ⟨rfl, this.2.symm, this.1.symm⟩
  · left
    rw [List.concat_eq_append] at h ⊢
    have e' : a ++ e :: (b' ++ [y]) = (a ++ e :: b') ++ [y] := by simp
    rw [e'] at h
    have := List.append_inj' h rfl
    simp only [List.cons.injEq, and_true] at this
    exact ⟨b', by rw [this.2], this.1⟩

theorem Exec.wake_ok (s : Exec) (t : Nat) (h : s.Ok) : (s.wake t).Ok := by
  unfold Exec.wake
  split
  case isFalse => exact h
  case isTrue ht =>
    have hold : ∀ x ∈ s.timers, x.2 ≠ s.counter := fun x hx => Nat.ne_of_lt (h.below x hx).2
    have keep : ∀ u, s.Pending u → ∃ x ∈ s.timers ++ [(s.nextHandle, s.counter)],
        (if x.2 = s.counter then some t else s.callbacks x.2) = some u := by
      rintro u ⟨x, hx, hc⟩
      exact ⟨x, List.mem_append_left _ hx, by rw [if_neg (hold x hx), hc]⟩
    refine ⟨?_, ?_, ?_, ?_, h.task, ?_, ?_, ?_, ?_, ?_, ?_, ?_⟩
    · intro a b u e
      rcases snoc_split e with ⟨b', rfl, hl⟩ | ⟨rfl, hx, rfl⟩
      · rcases h.wakes a b' u hl with h1 | h1 | h1
        · left; simp [h1]
        · right; left; exact List.mem_append_left _ h1
        · right; right; exact keep u h1
      · injection hx with hx
        subst hx
        right; right
        exact ⟨(s.nextHandle, s.counter), by simp, by simp⟩
    · intro a b u e
      rcases snoc_split e with ⟨b', rfl, hl⟩ | ⟨_, hx, _⟩
      · simpa using h.over a b' u hl
      · simp at hx
    · intro u hu; exact h.dead u (by simpa using hu)
    · intro u hu hl; simpa using h.gone u hu hl
    · intro u hu; simpa using h.unborn u hu
    · intro c u hc
      simp only at hc
      split at hc
      · injection hc with hc; subst hc; exact ht
      · exact h.known c u hc
    · intro c hc
      simp only at hc ⊢
      rw [if_neg (by omega)]
      exact h.fresh c (by omega)
    · rw [List.map_append, List.nodup_append]
      refine ⟨h.handles, by simp, ?_⟩
      rintro x hx y hy
      simp at hy; subst hy
      obtain ⟨z, hz, rfl⟩ := List.mem_map.1 hx
      exact Nat.ne_of_lt (h.below z hz).1
    · rw [List.map_append, List.nodup_append]
      refine ⟨h.ids, by simp, ?_⟩
      rintro x hx y hy
      simp at hy; subst hy
      obtain ⟨z, hz, rfl⟩ := List.mem_map.1 hx
      exact Nat.ne_of_lt (h.below z hz).2
    · intro x hx
      rcases List.mem_append.1 hx with hx | hx
      · exact ⟨Nat.lt_succ_of_lt (h.below x hx).1, Nat.lt_succ_of_lt (h.below x hx).2⟩
      · simp at hx; subst hx; exact ⟨Nat.lt_succ_self _, Nat.lt_succ_self _⟩
    · intro x hx
      simp only
      rcases List.mem_append.1 hx with hx | hx
      · rw [if_neg (hold x hx)]; exact h.served x hx
      · simp at hx; subst hx; simp

theorem Exec.spawn_ok (s : Exec) (h : s.Ok) : s.spawn.Ok := by
  unfold Exec.spawn
  apply Exec.wake_ok
  refine ⟨?_, ?_, ?_, ?_, ?_, ?_, ?_, h.fresh, h.handles, h.ids, h.below, h.served⟩
  · intro a b u e
    rcases snoc_split e with ⟨b', rfl, hl⟩ | ⟨_, hx, _⟩
    · rcases h.wakes a b' u hl with h1 | h1 | h1
      · left; simp [h1]
      · right; left; exact List.mem_append_left _ h1
      · right; right; exact h1
    · simp at hx
  · intro a b u e
    rcases snoc_split e with ⟨b', rfl, hl⟩ | ⟨_, hx, _⟩
    · simpa using h.over a b' u hl
    · simp at hx
  · intro u hu
    have hu' : ExEvent.done u ∈ s.log := by simpa using hu
    have hne : u ≠ s.nextTask := by
      rintro rfl; exact h.unborn _ (Nat.le_refl _) hu'
    simp only [if_neg hne]
    exact h.dead u hu'
  · intro u hu hl
    simp only at hl hu
    split at hl
    · simp at hl
    · simpa using h.gone u (by omega) hl
  · intro u hu
    simp only at hu ⊢
    rw [if_neg (by omega)]; exact h.task u (by omega)
  · intro u hu
    simp only at hu
    simpa using h.unborn u (by omega)
  · intro c u hc; exact Nat.lt_succ_of_lt (h.known c u hc)

theorem Exec.act_ok (s : Exec) (a : Act) (h : s.Ok) : (s.act a).Ok := by
  cases a with
  | wake t => exact s.wake_ok t h
  | spawn => exact s.spawn_ok h

/-- What an action leaves alone. -/
structure Keeps (s s' : Exec) : Prop where
  live : ∀ t, s.live t = true → s'.live t = true
  handle : ∀ x ∈ s'.timers, x ∈ s.timers ∨ (s.nextHandle ≤ x.1 ∧ s.counter ≤ x.2)
  nextHandle : s.nextHandle ≤ s'.nextHandle
  counter : s.counter ≤ s'.counter

theorem Keeps.refl (s : Exec) : Keeps s s :=
  ⟨fun _ h => h, fun _ h => .inl h, Nat.le_refl _, Nat.le_refl _⟩

theorem Keeps.trans {s s' s'' : Exec} (h : Keeps s s') (h' : Keeps s' s'') : Keeps s s'' := by
  refine ⟨fun t ht => h'.live t (h.live t ht), ?_, Nat.le_trans h.nextHandle h'.nextHandle,
    Nat.le_trans h.counter h'.counter⟩
  intro x hx
  rcases h'.handle x hx with hx | hx
  · exact h.handle x hx
  · exact .inr ⟨Nat.le_trans h.nextHandle hx.1, Nat.le_trans h.counter hx.2⟩

theorem Exec.wake_keeps (s : Exec) (t : Nat) : Keeps s (s.wake t) := by
  unfold Exec.wake
  split
  · refine ⟨fun _ h => h, ?_, Nat.le_succ _, Nat.le_succ _⟩
    intro x hx
    rcases List.mem_append.1 hx with hx | hx
    · exact .inl hx
    · simp at hx; subst hx; exact .inr ⟨Nat.le_refl _, Nat.le_refl _⟩
  · exact .refl s

theorem Exec.spawn_keeps (s : Exec) : Keeps s s.spawn := by
  unfold Exec.spawn
  refine Keeps.trans ?_ (Exec.wake_keeps _ _)
  refine ⟨fun t h => ?_, fun _ h => .inl h, Nat.le_refl _, Nat.le_refl _⟩
  simp only
  split
  · rfl
  · exact h

theorem Exec.acts_keep (acts : List Act) : ∀ s : Exec, s.Ok →
    Keeps s (acts.foldl Exec.act s) ∧ (acts.foldl Exec.act s).Ok := by
  induction acts with
  | nil => exact fun s h => ⟨.refl s, h⟩
  | cons a acts ih =>
    intro s h
    obtain ⟨h1, h2⟩ := ih (s.act a) (s.act_ok a h)
    refine ⟨Keeps.trans ?_ h1, h2⟩
    cases a with
    | wake t => exact s.wake_keeps t
    | spawn => exact s.spawn_keeps

theorem Exec.finish_ok (s : Exec) (t : Nat) (h : s.Ok) (ht : t < s.nextTask) : (s.finish t).Ok := by
  refine ⟨?_, ?_, ?_, ?_, ?_, ?_, h.known, h.fresh, h.handles, h.ids, h.below, h.served⟩
  · intro a b u e
    rcases snoc_split e with ⟨b', rfl, hl⟩ | ⟨_, hx, _⟩
    · rcases h.wakes a b' u hl with h1 | h1 | h1
      · left; simp [h1]
      · right; left; exact List.mem_append_left _ h1
      · right; right; exact h1
    · simp at hx
  · intro a b u e
    rcases snoc_split e with ⟨b', rfl, hl⟩ | ⟨rfl, _, _⟩
    · simpa using h.over a b' u hl
    · simp
  · intro u hu
    show (if u = t then false else s.live u) = false
    split
    · rfl
    · rename_i hne
      refine h.dead u ?_
      have : ExEvent.done u ∈ s.log ++ [.done t] := hu
      simpa [hne] using this
  · intro u hu hl
    show ExEvent.done u ∈ s.log ++ [.done t]
    by_cases hne : u = t
    · simp [hne]
    · have hl' : (if u = t then false else s.live u) = false := hl
      rw [if_neg hne] at hl'
      exact List.mem_append_left _ (h.gone u hu hl')
  · intro u hu
    show (if u = t then false else s.live u) = false
    split
    · rfl
    · exact h.task u hu
  · intro u hu hmem
    have hmem' : ExEvent.done u ∈ s.log ++ [.done t] := hmem
    have hu' : s.nextTask ≤ u := hu
    have hne : u ≠ t := by omega
    exact h.unborn u hu' (by simpa [hne] using hmem')

/-- Dropping a callback that no timer refers to, and a handle that no timer has. -/
theorem Exec.clear_ok (s : Exec) (handle c : Nat) (h : s.Ok) (h1 : ∀ x ∈ s.timers, x.1 ≠ handle)
    (h2 : ∀ x ∈ s.timers, x.2 ≠ c) : (s.clear handle c).Ok ∧ (s.clear handle c).timers = s.timers := by
  have ht : (s.clear handle c).timers = s.timers := by
    show s.timers.filter _ = _
    exact List.filter_eq_self.2 fun x hx => by simpa using h1 x hx
  have hc : ∀ x ∈ s.timers, (s.clear handle c).callbacks x.2 = s.callbacks x.2 := fun x hx => by
    show (if x.2 = c then none else s.callbacks x.2) = _
    rw [if_neg (h2 x hx)]
  refine ⟨⟨?_, h.over, h.dead, h.gone, h.task, h.unborn, ?_, ?_, ?_, ?_, ?_, ?_⟩, ht⟩
  · intro a b u e
    rcases h.wakes a b u e with g | g | ⟨x, hx, g⟩
    · exact .inl g
    · exact .inr (.inl g)
    · exact .inr (.inr ⟨x, ht ▸ hx, by rw [hc x hx, g]⟩)
  · intro i u hi
    have hi' : (if i = c then none else s.callbacks i) = some u := hi
    split at hi'
    · simp at hi'
    · exact h.known i u hi'
  · intro i hi
    show (if i = c then none else s.callbacks i) = none
    split
    · rfl
    · exact h.fresh i hi
  · rw [ht]; exact h.handles
  · rw [ht]; exact h.ids
  · rw [ht]; exact h.below
  · rw [ht]; intro x hx; rw [hc x hx]; exact h.served x hx

theorem Exec.fire_ok (s : Exec) (i : Nat) (acts : List Act) (ready : Bool) (h : s.Ok) :
    (s.fire i acts ready).Ok := by
  unfold Exec.fire
  cases hi : s.timers[i]? with
  | none => exact h
  | some x =>
    obtain ⟨handle, c⟩ := x
    have hmem : (handle, c) ∈ s.timers := List.mem_of_getElem? hi
    obtain ⟨t, hc⟩ := Option.isSome_iff_exists.1 (h.served _ hmem)
    simp only at hc
    dsimp only
    rw [hc]
    dsimp only
    have hil : i < s.timers.length := by
      by_contra hge
      rw [List.getElem?_eq_none (Nat.le_of_not_lt hge)] at hi
      simp at hi
    have hsplit : s.timers = s.timers.take i ++ (handle, c) :: s.timers.drop (i + 1) := by
      have : s.timers[i] = (handle, c) := by
        rw [List.getElem?_eq_getElem hil] at hi; injection hi
      conv => lhs; rw [← List.take_append_drop i s.timers, List.drop_eq_getElem_cons hil, this]
    have herase : s.timers.eraseIdx i = s.timers.take i ++ s.timers.drop (i + 1) :=
      List.eraseIdx_eq_take_drop_succ ..
    generalize hA : s.timers.take i = A at *
    generalize hB : s.timers.drop (i + 1) = B at *
    have hnh := h.handles
    have hni := h.ids
    rw [hsplit] at hnh hni
    simp only [List.map_append, List.map_cons, List.nodup_append, List.nodup_cons] at hnh hni
    have hno1 : ∀ x ∈ A ++ B, x.1 ≠ handle := by
      intro x hx
      rcases List.mem_append.1 hx with hx | hx
      · exact hnh.2.2 x.1 (List.mem_map_of_mem hx) handle (by simp)
      · intro he
        exact hnh.2.1.1 (he ▸ List.mem_map_of_mem hx)
    have hno2 : ∀ x ∈ A ++ B, x.2 ≠ c := by
      intro x hx
      rcases List.mem_append.1 hx with hx | hx
      · exact hni.2.2 x.2 (List.mem_map_of_mem hx) c (by simp)
      · intro he
        exact hni.2.1.1 (he ▸ List.mem_map_of_mem hx)
    have hsub : List.Sublist (A ++ B) s.timers := by rw [hsplit]; simp
    have hin : ∀ x ∈ s.timers, x = (handle, c) ∨ x ∈ A ++ B := by
      intro x hx
      rw [hsplit] at hx
      rcases List.mem_append.1 hx with hx | hx
      · exact .inr (List.mem_append_left _ hx)
      · rcases List.mem_cons.1 hx with hx | hx
        · exact .inl hx
        · exact .inr (List.mem_append_right _ hx)
    rw [herase]
    have htask : t < s.nextTask := h.known c t hc
    -- the state without the timer
    have hbase : ∀ log : List ExEvent,
        (∀ a b u, log = a ++ .woken u :: b → .polled u ∈ b ∨ .done u ∈ log ∨
          ∃ x ∈ A ++ B, s.callbacks x.2 = some u) →
        (∀ a b u, log = a ++ .done u :: b → .polled u ∉ b) →
        (∀ u, .done u ∈ log ↔ .done u ∈ s.log) →
        ({ s with timers := A ++ B, log := log } : Exec).Ok := by
      intro log hw ho hd
      refine ⟨hw, ho, ?_, ?_, h.task, ?_, h.known, h.fresh, ?_, ?_, ?_, ?_⟩
      · exact fun u hu => h.dead u ((hd u).1 hu)
      · exact fun u hu hl => (hd u).2 (h.gone u hu hl)
      · exact fun u hu hm => h.unborn u hu ((hd u).1 hm)
      · exact h.handles.sublist (hsub.map _)
      · exact h.ids.sublist (hsub.map _)
      · exact fun x hx => h.below x (hsub.subset hx)
      · exact fun x hx => h.served x (hsub.subset hx)
    unfold Exec.run
    dsimp only
    by_cases hl : s.live t = true
    · rw [if_pos hl]
      have hpoll : ({ s with timers := A ++ B, log := s.log ++ [.polled t] } : Exec).Ok := by
        apply hbase
        · intro a b u e
          rcases snoc_split e with ⟨b', rfl, hlog⟩ | ⟨_, hx, _⟩
          · rcases h.wakes a b' u hlog with g | g | ⟨x, hx, g⟩
            · left; simp [g]
            · right; left; simp [g]
            · rcases hin x hx with rfl | hx
              · simp only at g
                rw [hc] at g
                injection g with g
                subst g
                left; simp
              · exact .inr (.inr ⟨x, hx, g⟩)
          · simp at hx
        · intro a b u e
          rcases snoc_split e with ⟨b', rfl, hlog⟩ | ⟨_, hx, _⟩
          · have := h.over a b' u hlog
            have hne : u ≠ t := by
              rintro rfl
              have := h.dead u (by rw [hlog]; simp)
              rw [hl] at this; simp at this
            simp [this, hne]
          · simp at hx
        · intro u; simp
      obtain ⟨k1, k2⟩ := Exec.acts_keep acts _ hpoll
      have e : ({ s with timers := A ++ B } : Exec).poll t =
          { s with timers := A ++ B, log := s.log ++ [.polled t] } := rfl
      rw [e]
      generalize hs2 : acts.foldl Exec.act
        { s with timers := A ++ B, log := s.log ++ [.polled t] } = s2 at k1 k2
      have hl2 : s2.live t = true := k1.live t hl
      have htask2 : t < s2.nextTask := by
        by_contra hge
        have := k2.task t (Nat.le_of_not_lt hge)
        rw [hl2] at this; simp at this
      have g1 : ∀ x ∈ s2.timers, x.1 ≠ handle := by
        intro x hx
        rcases k1.handle x hx with hx | hx
        · exact hno1 x hx
        · have : handle < s.nextHandle := (h.below _ hmem).1
          have h2 : s.nextHandle ≤ x.1 := hx.1
          omega
      have g2 : ∀ x ∈ s2.timers, x.2 ≠ c := by
        intro x hx
        rcases k1.handle x hx with hx | hx
        · exact hno2 x hx
        · have : c < s.counter := (h.below _ hmem).2
          have h2 : s.counter ≤ x.2 := hx.2
          omega
      cases ready with
      | true => exact (Exec.clear_ok _ _ _ (s2.finish_ok t k2 htask2) g1 g2).1
      | false => exact (Exec.clear_ok _ _ _ k2 g1 g2).1
    · rw [if_neg hl]
      have hdone : ExEvent.done t ∈ s.log := h.gone t htask (by simpa using hl)
      refine (Exec.clear_ok _ _ _ (hbase s.log ?_ h.over (fun _ => Iff.rfl)) hno1 hno2).1
      intro a b u e
      rcases h.wakes a b u e with g | g | ⟨x, hx, g⟩
      · exact .inl g
      · exact .inr (.inl g)
      · rcases hin x hx with rfl | hx
        · simp only at g
          rw [hc] at g
          injection g with g
          subst g
          exact .inr (.inl hdone)
        · exact .inr (.inr ⟨x, hx, g⟩)

theorem execution_ok (ops : List ExOp) : (execution ops).Ok := by
  unfold execution
  induction ops using List.reverseRecOn with
  | nil => exact Exec.new_ok
  | append_singleton ops op ih =>
    rw [List.foldl_append]
    cases op with
    | act a => exact Exec.act_ok _ a ih
    | fire i acts ready => exact Exec.fire_ok _ i acts ready ih

/-- **C39** (no wake-up is lost).  In every execution, whatever the futures do and in whatever order the
host fires its timers: once the host has no timer left, every wake-up of a task has been followed by a poll
of that task, unless the task has completed. -/
theorem C39_no_lost_wakeup (ops : List ExOp) (h : (execution ops).timers = [])
    (a b : List ExEvent) (t : Nat) (hlog : (execution ops).log = a ++ .woken t :: b) :
    .polled t ∈ b ∨ .done t ∈ (execution ops).log := by
  rcases (execution_ok ops).wakes a b t hlog with g | g | ⟨x, hx, _⟩
  · exact .inl g
  · exact .inr g
  · rw [h] at hx; simp at hx

/-- **C39** (at any moment).  While timers are pending: a wake-up has been followed by a poll, or its task
has completed, or there is a pending timer that polls the task as soon as the host fires it. -/
theorem C39_pending (ops : List ExOp) (a b : List ExEvent) (t : Nat)
    (hlog : (execution ops).log = a ++ .woken t :: b) :
    .polled t ∈ b ∨ .done t ∈ (execution ops).log ∨
      ∃ i < (execution ops).timers.length, ∀ acts ready, ∃ rest,
        ((execution ops).step (.fire i acts ready)).log = (execution ops).log ++ .polled t :: rest := by
  have hok := execution_ok ops
  rcases hok.wakes a b t hlog with g | g | ⟨x, hx, hc⟩
  · exact .inl g
  · exact .inr (.inl g)
  · right
    by_cases hd : ExEvent.done t ∈ (execution ops).log
    · exact .inl hd
    · right
      obtain ⟨i, hi, hx'⟩ := List.getElem_of_mem hx
      refine ⟨i, hi, ?_⟩
      intro acts ready
      have hl : (execution ops).live t = true := by
        by_contra hl
        exact hd (hok.gone t (hok.known _ _ hc) (by simpa using hl))
      have mono : ∀ (acts : List Act) (s : Exec), ∃ r, (acts.foldl Exec.act s).log = s.log ++ r := by
        intro acts
        induction acts with
        | nil => exact fun s => ⟨[], by simp⟩
        | cons a acts ih =>
          intro s
          obtain ⟨r, hr⟩ := ih (s.act a)
          have : ∃ r', (s.act a).log = s.log ++ r' := by
            cases a with
            | wake u =>
              simp only [Exec.act, Exec.wake]
              split
              · exact ⟨_, rfl⟩
              · exact ⟨[], by simp⟩
            | spawn =>
              simp only [Exec.act, Exec.spawn, Exec.wake]
              rw [if_pos (Nat.lt_succ_self _)]
              exact ⟨[.spawned s.nextTask, .woken s.nextTask], by simp⟩
          obtain ⟨r', hr'⟩ := this
          exact ⟨r' ++ r, by rw [List.foldl_cons, hr, hr', List.append_assoc]⟩
      simp only [Exec.step, Exec.fire]
      rw [List.getElem?_eq_getElem hi, hx']
      dsimp only
      rw [hc]
      dsimp only [Exec.run]
      rw [if_pos hl]
      obtain ⟨r, hr⟩ := mono acts
        (({ execution ops with timers := (execution ops).timers.eraseIdx i } : Exec).poll t)
      have hr' : (acts.foldl Exec.act (({ execution ops with
          timers := (execution ops).timers.eraseIdx i } : Exec).poll t)).log =
          (execution ops).log ++ .polled t :: r := by rw [hr]; simp [Exec.poll]
      cases ready with
      | true => exact ⟨r ++ [.done t], by simp [Exec.clear, Exec.finish, hr']⟩
      | false => exact ⟨r, by simp [Exec.clear, hr']⟩

/-- **C39** (completed tasks).  A task that has completed is never polled again. -/
theorem C39_completed (ops : List ExOp) (a b : List ExEvent) (t : Nat)
    (hlog : (execution ops).log = a ++ .done t :: b) : .polled t ∉ b :=
  (execution_ok ops).over a b t hlog

/-- Task 0 is spawned; polled first, it spawns task 1 and wakes itself; the host then fires the timers of
both in the other order; task 1 wakes task 0 (two wake-ups pending) and completes; task 0 completes at the
next timer, and the last timer finds it completed. -/
def exampleRun : List ExOp :=
  [.act .spawn, .fire 0 [.spawn, .wake 0] false, .fire 0 [.wake 0] true, .fire 0 [] true, .fire 0 [] false]

example : (execution exampleRun).timers = [] ∧
    (execution exampleRun).log =
      [.spawned 0, .woken 0, .polled 0, .spawned 1, .woken 1, .woken 0, .polled 1, .woken 0, .done 1,
        .polled 0, .done 0] := by decide

end Verif.Async

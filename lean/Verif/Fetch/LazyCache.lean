import Verif.Fetch.Resource
import Mathlib.Data.List.Induction
/-!
# LazyCache (C35)

`crates/vertigo/src/fetch/lazy_cache.rs`.  The background work of `update` is a task of the executor (C39):
it is polled for the first time some time after `update` has returned (`run`), and it goes on when the
answer to its request arrives (`complete`).  All of this, the clock and the calls of the application
interleave arbitrarily.

A time is a number of milliseconds; the clock never goes back (`instant.rs:7`) and sums of times do not
overflow.  The reactive graph around the value (who re-reads it when) is the subject of C01 to C09.
-/

namespace Verif.Fetch

/-- `lazy_cache.rs:21-27`. -/
inductive ApiResponse (T : Type) where
  | uninitialized
  | data (value : Resource T) (expiry : Option Nat)

variable {T : Type}

/-- `lazy_cache.rs:34-39` `new_loading`. -/
def ApiResponse.newLoading : ApiResponse T := .data .loading none

/-- `lazy_cache.rs:41-46` `get_value`. -/
def ApiResponse.getValue : ApiResponse T → Resource T
  | .uninitialized => .loading
  | .data value _ => value

/-- `lazy_cache.rs:48-59` `needs_update`, with `instant.rs:47-49` `is_expire`: `now > instant`. -/
def ApiResponse.needsUpdate (now : Nat) : ApiResponse T → Bool
  | .uninitialized => true
  | .data _ none => false
  | .data _ (some expiry) => now > expiry

/-- The background work of one `update` (`lazy_cache.rs:184-218`): not yet polled, or waiting for the
answer to its request, or waiting for an answer that will not come. -/
inductive Work where
  | spawned (withLoading force : Bool)
  | waiting
  | abandoned

/-- What can be seen from outside, with the time where it matters. -/
inductive LcEvent (T : Type) where
  | read (value : Resource T)
  | started
  | sent
  | completed (result : Except String T) (time : Nat)
  | lost
  | unneeded
  | forgot
  | shownLoading

/-- `lazy_cache.rs:110-116`: the value and the lock, with the background tasks, the clock and the events so
far (the log is not part of the code). -/
structure LazyCache (T : Type) where
  value : ApiResponse T
  queued : Bool
  works : List Work
  now : Nat
  log : List (LcEvent T)

/-- What happens. -/
inductive LcOp (T : Type) where
  /-- the application reads the value -/
  | read
  /-- the application calls `forget` -/
  | forget
  /-- the application calls `update` (`force_update` is `update` with `force = true`) -/
  | update (withLoading force : Bool)
  /-- the executor polls task `i` for the first time -/
  | run (i : Nat)
  /-- the answer for task `i` arrives: a value, or an error message -/
  | complete (i : Nat) (result : Except String T)
  /-- the answer for task `i` arrives in a form that cannot be decoded (`api_import.rs:502-505`) and the
  sender of the future is dropped without having published anything, or the browser rejects a header name
  (`fetch.ts:120`: the exception is outside of the `try`) and never calls back -/
  | lose (i : Nat)
  /-- time passes -/
  | tick (ms : Nat)

/-- `lazy_cache.rs:139-150` `new`. -/
def LazyCache.new : LazyCache T :=
  { value := .uninitialized, queued := false, works := [], now := 0, log := [] }

/-- `lazy_cache.rs:174-184` `update`: take the lock and spawn the background task. -/
def LazyCache.update (s : LazyCache T) (withLoading force : Bool) : LazyCache T :=
  if s.queued then s
  else
    { s with
      queued := true
      works := s.works ++ [.spawned withLoading force]
      log := s.log ++ [.started] }

/-- `lazy_cache.rs:153-161` `get`. -/
def LazyCache.read (s : LazyCache T) : LazyCache T :=
  let apiResponse := s.value
  let s := { s with log := s.log ++ [.read apiResponse.getValue] }
  if !s.queued && apiResponse.needsUpdate s.now then s.update false false else s

/-- `lazy_cache.rs:164-166` `forget`. -/
def LazyCache.forget (s : LazyCache T) : LazyCache T :=
  { s with value := .uninitialized, log := s.log ++ [.forgot] }

/-- `lazy_cache.rs:193-199`: show that it is loading if asked for, and send the request. -/
def LazyCache.send (s : LazyCache T) (i : Nat) (withLoading : Bool) : LazyCache T :=
  let s := if withLoading then
    { s with value := .newLoading, log := s.log ++ [.shownLoading] } else s
  { s with works := s.works.set i .waiting, log := s.log ++ [.sent] }

/-- `lazy_cache.rs:185-201` and, when there is nothing to do, `216-217`: the first poll of the task. -/
def LazyCache.run (s : LazyCache T) (i : Nat) : LazyCache T :=
  match s.works[i]? with
  | some (.spawned withLoading force) =>
    if !s.queued then { s with works := s.works.eraseIdx i }
    else if force || s.value.needsUpdate s.now then s.send i withLoading
    else { s with queued := false, works := s.works.eraseIdx i, log := s.log ++ [.unneeded] }
  | _ => s

/-- `lazy_cache.rs:203-206`. -/
def toResource : Except String T → Resource T
  | .ok value => .ready value
  | .error message => .error message

/-- `lazy_cache.rs:201-217`: the answer arrives; `ttl` is the time to live of the request. -/
def LazyCache.complete (ttl : Option Nat) (s : LazyCache T) (i : Nat) (result : Except String T) :
    LazyCache T :=
  match s.works[i]? with
  | some .waiting =>
    { s with
      value := .data (toResource result) (ttl.map (s.now + ·))
      queued := false
      works := s.works.eraseIdx i
      log := s.log ++ [.completed result s.now] }
  | _ => s

/-- `api_import.rs:502-505`: nothing is published, so the task waits for ever. -/
def LazyCache.lose (s : LazyCache T) (i : Nat) : LazyCache T :=
  match s.works[i]? with
  | some .waiting => { s with works := s.works.set i .abandoned, log := s.log ++ [.lost] }
  | _ => s

/-- One operation. -/
def LazyCache.step (ttl : Option Nat) (s : LazyCache T) : LcOp T → LazyCache T
  | .read => s.read
  | .forget => s.forget
  | .update withLoading force => s.update withLoading force
  | .run i => s.run i
  | .complete i result => s.complete ttl i result
  | .lose i => s.lose i
  | .tick ms => { s with now := s.now + ms }

/-- A history of a new cache. -/
def lazyCache (ttl : Option Nat) (ops : List (LcOp T)) : LazyCache T :=
  ops.foldl (LazyCache.step ttl) LazyCache.new

/-! ## Specification: what the events say -/

/-- What the cache holds, and until when it is fresh (`none`: for ever).  The last completed request
counts; `forget` discards it, and a forced update may replace it by the loading state. -/
def holds (ttl : Option Nat) (log : List (LcEvent T)) : Option (Resource T × Option Nat) :=
  log.foldl (fun acc e => match e with
    | .completed (.ok value) time => some (.ready value, ttl.map (time + ·))
    | .completed (.error message) time => some (.error message, ttl.map (time + ·))
    | .forgot => none
    | .shownLoading => some (.loading, none)
    | _ => acc) none

/-- An update has been started and neither has its request been answered (or lost), nor has it turned out
that no request is needed. -/
def inFlight (log : List (LcEvent T)) : Bool :=
  log.foldl (fun acc e => match e with
    | .started => true
    | .completed _ _ => false
    | .lost => false
    | .unneeded => false
    | _ => acc) false

/-- Absent or expired. -/
def stale (now : Nat) : Option (Resource T × Option Nat) → Bool
  | none => true
  | some (_, none) => false
  | some (_, some expiry) => expiry < now

/-- What a reader sees: the loading state while there is nothing. -/
def seen : Option (Resource T × Option Nat) → Resource T
  | none => .loading
  | some (value, _) => value

/-- The time: the sum of all ticks. -/
def clock (ops : List (LcOp T)) : Nat :=
  (ops.map fun | .tick ms => ms | _ => 0).sum

/-- No answer is lost. -/
def NoLoss (ops : List (LcOp T)) : Prop := ∀ i, LcOp.lose i ∉ ops

/-! ## Proof -/

/-- What the value of the cache stands for. -/
def ApiResponse.held : ApiResponse T → Option (Resource T × Option Nat)
  | .uninitialized => none
  | .data value expiry => some (value, expiry)

theorem needsUpdate_eq (now : Nat) (r : ApiResponse T) : r.needsUpdate now = stale now r.held := by
  cases r with
  | uninitialized => rfl
  | data v e => cases e <;> rfl

theorem getValue_eq (r : ApiResponse T) : r.getValue = seen r.held := by
  cases r <;> rfl

theorem holds_snoc (ttl : Option Nat) (log : List (LcEvent T)) (e : LcEvent T) :
    holds ttl (log ++ [e]) = (match e with
      | .completed (.ok value) time => some (.ready value, ttl.map (time + ·))
      | .completed (.error message) time => some (.error message, ttl.map (time + ·))
      | .forgot => none
      | .shownLoading => some (.loading, none)
      | _ => holds ttl log) := by
  unfold holds
  rw [List.foldl_append]
  cases e <;> rfl

theorem inFlight_snoc (log : List (LcEvent T)) (e : LcEvent T) :
    inFlight (log ++ [e]) = (match e with
      | .started => true
      | .completed _ _ => false
      | .lost => false
      | .unneeded => false
      | _ => inFlight log) := by
  unfold inFlight
  rw [List.foldl_append]
  cases e <;> rfl

/-- Events of the log after the last `sent`: is a request out? -/
def out (log : List (LcEvent T)) : Bool :=
  log.foldl (fun acc e => match e with
    | .sent => true
    | .completed _ _ => false
    | .lost => false
    | _ => acc) false

theorem out_snoc (log : List (LcEvent T)) (e : LcEvent T) :
    out (log ++ [e]) = (match e with
      | .sent => true
      | .completed _ _ => false
      | .lost => false
      | _ => out log) := by
  unfold out
  rw [List.foldl_append]
  cases e <;> rfl

/-- Between two `sent` events there is an answer (or a loss). -/
def Separate (log : List (LcEvent T)) : Prop :=
  ∀ a b c, log = a ++ .sent :: b ++ .sent :: c → .lost ∈ b ∨ ∃ v t, .completed v t ∈ b

/-- The invariant: the lock is held exactly while there is a task, and there is at most one. -/
structure LazyCache.Ok (ttl : Option Nat) (s : LazyCache T) : Prop where
  value : s.value.held = holds ttl s.log
  lock : (s.queued = false ∧ s.works = [] ∧ inFlight s.log = false ∧ out s.log = false) ∨
    (s.queued = true ∧ (∃ w f, s.works = [.spawned w f]) ∧ inFlight s.log = true ∧ out s.log = false) ∨
    (s.queued = true ∧ s.works = [.waiting] ∧ inFlight s.log = true ∧ out s.log = true) ∨
    (s.queued = true ∧ s.works = [.abandoned] ∧ .lost ∈ s.log)
  separate : Separate s.log

theorem Separate.snoc {log : List (LcEvent T)} (h : Separate log) (e : LcEvent T) (he : e ≠ .sent) :
    Separate (log ++ [e]) := by
  intro a b c heq
  rcases List.eq_nil_or_concat c with rfl | ⟨c', x, rfl⟩
  · have e1 : log ++ [e] = (a ++ .sent :: b) ++ [.sent] := by rw [heq]
    have := (List.append_inj' e1 rfl).2
    simp at this
    exact absurd this he
  · rw [List.concat_eq_append] at heq
    have e1 : log ++ [e] = (a ++ .sent :: b ++ .sent :: c') ++ [x] := by rw [heq]; simp
    exact h a b c' (List.append_inj' e1 rfl).1

theorem out_false_mem : ∀ (b : List (LcEvent T)) (a : List (LcEvent T)),
    out (a ++ .sent :: b) = false → .lost ∈ b ∨ ∃ v t, .completed v t ∈ b := by
  intro b
  induction b using List.reverseRecOn with
  | nil => intro a h; rw [out_snoc] at h; simp at h
  | append_singleton b x ih =>
    intro a h
    have e1 : a ++ .sent :: (b ++ [x]) = (a ++ .sent :: b) ++ [x] := by simp
    rw [e1, out_snoc] at h
    have lift : (.lost ∈ b ∨ ∃ v t, .completed v t ∈ b) →
        (.lost ∈ b ++ [x] ∨ ∃ v t, .completed v t ∈ b ++ [x]) := by
      rintro (h | ⟨v, t, h⟩)
      · exact .inl (by simp [h])
      · exact .inr ⟨v, t, by simp [h]⟩
    cases x with
    | sent => simp at h
    | completed v t => exact .inr ⟨v, t, by simp⟩
    | lost => exact .inl (by simp)
    | read v => exact lift (ih a h)
    | started => exact lift (ih a h)
    | unneeded => exact lift (ih a h)
    | forgot => exact lift (ih a h)
    | shownLoading => exact lift (ih a h)

theorem Separate.sent {log : List (LcEvent T)} (h : Separate log) (ho : out log = false) :
    Separate (log ++ [.sent]) := by
  intro a b c heq
  rcases List.eq_nil_or_concat c with rfl | ⟨c', x, rfl⟩
  · have e1 : log ++ [.sent] = (a ++ .sent :: b) ++ [.sent] := by rw [heq]
    have := (List.append_inj' e1 rfl).1
    rw [this] at ho
    exact out_false_mem b a ho
  · rw [List.concat_eq_append] at heq
    have e1 : log ++ [.sent] = (a ++ .sent :: b ++ .sent :: c') ++ [x] := by rw [heq]; simp
    exact h a b c' (List.append_inj' e1 rfl).1

theorem LazyCache.new_ok (ttl : Option Nat) : (LazyCache.new (T := T)).Ok ttl :=
  ⟨rfl, .inl ⟨rfl, rfl, rfl, rfl⟩, by intro a b c h; simp [LazyCache.new] at h⟩

/-- An event that matters neither for the value nor for the lock. -/
theorem LazyCache.Ok.noted {ttl : Option Nat} {s : LazyCache T} (h : s.Ok ttl) (v : Resource T) :
    ({ s with log := s.log ++ [.read v] } : LazyCache T).Ok ttl := by
  refine ⟨?_, ?_, h.separate.snoc _ (by simp)⟩
  · show s.value.held = holds ttl (s.log ++ [_])
    rw [holds_snoc]; exact h.value
  · rcases h.lock with ⟨h1, h2, h3, h4⟩ | ⟨h1, h2, h3, h4⟩ | ⟨h1, h2, h3, h4⟩ | ⟨h1, h2, h3⟩
    · exact .inl ⟨h1, h2, by rw [inFlight_snoc]; exact h3, by rw [out_snoc]; exact h4⟩
    · exact .inr (.inl ⟨h1, h2, by rw [inFlight_snoc]; exact h3, by rw [out_snoc]; exact h4⟩)
    · exact .inr (.inr (.inl ⟨h1, h2, by rw [inFlight_snoc]; exact h3, by rw [out_snoc]; exact h4⟩))
    · exact .inr (.inr (.inr ⟨h1, h2, by simp [h3]⟩))

theorem LazyCache.update_ok {ttl : Option Nat} {s : LazyCache T} (h : s.Ok ttl) (w f : Bool) :
    (s.update w f).Ok ttl := by
  unfold LazyCache.update
  split
  · exact h
  · rename_i hq
    refine ⟨?_, ?_, h.separate.snoc _ (by simp)⟩
    · show s.value.held = holds ttl (s.log ++ [_])
      rw [holds_snoc]; exact h.value
    · rcases h.lock with ⟨h1, h2, h3, h4⟩ | ⟨h1, _⟩ | ⟨h1, _⟩ | ⟨h1, _⟩
      · refine .inr (.inl ⟨rfl, ⟨w, f, ?_⟩, ?_, ?_⟩)
        · show s.works ++ _ = _
          rw [h2]; rfl
        · show inFlight (s.log ++ [_]) = _
          rw [inFlight_snoc]
        · show out (s.log ++ [_]) = _
          rw [out_snoc]; exact h4
      all_goals exact absurd h1 hq

theorem LazyCache.read_ok {ttl : Option Nat} {s : LazyCache T} (h : s.Ok ttl) : s.read.Ok ttl := by
  unfold LazyCache.read
  dsimp only
  split
  · exact LazyCache.update_ok (h.noted _) _ _
  · exact h.noted _

theorem LazyCache.forget_ok {ttl : Option Nat} {s : LazyCache T} (h : s.Ok ttl) : s.forget.Ok ttl := by
  refine ⟨?_, ?_, h.separate.snoc _ (by simp)⟩
  · show none = holds ttl (s.log ++ [_])
    rw [holds_snoc]
  · rcases h.lock with ⟨h1, h2, h3, h4⟩ | ⟨h1, h2, h3, h4⟩ | ⟨h1, h2, h3, h4⟩ | ⟨h1, h2, h3⟩
    · exact .inl ⟨h1, h2, by rw [LazyCache.forget, inFlight_snoc]; exact h3, by rw [LazyCache.forget, out_snoc]; exact h4⟩
    · exact .inr (.inl ⟨h1, h2, by rw [LazyCache.forget, inFlight_snoc]; exact h3, by rw [LazyCache.forget, out_snoc]; exact h4⟩)
    · exact .inr (.inr (.inl ⟨h1, h2, by rw [LazyCache.forget, inFlight_snoc]; exact h3, by rw [LazyCache.forget, out_snoc]; exact h4⟩))
    · exact .inr (.inr (.inr ⟨h1, h2, by simp [LazyCache.forget, h3]⟩))

theorem single_getElem? {A : Type} {x y : A} {i : Nat} (h : [x][i]? = some y) : i = 0 ∧ x = y := by
  cases i with
  | zero => simpa using h
  | succ i => simp at h

theorem LazyCache.send_ok {ttl : Option Nat} {s : LazyCache T} (h : s.Ok ttl) (w f w' : Bool)
    (hw : s.works = [.spawned w f]) : (s.send 0 w').Ok ttl := by
  rcases h.lock with ⟨_, h2, _⟩ | ⟨h1, h2, h3, h4⟩ | ⟨_, h2, _⟩ | ⟨_, h2, _⟩ <;>
    try (rw [hw] at h2; simp at h2)
  unfold LazyCache.send
  cases w' with
  | false =>
    refine ⟨?_, ?_, h.separate.sent h4⟩
    · show s.value.held = holds ttl (s.log ++ [_])
      rw [holds_snoc]; exact h.value
    · refine .inr (.inr (.inl ⟨h1, ?_, ?_, ?_⟩))
      · show s.works.set 0 _ = _
        rw [hw]; rfl
      · show inFlight (s.log ++ [_]) = _
        rw [inFlight_snoc]; exact h3
      · show out (s.log ++ [_]) = _
        rw [out_snoc]
  | true =>
    have hs1 : Separate (s.log ++ [LcEvent.shownLoading]) := h.separate.snoc _ (by simp)
    have ho1 : out (s.log ++ [LcEvent.shownLoading]) = false := by rw [out_snoc]; exact h4
    refine ⟨?_, ?_, hs1.sent ho1⟩
    · show (ApiResponse.newLoading (T := T)).held = holds ttl ((s.log ++ [_]) ++ [_])
      rw [holds_snoc, holds_snoc]; rfl
    · refine .inr (.inr (.inl ⟨h1, ?_, ?_, ?_⟩))
      · show s.works.set 0 _ = _
        rw [hw]; rfl
      · show inFlight ((s.log ++ [_]) ++ [_]) = _
        rw [inFlight_snoc, inFlight_snoc]; exact h3
      · show out ((s.log ++ [_]) ++ [_]) = _
        rw [out_snoc]

theorem LazyCache.run_ok {ttl : Option Nat} {s : LazyCache T} (h : s.Ok ttl) (i : Nat) :
    (s.run i).Ok ttl := by
  unfold LazyCache.run
  split
  case h_2 => exact h
  case h_1 w f hi =>
    rcases h.lock with ⟨_, h2, _⟩ | ⟨h1, ⟨w0, f0, h2⟩, h3, h4⟩ | ⟨_, h2, _⟩ | ⟨_, h2, _⟩
    · rw [h2] at hi; simp at hi
    · rw [h2] at hi
      obtain ⟨rfl, _⟩ := single_getElem? hi
      rw [h1]
      simp only [Bool.not_true, Bool.false_eq_true, if_false]
      split
      · exact LazyCache.send_ok h w0 f0 w h2
      · refine ⟨?_, .inl ⟨rfl, ?_, ?_, ?_⟩, h.separate.snoc _ (by simp)⟩
        · show s.value.held = holds ttl (s.log ++ [_])
          rw [holds_snoc]; exact h.value
        · show s.works.eraseIdx 0 = _
          rw [h2]; rfl
        · show inFlight (s.log ++ [_]) = _
          rw [inFlight_snoc]
        · show out (s.log ++ [_]) = _
          rw [out_snoc]; exact h4
    · rw [h2] at hi; have := (single_getElem? hi).2; simp at this
    · rw [h2] at hi; have := (single_getElem? hi).2; simp at this

theorem LazyCache.complete_ok {ttl : Option Nat} {s : LazyCache T} (h : s.Ok ttl) (i : Nat)
    (r : Except String T) : (s.complete ttl i r).Ok ttl := by
  unfold LazyCache.complete
  split
  case h_2 => exact h
  case h_1 hi =>
    rcases h.lock with ⟨_, h2, _⟩ | ⟨_, ⟨w0, f0, h2⟩, _⟩ | ⟨h1, h2, h3, h4⟩ | ⟨_, h2, _⟩
    · rw [h2] at hi; simp at hi
    · rw [h2] at hi; have := (single_getElem? hi).2; simp at this
    · rw [h2] at hi
      obtain ⟨rfl, _⟩ := single_getElem? hi
      refine ⟨?_, .inl ⟨rfl, ?_, ?_, ?_⟩, h.separate.snoc _ (by simp)⟩
      · show some _ = holds ttl (s.log ++ [_])
        rw [holds_snoc]
        cases r <;> rfl
      · show s.works.eraseIdx 0 = _
        rw [h2]; rfl
      · show inFlight (s.log ++ [_]) = _
        rw [inFlight_snoc]
      · show out (s.log ++ [_]) = _
        rw [out_snoc]
    · rw [h2] at hi; have := (single_getElem? hi).2; simp at this

theorem LazyCache.lose_ok {ttl : Option Nat} {s : LazyCache T} (h : s.Ok ttl) (i : Nat) :
    (s.lose i).Ok ttl := by
  unfold LazyCache.lose
  split
  case h_2 => exact h
  case h_1 hi =>
    rcases h.lock with ⟨_, h2, _⟩ | ⟨_, ⟨w0, f0, h2⟩, _⟩ | ⟨h1, h2, h3, h4⟩ | ⟨_, h2, _⟩
    · rw [h2] at hi; simp at hi
    · rw [h2] at hi; have := (single_getElem? hi).2; simp at this
    · rw [h2] at hi
      obtain ⟨rfl, _⟩ := single_getElem? hi
      refine ⟨?_, .inr (.inr (.inr ⟨h1, ?_, ?_⟩)), h.separate.snoc _ (by simp)⟩
      · show s.value.held = holds ttl (s.log ++ [_])
        rw [holds_snoc]; exact h.value
      · show s.works.set 0 _ = _
        rw [h2]; rfl
      · simp
    · rw [h2] at hi; have := (single_getElem? hi).2; simp at this

theorem LazyCache.step_ok {ttl : Option Nat} {s : LazyCache T} (h : s.Ok ttl) (op : LcOp T) :
    (s.step ttl op).Ok ttl := by
  cases op with
  | read => exact LazyCache.read_ok h
  | forget => exact LazyCache.forget_ok h
  | update w f => exact LazyCache.update_ok h w f
  | run i => exact LazyCache.run_ok h i
  | complete i r => exact LazyCache.complete_ok h i r
  | lose i => exact LazyCache.lose_ok h i
  | tick ms => exact ⟨h.value, h.lock, h.separate⟩

theorem lazyCache_ok (ttl : Option Nat) (ops : List (LcOp T)) : (lazyCache ttl ops).Ok ttl := by
  unfold lazyCache
  induction ops using List.reverseRecOn with
  | nil => exact LazyCache.new_ok ttl
  | append_singleton ops op ih => rw [List.foldl_append]; exact LazyCache.step_ok ih op

theorem LazyCache.step_now (ttl : Option Nat) (s : LazyCache T) (op : LcOp T) :
    (s.step ttl op).now = s.now + (match op with | .tick ms => ms | _ => 0) := by
  cases op <;> simp only [LazyCache.step, LazyCache.read, LazyCache.forget, LazyCache.update,
    LazyCache.run, LazyCache.send, LazyCache.complete, LazyCache.lose] <;> repeat' split
  all_goals rfl

theorem lazyCache_now (ttl : Option Nat) (ops : List (LcOp T)) : (lazyCache ttl ops).now = clock ops := by
  unfold lazyCache clock
  induction ops using List.reverseRecOn with
  | nil => rfl
  | append_singleton ops op ih =>
    rw [List.foldl_append, List.foldl_cons, List.foldl_nil, LazyCache.step_now, ih]
    cases op <;> simp

/-- An answer is lost only by `lose`. -/
theorem lost_mem (ttl : Option Nat) (ops : List (LcOp T)) (h : NoLoss ops) :
    .lost ∉ (lazyCache ttl ops).log := by
  unfold lazyCache
  induction ops using List.reverseRecOn with
  | nil => simp [LazyCache.new]
  | append_singleton ops op ih =>
    have ih := ih fun i hi => h i (by simp [hi])
    rw [List.foldl_append, List.foldl_cons, List.foldl_nil]
    cases op with
    | lose i => exact absurd (by simp) (h i)
    | _ =>
      simp only [LazyCache.step, LazyCache.read, LazyCache.forget, LazyCache.update,
        LazyCache.run, LazyCache.send, LazyCache.complete]
      (repeat' split) <;> simp [ih]

/-- **C35** (one request at a time).  In every history, between two requests the first one has been
answered (or its answer lost). -/
theorem C35_one_at_a_time (ttl : Option Nat) (ops : List (LcOp T)) (a b c : List (LcEvent T))
    (h : (lazyCache ttl ops).log = a ++ .sent :: b ++ .sent :: c) :
    .lost ∈ b ∨ ∃ v t, .completed v t ∈ b :=
  (lazyCache_ok ttl ops).separate a b c h

/-- **C35** (reading).  After every history without lost answers: a read returns the value of the last
completed request (the loading state if there is none), and it starts an update exactly if the data is
absent or expired and no update is in flight.  Missing: histories in which an answer cannot be decoded, see
`C35_lost_answer_violated`. -/
theorem C35_read_partial (ttl : Option Nat) (ops : List (LcOp T)) (h : NoLoss ops) :
    let log := (lazyCache ttl ops).log
    (lazyCache ttl (ops ++ [.read])).log = log ++ .read (seen (holds ttl log)) ::
      (if inFlight log = false ∧ stale (clock ops) (holds ttl log) = true then [.started] else []) := by
  intro log
  have hok := lazyCache_ok ttl ops
  have hs : lazyCache ttl (ops ++ [LcOp.read]) = (lazyCache ttl ops).read := by simp [lazyCache, LazyCache.step]
  rw [hs]
  have hnow := lazyCache_now ttl ops
  have hnl := lost_mem ttl ops h
  have hq : (lazyCache ttl ops).queued = inFlight log := by
    rcases hok.lock with ⟨h1, _, h3, _⟩ | ⟨h1, _, h3, _⟩ | ⟨h1, _, h3, _⟩ | ⟨_, _, h3⟩
    · rw [h1]; exact h3.symm
    · rw [h1]; exact h3.symm
    · rw [h1]; exact h3.symm
    · exact absurd h3 hnl
  unfold LazyCache.read LazyCache.update
  dsimp only
  rw [getValue_eq, needsUpdate_eq, hok.value, hnow, hq]
  cases h1 : inFlight log <;> cases h2 : stale (clock ops) (holds ttl log) <;> simp [log]

/-- **C35** (the request is sent).  If a read has started an update, then, whatever else happens before the
executor gets to it (more reads, updates, forgets, time), the request is sent as soon as the executor
polls the task. -/
theorem C35_sent (ttl : Option Nat) (ops later : List (LcOp T))
    (h : (lazyCache ttl (ops ++ [.read])).log =
      (lazyCache ttl ops).log ++ [.read (seen (holds ttl (lazyCache ttl ops).log)), .started])
    (hl : ∀ i, LcOp.run i ∉ later) :
    (lazyCache ttl (ops ++ [.read] ++ later ++ [.run 0])).log =
      (lazyCache ttl (ops ++ [.read] ++ later)).log ++ [.sent] := by
  -- after the read there is one unforced task, and the data is stale; both stay so
  have inv : (lazyCache ttl (ops ++ [.read] ++ later)).works = [.spawned false false] ∧
      (lazyCache ttl (ops ++ [.read] ++ later)).queued = true ∧
      (lazyCache ttl (ops ++ [.read] ++ later)).value.needsUpdate
        (lazyCache ttl (ops ++ [.read] ++ later)).now = true := by
    induction later using List.reverseRecOn with
    | nil =>
      rw [List.append_nil]
      have hok := lazyCache_ok ttl ops
      have hs : lazyCache ttl (ops ++ [LcOp.read]) = (lazyCache ttl ops).read := by
        simp [lazyCache, LazyCache.step]
      rw [hs] at h ⊢
      unfold LazyCache.read at h ⊢
      dsimp only at h ⊢
      split at h
      · rename_i hc
        rw [if_pos hc]
        simp only [Bool.and_eq_true, Bool.not_eq_true'] at hc
        unfold LazyCache.update
        dsimp only
        rw [if_neg (by simp [hc.1])]
        refine ⟨?_, rfl, hc.2⟩
        rcases hok.lock with ⟨_, h2, _⟩ | ⟨h1, _⟩ | ⟨h1, _⟩ | ⟨h1, _⟩
        · dsimp only; rw [h2]; rfl
        all_goals rw [hc.1] at h1; simp at h1
      · simp at h
    | append_singleton later op ih =>
      obtain ⟨i1, i2, i3⟩ := ih fun i hi => hl i (by simp [hi])
      have hs : lazyCache ttl (ops ++ [.read] ++ (later ++ [op])) =
          (lazyCache ttl (ops ++ [.read] ++ later)).step ttl op := by
        simp [lazyCache]
      rw [hs]
      generalize lazyCache ttl (ops ++ [.read] ++ later) = s at i1 i2 i3
      cases op with
      | read =>
        simp only [LazyCache.step, LazyCache.read]
        rw [if_neg (by simp [i2])]
        exact ⟨i1, i2, i3⟩
      | forget => exact ⟨i1, i2, rfl⟩
      | update w f =>
        simp only [LazyCache.step, LazyCache.update]
        rw [if_pos i2]
        exact ⟨i1, i2, i3⟩
      | run i => exact absurd (by simp) (hl i)
      | complete i r =>
        simp only [LazyCache.step, LazyCache.complete]
        rw [i1]
        cases i with
        | zero => exact ⟨i1, i2, i3⟩
        | succ i => exact ⟨i1, i2, i3⟩
      | lose i =>
        simp only [LazyCache.step, LazyCache.lose]
        rw [i1]
        cases i with
        | zero => exact ⟨i1, i2, i3⟩
        | succ i => exact ⟨i1, i2, i3⟩
      | tick ms =>
        refine ⟨i1, i2, ?_⟩
        show s.value.needsUpdate (s.now + ms) = true
        cases hv : s.value with
        | uninitialized => rfl
        | data v e =>
          rw [hv] at i3
          cases e with
          | none => simp [ApiResponse.needsUpdate] at i3
          | some e =>
            simp only [ApiResponse.needsUpdate, decide_eq_true_eq] at i3 ⊢
            omega
  obtain ⟨i1, i2, i3⟩ := inv
  have hs : lazyCache ttl (ops ++ [.read] ++ later ++ [.run 0]) =
      (lazyCache ttl (ops ++ [.read] ++ later)).run 0 := by
    simp [lazyCache, LazyCache.step]
  rw [hs]
  unfold LazyCache.run
  rw [i1]
  dsimp only [List.getElem?_cons_zero]
  rw [if_neg (by rw [i2]; simp), if_pos (by rw [i3]; rfl)]
  rfl

/-- **C35** (forced updates).  `force_update` always sends a request when its task is polled, unless one is
in flight already. -/
theorem C35_forced_partial (ttl : Option Nat) (ops : List (LcOp T)) (withLoading : Bool)
    (hn : NoLoss ops) (hi : inFlight (lazyCache ttl ops).log = false) :
    (lazyCache ttl (ops ++ [.update withLoading true, .run 0])).log =
      (lazyCache ttl ops).log ++ .started :: (if withLoading then [.shownLoading] else []) ++ [.sent] := by
  have hok := lazyCache_ok ttl ops
  have hs : lazyCache ttl (ops ++ [.update withLoading true, .run 0]) =
      ((lazyCache ttl ops).update withLoading true).run 0 := by simp [lazyCache, LazyCache.step]
  rw [hs]
  rcases hok.lock with ⟨h1, h2, _⟩ | ⟨_, _, h3, _⟩ | ⟨_, _, h3, _⟩ | ⟨_, _, h3⟩
  · unfold LazyCache.update LazyCache.run
    rw [if_neg (by simp [h1])]
    dsimp only
    rw [h2]
    cases withLoading <;> simp [LazyCache.send]
  · rw [hi] at h3; simp at h3
  · rw [hi] at h3; simp at h3
  · exact absurd h3 (lost_mem ttl ops hn)

theorem dead_step (ttl : Option Nat) (s : LazyCache T) (op : LcOp T) (hq : s.queued = true)
    (hw : s.works = [.abandoned]) :
    (s.step ttl op).queued = true ∧ (s.step ttl op).works = [.abandoned] ∧
      ∀ a, (s.step ttl op).log = s.log ++ a → LcEvent.sent ∉ a := by
  cases op with
  | read =>
    simp only [LazyCache.step, LazyCache.read]
    rw [if_neg (by simp [hq])]
    exact ⟨hq, hw, fun a h => by have := List.append_cancel_left h; simp [← this]⟩
  | forget => exact ⟨hq, hw, fun a h => by have := List.append_cancel_left h; simp [← this]⟩
  | update w f =>
    simp only [LazyCache.step, LazyCache.update]
    rw [if_pos hq]
    exact ⟨hq, hw, fun a h => by simp at h; simp [h]⟩
  | tick ms => exact ⟨hq, hw, fun a h => by simp [LazyCache.step] at h; simp [h]⟩
  | run i =>
    have : s.run i = s := by
      unfold LazyCache.run; rw [hw]; cases i <;> rfl
    simp only [LazyCache.step, this]
    exact ⟨hq, hw, fun a h => by simp at h; simp [h]⟩
  | complete i r =>
    have : s.complete ttl i r = s := by
      unfold LazyCache.complete; rw [hw]; cases i <;> rfl
    simp only [LazyCache.step, this]
    exact ⟨hq, hw, fun a h => by simp at h; simp [h]⟩
  | lose i =>
    have : s.lose i = s := by
      unfold LazyCache.lose; rw [hw]; cases i <;> rfl
    simp only [LazyCache.step, this]
    exact ⟨hq, hw, fun a h => by simp at h; simp [h]⟩

theorem LazyCache.step_log (ttl : Option Nat) (s : LazyCache T) (op : LcOp T) :
    ∃ n, (s.step ttl op).log = s.log ++ n := by
  cases op <;> simp only [LazyCache.step, LazyCache.read, LazyCache.forget, LazyCache.update,
    LazyCache.run, LazyCache.send, LazyCache.complete, LazyCache.lose] <;> (repeat' split) <;>
    first | exact ⟨_, rfl⟩ | exact ⟨[], (List.append_nil _).symm⟩ | exact ⟨_, List.append_assoc _ _ _⟩

/-- Once an answer has been lost the cache is dead: although no request is in flight and there is no data,
whatever the application does afterwards (reads, `force_update`, ...), no other request is ever sent. -/
theorem C35_lost_answer_violated (ttl : Option Nat) (later : List (LcOp Nat)) :
    let ops := [LcOp.read, .run 0, .lose 0]
    inFlight (lazyCache ttl ops).log = false ∧ stale (clock ops) (holds ttl (lazyCache ttl ops).log) = true ∧
      ∃ new, (lazyCache ttl (ops ++ later)).log = (lazyCache ttl ops).log ++ new ∧ .sent ∉ new := by
  intro ops
  refine ⟨rfl, rfl, ?_⟩
  have inv : (lazyCache ttl (ops ++ later)).queued = true ∧
      (lazyCache ttl (ops ++ later)).works = [.abandoned] ∧
      ∃ new, (lazyCache ttl (ops ++ later)).log = (lazyCache ttl ops).log ++ new ∧ .sent ∉ new := by
    induction later using List.reverseRecOn with
    | nil => exact ⟨rfl, rfl, [], by simp, by simp⟩
    | append_singleton later op ih =>
      obtain ⟨i1, i2, new, i3, i4⟩ := ih
      have hs : lazyCache ttl (ops ++ (later ++ [op])) = (lazyCache ttl (ops ++ later)).step ttl op := by
        simp [lazyCache]
      rw [hs]
      obtain ⟨n, hn⟩ := LazyCache.step_log ttl (lazyCache ttl (ops ++ later)) op
      obtain ⟨d1, d2, d3⟩ := dead_step ttl _ op i1 i2
      refine ⟨d1, d2, new ++ n, ?_, ?_⟩
      · rw [hn, i3, List.append_assoc]
      · have := d3 n hn
        simp [i4, this]
  exact inv.2.2

/-! ## Concrete histories -/

/-- Two reads, the answer, a read of fresh data, time passes, a read of expired data. -/
def sampleHistory : List (LcOp Nat) :=
  [.read, .read, .run 0, .tick 10, .complete 0 (.ok 7), .tick 5, .read, .tick 1, .read]

example : (lazyCache (some 5) sampleHistory).log =
    [.read .loading, .started, .read .loading, .sent, .completed (.ok 7) 10, .read (.ready 7),
      .read (.ready 7), .started] := rfl

example : NoLoss sampleHistory := by intro i h; simp [sampleHistory] at h

example : ∀ i, LcOp.run (T := Nat) i ∉ [LcOp.forget, .tick 3, .update true true] := by simp

end Verif.Fetch

import Mathlib.Data.List.Induction
/-!
# FutureBox (C36)

`crates/vertigo/src/future_box.rs`: a one-place box shared by a sender and a future.  The sender
publishes a value, the future is polled by an executor.  Both handles may be cloned; all clones share
one `CallbackFutureInner`, so a history is just a list of `publish` and `poll` calls on it.

`T` is the type of the published values and `W` the type of wakers.
-/

namespace Verif.Async

/-- `future_box.rs:13-17` `CallbackFutureInner`: two `Cell<Option<_>>`. -/
structure BoxState (T W : Type) where
  waker : Option W
  result : Option T

/-- `future_box.rs:19-26` `CallbackFutureInner::new`. -/
def BoxState.new {T W : Type} : BoxState T W := { waker := none, result := none }

/-- `future_box.rs:38-43` `publish`: store the result, then take the waker and wake it.  The second
component is the waker that has been woken. -/
def BoxState.publish {T W : Type} (s : BoxState T W) (v : T) : BoxState T W × Option W :=
  ({ result := some v, waker := none }, s.waker)

/-- `future_box.rs:62-70` `poll`: take the result; with no result remember the waker of the context and
stay pending.  The second component is `some v` for `Poll::Ready(v)` and `none` for `Poll::Pending`. -/
def BoxState.poll {T W : Type} (s : BoxState T W) (w : W) : BoxState T W × Option T :=
  match s.result with
  | some v => ({ s with result := none }, some v)
  | none => ({ waker := some w, result := none }, none)

/-- What happens to a box: somebody publishes a value, or somebody polls the future with a waker. -/
inductive BoxOp (T W : Type) where
  | publish (v : T)
  | poll (w : W)

/-- What an operation was observed to do. -/
inductive BoxObs (T W : Type) where
  | woke (w : Option W)
  | polled (v : Option T)

variable {T W : Type}

/-- One operation with its observation. -/
def BoxState.step (s : BoxState T W) : BoxOp T W → BoxState T W × BoxObs T W
  | .publish v => ((s.publish v).1, .woke (s.publish v).2)
  | .poll w => ((s.poll w).1, .polled (s.poll w).2)

/-- The state after a history. -/
def BoxState.after (s : BoxState T W) : List (BoxOp T W) → BoxState T W
  | [] => s
  | op :: ops => ((s.step op).1).after ops

/-- The observations of a history, one for each operation. -/
def BoxState.observe (s : BoxState T W) : List (BoxOp T W) → List (BoxObs T W)
  | [] => []
  | op :: ops => (s.step op).2 :: ((s.step op).1).observe ops

/-- The observation of `op` after the history `h` of a new box. -/
def observed (h : List (BoxOp T W)) (op : BoxOp T W) : BoxObs T W :=
  (((BoxState.new).after h).step op).2

theorem BoxState.after_append (s : BoxState T W) (a b : List (BoxOp T W)) :
    s.after (a ++ b) = (s.after a).after b := by
  induction a generalizing s with
  | nil => rfl
  | cons op a ih => exact ih _

theorem BoxState.observe_append (s : BoxState T W) (a b : List (BoxOp T W)) :
    s.observe (a ++ b) = s.observe a ++ (s.after a).observe b := by
  induction a generalizing s with
  | nil => rfl
  | cons op a ih => simp [BoxState.observe, BoxState.after, ih]

/-! ## Specification: what the last operations of a history say -/

/-- The value waiting in the box: the last operation was a publication nobody has polled for yet. -/
def waiting (h : List (BoxOp T W)) : Option T :=
  match h.getLast? with
  | some (.publish v) => some v
  | _ => none

/-- The waker to be woken by the next publication: the one of the last operation, when that operation was
a poll that found nothing. -/
def sleeper (h : List (BoxOp T W)) : Option W :=
  match h.getLast? with
  | some (.poll w) => if (waiting h.dropLast).isSome then none else some w
  | _ => none

theorem waiting_snoc_poll (h : List (BoxOp T W)) (w : W) : waiting (h ++ [.poll w]) = none := by
  simp [waiting]

theorem sleeper_snoc_poll (h : List (BoxOp T W)) (w : W) :
    sleeper (h ++ [.poll w]) = if (waiting h).isSome then none else some w := by
  simp [sleeper]

theorem after_waiting (h : List (BoxOp T W)) :
    ((BoxState.new (T := T) (W := W)).after h).result = waiting h ∧
      ((BoxState.new (T := T) (W := W)).after h).waker = sleeper h := by
  induction h using List.reverseRecOn with
  | nil => exact ⟨rfl, rfl⟩
  | append_singleton h op ih =>
    rw [BoxState.after_append]
    obtain ⟨ih1, ih2⟩ := ih
    cases op with
    | publish v =>
      simp [BoxState.after, BoxState.step, BoxState.publish, waiting, sleeper]
    | poll w =>
      have hs : waiting (h ++ [BoxOp.poll w] : List (BoxOp T W)) = none := by simp [waiting]
      have hw : sleeper (h ++ [BoxOp.poll w] : List (BoxOp T W)) =
          if (waiting h).isSome then none else some w := by simp [sleeper]
      rw [hs, hw]
      simp only [BoxState.after, BoxState.step, BoxState.poll]
      rw [ih1]
      cases hv : waiting h with
      | none => simp
      | some v =>
        refine ⟨rfl, ?_⟩
        simp only [Option.isSome_some, if_true]
        rw [ih2]
        unfold waiting at hv
        unfold sleeper
        split at hv
        · rename_i v' hl; rw [hl]
        · simp at hv

/-- **C36** (delivery).  After any history, polling the future completes exactly when a value has been
published since it was last polled, and then with the last value published. -/
theorem C36_poll (h : List (BoxOp T W)) (w : W) : observed h (.poll w) = .polled (waiting h) := by
  simp only [observed, BoxState.step, BoxState.poll]
  rw [(after_waiting h).1]
  cases waiting h <;> rfl

/-- **C36** (wake-up).  After any history, publishing wakes exactly the waker of the latest poll when that
poll is still without an answer, and nothing otherwise. -/
theorem C36_publish (h : List (BoxOp T W)) (v : T) : observed h (.publish v) = .woke (sleeper h) := by
  simp only [observed, BoxState.step, BoxState.publish]
  rw [(after_waiting h).2]

/-- **C36** (no wake-up is lost).  Whatever happened before, and however often the future is polled before
the value arrives: a pending poll is followed by a publication that wakes the latest waker, and the poll
after it completes with the published value; the poll after that is pending again. -/
theorem C36_no_lost_wakeup (h : List (BoxOp T W)) (w0 : W) (ws : List W) (v : T) (w1 w2 : W)
    (hp : observed h (.poll w0) = .polled none) :
    let polls := h ++ .poll w0 :: ws.map .poll
    (∀ pre w post, ws = pre ++ w :: post →
      observed (h ++ .poll w0 :: pre.map .poll) (.poll w) = .polled none) ∧
    observed polls (.publish v) = .woke ((w0 :: ws).getLast?) ∧
    observed (polls ++ [.publish v]) (.poll w1) = .polled (some v) ∧
    observed (polls ++ [.publish v, .poll w1]) (.poll w2) = .polled none := by
  intro polls
  have hw : waiting h = none := by
    have := C36_poll h w0
    rw [hp] at this
    injection this with this
    exact this.symm
  have key : ∀ us : List W, waiting (h ++ .poll w0 :: us.map .poll) = none ∧
      sleeper (h ++ .poll w0 :: us.map .poll) = (w0 :: us).getLast? := by
    intro us
    induction us using List.reverseRecOn with
    | nil => exact ⟨waiting_snoc_poll h w0, by simp [sleeper_snoc_poll, hw]⟩
    | append_singleton us u ih =>
      have e : h ++ .poll w0 :: (us ++ [u]).map .poll =
          (h ++ .poll w0 :: us.map .poll) ++ [(.poll u : BoxOp T W)] := by simp
      rw [e]
      generalize hg : h ++ .poll w0 :: us.map BoxOp.poll = g at ih
      refine ⟨by simp [waiting], ?_⟩
      have : ((w0 :: (us ++ [u])).getLast?) = some u := by
        rw [← List.cons_append, List.getLast?_append]; rfl
      rw [this, sleeper_snoc_poll, ih.1]; rfl
  refine ⟨?_, ?_, ?_, ?_⟩
  · intro pre w post _
    rw [C36_poll, (key pre).1]
  · rw [C36_publish, (key ws).2]
  · rw [C36_poll]; simp [waiting]
  · rw [C36_poll]
    have : polls ++ [BoxOp.publish v, .poll w1] = (polls ++ [.publish v]) ++ [.poll w1] := by simp
    rw [this]
    simp [waiting]

/-- The values handed out by the polls of a history, in order. -/
def delivered (h : List (BoxOp T W)) : List T :=
  ((BoxState.new (T := T) (W := W)).observe h).filterMap fun
    | .polled v => v
    | .woke _ => none

/-- The values published in a history, in order. -/
def published (h : List (BoxOp T W)) : List T :=
  h.filterMap fun
    | .publish v => some v
    | .poll _ => none

theorem delivered_snoc (h : List (BoxOp T W)) (op : BoxOp T W) :
    delivered (h ++ [op]) = delivered h ++ (match op with
      | .publish _ => []
      | .poll _ => (waiting h).toList) := by
  unfold delivered
  rw [BoxState.observe_append, List.filterMap_append]
  congr 1
  cases op with
  | publish v => rfl
  | poll w =>
    have := C36_poll h w
    unfold observed at this
    simp only [BoxState.observe, this]
    cases waiting h <;> rfl

/-- **C36** (exactly once).  Over any history the values handed out are published values, in the order
of publication and each publication at most once; with a single publication, the value is handed out
exactly once as soon as anybody polls after it. -/
theorem C36_once (h : List (BoxOp T W)) :
    (delivered h ++ (waiting h).toList).Sublist (published h) ∧
      (∀ a v b, h = a ++ .publish v :: b → published a = [] → published b = [] →
        delivered h = if b = [] then [] else [v]) := by
  have snd : ∀ (a b : List (BoxOp T W)) v, published a = [] → published b = [] →
      delivered (a ++ .publish v :: b) = if b = [] then [] else [v] := by
    intro a b v ha hb
    have da : delivered a = [] := by
      clear hb
      induction a using List.reverseRecOn with
      | nil => rfl
      | append_singleton a op ih =>
        cases op with
        | publish x => simp [published] at ha
        | poll w =>
          have ha' : published a = [] := by simpa [published] using ha
          rw [delivered_snoc, ih ha']
          have : waiting a = none := by
            unfold waiting
            split
            · rename_i x hx
              have := List.mem_of_getLast? hx
              have : x ∈ published a := List.mem_filterMap.2 ⟨_, this, rfl⟩
              rw [ha'] at this; simp at this
            · rfl
          rw [this]; rfl
    have dp : delivered (a ++ [.publish v]) = [] := by rw [delivered_snoc, da]; rfl
    induction b using List.reverseRecOn with
    | nil => simpa using dp
    | append_singleton b op ih =>
      cases op with
      | publish x => simp [published] at hb
      | poll w =>
        have hb' : published b = [] := by simpa [published] using hb
        have e : a ++ .publish v :: (b ++ [.poll w]) =
            (a ++ .publish v :: b) ++ [(.poll w : BoxOp T W)] := by simp
        rw [e, delivered_snoc, ih hb']
        rcases List.eq_nil_or_concat b with rfl | ⟨b', op', rfl⟩
        · simp [waiting]
        · cases op' with
          | publish x => simp [published] at hb'
          | poll w' =>
            have : waiting (a ++ BoxOp.publish v :: (b' ++ [.poll w'])) = none := by
              have : a ++ BoxOp.publish v :: (b' ++ [.poll w']) =
                (a ++ .publish v :: b') ++ [(.poll w' : BoxOp T W)] := by simp
              rw [this, waiting_snoc_poll]
            simp [List.concat_eq_append, this]
  refine ⟨?_, fun a v b e ha hb => e ▸ snd a b v ha hb⟩
  induction h using List.reverseRecOn with
  | nil => simp [delivered, BoxState.observe, waiting, published]
  | append_singleton h op ih =>
    rw [delivered_snoc]
    cases op with
    | publish v =>
      have h1 : waiting (h ++ [BoxOp.publish v] : List (BoxOp T W)) = some v := by simp [waiting]
      have h2 : published (h ++ [BoxOp.publish v] : List (BoxOp T W)) = published h ++ [v] := by
        simp [published]
      rw [h1, h2]
      simp only [List.append_nil, Option.toList_some]
      exact List.Sublist.append ((List.sublist_append_left _ _).trans ih) (List.Sublist.refl _)
    | poll w =>
      have h1 : waiting (h ++ [BoxOp.poll w] : List (BoxOp T W)) = none := by simp [waiting]
      have h2 : published (h ++ [BoxOp.poll w] : List (BoxOp T W)) = published h := by
        simp [published]
      rw [h1, h2]
      simpa using ih

/-- A poll that sleeps, a second one with another waker, a publication, and two more polls. -/
example : (BoxState.new (T := Nat) (W := Nat)).observe
    [.poll 1, .poll 2, .publish 7, .poll 3, .poll 4] =
      [.polled none, .polled none, .woke (some 2), .polled (some 7), .polled none] := rfl

/-- The hypothesis of `C36_no_lost_wakeup` holds after a history that already delivered a value. -/
example : observed (T := Nat) (W := Nat) [.publish 7, .poll 3] (.poll 4) = .polled none := rfl

/-- A publication before the first poll is not lost. -/
example : delivered (T := Nat) (W := Nat) [.publish 7, .poll 1, .poll 2] = [7] := rfl

end Verif.Async

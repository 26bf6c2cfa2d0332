import Mathlib.Data.List.Induction
import Mathlib.Order.Basic
/-!
# CallbackStore (C38)

`crates/vertigo/src/driver_module/api/callbacks.rs`: functions the host (the browser glue or the server)
may call by a number.  A function may register and drop callbacks while it runs, and the host may call
again before it returns, so a host call carries the operations performed while the function runs.

`F` stands for functions, `V` for their arguments and `R` for their results.  The counter of the code is a
`u64`; the model counts without a bound.
-/

namespace Verif.Async

mutual
/-- `register f once`: `register`, `register_with_id` (`once = false`) or `register_once`.
`call id v body r`: the host calls `id` with `v`; if a function is found, it performs `body` and
returns `r`. -/
inductive CbOp (F V R : Type) where
  | register (f : F) (once : Bool)
  | drop (id : Nat)
  | call (id : Nat) (v : V) (body : CbOps F V R) (r : R)
/-- A sequence of operations. -/
inductive CbOps (F V R : Type) where
  | done
  | next (op : CbOp F V R) (rest : CbOps F V R)
end

/-- What can be seen from outside.  Each host call has a number of its own.  An `answer` of `none` is the
`JsValue::Undefined` given when the id is not found. -/
inductive CbEvent (F V R : Type) where
  | registered (id : Nat) (f : F) (once : Bool)
  | dropped (id : Nat)
  | hostCall (n : Nat) (id : Nat) (v : V)
  | ran (n : Nat) (id : Nat) (f : F) (v : V) (r : R)
  | answer (n : Nat) (id : Nat) (r : Option R)

/-- `callbacks.rs:12` and `38-41`: the counter and the map, with the events so far (the log is not part of
the code).  A function registered with `register_once` is marked. -/
structure Callbacks (F V R : Type) where
  counter : Nat
  data : Nat → Option (F × Bool)
  calls : Nat
  log : List (CbEvent F V R)

variable {F V R : Type}

/-- `callbacks.rs:12` (the counter starts at 1) and `44-48` `new`. -/
def Callbacks.new : Callbacks F V R := { counter := 1, data := fun _ => none, calls := 0, log := [] }

/-- `HashMap::insert` and `HashMap::remove`. -/
def update (data : Nat → Option (F × Bool)) (id : Nat) (x : Option (F × Bool)) :
    Nat → Option (F × Bool) := fun i => if i = id then x else data i

/-- `callbacks.rs:50-67` `register`, `69-87` `register_with_id`, and the registration of `101-117`
`register_once`. -/
def Callbacks.register (s : Callbacks F V R) (f : F) (once : Bool) : Callbacks F V R :=
  { s with
    counter := s.counter + 1
    data := update s.data s.counter (some (f, once))
    log := s.log ++ [.registered s.counter f once] }

/-- `callbacks.rs:59-64`, `79-84`: the function run when the `DropResource` is dropped. -/
def Callbacks.drop (s : Callbacks F V R) (id : Nat) : Callbacks F V R :=
  { s with data := update s.data id none, log := s.log ++ [.dropped id] }

/-- A log entry. -/
def Callbacks.note (s : Callbacks F V R) (e : CbEvent F V R) : Callbacks F V R :=
  { s with log := s.log ++ [e] }

/-- The log entry of a host call. -/
def Callbacks.begin (s : Callbacks F V R) (id : Nat) (v : V) : Callbacks F V R :=
  { s with calls := s.calls + 1, log := s.log ++ [.hostCall s.calls id v] }

/-- The end of a call: a function registered with `register_once` drops its own `DropResource`
(`callbacks.rs:107-111`). -/
def Callbacks.finish (s : Callbacks F V R) (n id : Nat) (once : Bool) (r : R) : Callbacks F V R :=
  { s with
    data := if once then update s.data id none else s.data
    log := s.log ++ [.answer n id (some r)] }

mutual
/-- One operation.  `call`: `callbacks.rs:89-99`. -/
def Callbacks.exec (s : Callbacks F V R) : CbOp F V R → Callbacks F V R
  | .register f once => s.register f once
  | .drop id => s.drop id
  | .call id v body r =>
    match s.data id with
    | some (f, once) =>
      (((s.begin id v).note (.ran s.calls id f v r)).execAll body).finish s.calls id once r
    | none => (s.begin id v).note (.answer s.calls id none)
/-- A sequence of operations. -/
def Callbacks.execAll (s : Callbacks F V R) : CbOps F V R → Callbacks F V R
  | .done => s
  | .next op rest => (s.exec op).execAll rest
end

/-! ## Specification -/

/-- What is registered under `id`, read off the events: the function registered last under that id, until
it is dropped or, for a function registered to be called once, until a call of it has been answered. -/
def slot (id : Nat) (log : List (CbEvent F V R)) : Option (F × Bool) :=
  log.foldl (fun acc e => match e with
    | .registered i f once => if i = id then some (f, once) else acc
    | .dropped i => if i = id then none else acc
    | .answer _ i _ => if i = id then acc.filter (fun x => !x.2) else acc
    | _ => acc) none

/-- The ids given out so far. -/
def registeredIds (log : List (CbEvent F V R)) : List Nat :=
  log.filterMap fun
    | .registered id _ _ => some id
    | _ => none

/-- Host call `n` of `id` with `v` is dealt with as the events before it say: the function registered under
`id` runs, with the argument of the call, and its result is the answer; or nothing runs. -/
def Dispatched (before : List (CbEvent F V R)) (n id : Nat) (v : V) (after : List (CbEvent F V R)) : Prop :=
  match slot id before with
  | some (f, _) => ∃ r c d, after = .ran n id f v r :: c ++ .answer n id (some r) :: d
  | none => ∃ d, after = .answer n id none :: d

/-! ## Proof -/

/-- The state agrees with its log. -/
structure Callbacks.Ok (s : Callbacks F V R) : Prop where
  data : ∀ id, s.data id = slot id s.log
  ids : (registeredIds s.log).Pairwise (· < ·)
  below : ∀ i ∈ registeredIds s.log, i < s.counter

theorem slot_append (id : Nat) (a : List (CbEvent F V R)) (e : CbEvent F V R) :
    slot id (a ++ [e]) = (match e with
      | .registered i f once => if i = id then some (f, once) else slot id a
      | .dropped i => if i = id then none else slot id a
      | .answer _ i _ => if i = id then (slot id a).filter (fun x => !x.2) else slot id a
      | _ => slot id a) := by
  unfold slot
  rw [List.foldl_append]
  cases e <;> rfl

theorem slot_answer (n id : Nat) (r : Option R) (a : List (CbEvent F V R)) :
    slot id (a ++ [.answer n id r]) = (slot id a).filter (fun x => !x.2) := by
  rw [slot_append]; simp

theorem registeredIds_append (a b : List (CbEvent F V R)) :
    registeredIds (a ++ b) = registeredIds a ++ registeredIds b := by simp [registeredIds]

/-- A piece of log written after `before`. -/
structure CbPiece (before new : List (CbEvent F V R)) : Prop where
  good : ∀ a n id v b, new = a ++ .hostCall n id v :: b → Dispatched (before ++ a) n id v b
  caused : ∀ a n id f v r b, new = a ++ .ran n id f v r :: b → ∃ a', a = a' ++ [.hostCall n id v]

theorem Dispatched.mono {before : List (CbEvent F V R)} {n id : Nat} {v : V} {b : List (CbEvent F V R)}
    (h : Dispatched before n id v b) (c : List (CbEvent F V R)) : Dispatched before n id v (b ++ c) := by
  unfold Dispatched at h ⊢
  cases hs : slot id before with
  | none =>
    rw [hs] at h
    obtain ⟨d, rfl⟩ := h
    exact ⟨d ++ c, by simp⟩
  | some x =>
    rw [hs] at h
    obtain ⟨r, c', d, rfl⟩ := h
    exact ⟨r, c', d ++ c, by simp⟩

theorem CbPiece.append {before a b : List (CbEvent F V R)} (ha : CbPiece before a)
    (hb : CbPiece (before ++ a) b) : CbPiece before (a ++ b) := by
  refine ⟨?_, ?_⟩
  · intro x n id v y e
    rcases List.append_eq_append_iff.1 e with ⟨c, rfl, hc⟩ | ⟨c, rfl, hc⟩
    · rw [← List.append_assoc]; exact hb.good c n id v y hc
    · cases c with
      | nil =>
        simp only [List.nil_append, List.append_nil] at hc hb ⊢
        simpa using hb.good [] n id v y hc.symm
      | cons z c =>
        simp only [List.cons_append, List.cons.injEq] at hc
        obtain ⟨rfl, rfl⟩ := hc
        exact (ha.good x n id v c rfl).mono b
  · intro x n id f v r y e
    rcases List.append_eq_append_iff.1 e with ⟨c, rfl, hc⟩ | ⟨c, rfl, hc⟩
    · obtain ⟨c', rfl⟩ := hb.caused c n id f v r y hc
      exact ⟨a ++ c', by simp⟩
    · cases c with
      | nil =>
        simp only [List.nil_append] at hc
        obtain ⟨c', h⟩ := hb.caused [] n id f v r y hc.symm
        simp at h
      | cons z c =>
        simp only [List.cons_append, List.cons.injEq] at hc
        obtain ⟨rfl, rfl⟩ := hc
        exact ha.caused x n id f v r c rfl

theorem CbPiece.nil (before : List (CbEvent F V R)) : CbPiece before [] :=
  ⟨by simp, by simp⟩

/-- An operation leaves a consistent state and a well formed piece of log. -/
def CbStep (s s' : Callbacks F V R) : Prop :=
  s.Ok → s'.Ok ∧ ∃ new, s'.log = s.log ++ new ∧ CbPiece s.log new

/-- A single event that is neither a host call nor a run. -/
theorem CbPiece.single (before : List (CbEvent F V R)) (e : CbEvent F V R)
    (h1 : ∀ n id v, e ≠ .hostCall n id v) (h2 : ∀ n id f v r, e ≠ .ran n id f v r) :
    CbPiece before [e] := by
  refine ⟨?_, ?_⟩
  · intro a n id v b h
    have : CbEvent.hostCall n id v ∈ [e] := by rw [h]; simp
    exact absurd (List.mem_singleton.1 this).symm (h1 n id v)
  · intro a n id f v r b h
    have : CbEvent.ran n id f v r ∈ [e] := by rw [h]; simp
    exact absurd (List.mem_singleton.1 this).symm (h2 n id f v r)

theorem Callbacks.register_step (s : Callbacks F V R) (f : F) (once : Bool) :
    CbStep s (s.register f once) := by
  intro h
  have hids : registeredIds (s.register f once).log = registeredIds s.log ++ [s.counter] := by
    simp [Callbacks.register, registeredIds]
  refine ⟨⟨?_, ?_, ?_⟩, [.registered s.counter f once], rfl,
    .single _ _ (by simp) (by simp)⟩
  · intro id
    show update s.data s.counter _ id = slot id (s.log ++ [_])
    rw [slot_append, update]
    by_cases hi : id = s.counter
    · subst hi; simp
    · rw [if_neg hi, h.data]; simp [Ne.symm hi]
  · rw [hids, List.pairwise_append]
    exact ⟨h.ids, by simp, fun a ha b hb => by simp at hb; rw [hb]; exact h.below a ha⟩
  · rw [hids]
    intro i hi
    rcases List.mem_append.1 hi with hi | hi
    · exact Nat.lt_succ_of_lt (h.below i hi)
    · simp at hi; subst hi; exact Nat.lt_succ_self _

theorem Callbacks.drop_step (s : Callbacks F V R) (id : Nat) : CbStep s (s.drop id) := by
  intro h
  have hids : registeredIds (s.drop id).log = registeredIds s.log := by
    simp [Callbacks.drop, registeredIds]
  refine ⟨⟨?_, hids ▸ h.ids, hids ▸ h.below⟩, [.dropped id], rfl, .single _ _ (by simp) (by simp)⟩
  intro i
  show update s.data id none i = slot i (s.log ++ [_])
  rw [slot_append, update]
  by_cases hi : i = id
  · subst hi; simp
  · rw [if_neg hi, h.data]; simp [Ne.symm hi]

theorem slot_once {id : Nat} {f : F} : ∀ {b a : List (CbEvent F V R)} {once : Bool},
    slot id a = some (f, once) → id ∉ registeredIds b →
      slot id (a ++ b) = some (f, once) ∨ slot id (a ++ b) = none := by
  intro b
  induction b using List.reverseRecOn with
  | nil => intro a once h _; left; simpa using h
  | append_singleton b x ih =>
    intro a once h hb
    rw [registeredIds_append, List.mem_append, not_or] at hb
    rw [← List.append_assoc, slot_append]
    have := ih h hb.1
    cases x with
    | registered i g o =>
      have hi : i ≠ id := by
        have := hb.2; simp [registeredIds] at this; exact fun h => this h.symm
      simpa [hi] using this
    | dropped i =>
      by_cases hi : i = id
      · simp [hi]
      · simpa [hi] using this
    | hostCall n i v => exact this
    | ran n i g v r => exact this
    | answer n i r =>
      by_cases hi : i = id
      · simp only [hi, if_true]
        rcases this with h | h <;> rw [h] <;> cases once <;> simp
      · simpa [hi] using this

mutual
theorem Callbacks.exec_step (op : CbOp F V R) : ∀ s : Callbacks F V R, CbStep s (s.exec op) := by
  cases op with
  | register f once => intro s; rw [Callbacks.exec]; exact s.register_step f once
  | drop id => intro s; rw [Callbacks.exec]; exact s.drop_step id
  | call id v body r =>
    intro s hs
    rw [Callbacks.exec]
    cases hd : s.data id with
    | none =>
      have hsl : slot id s.log = none := by rw [← hs.data]; exact hd
      have hlog : ((s.begin id v).note (.answer s.calls id none)).log =
          s.log ++ [.hostCall s.calls id v, .answer s.calls id none] := by
        simp [Callbacks.begin, Callbacks.note]
      refine ⟨⟨?_, ?_, ?_⟩, _, hlog, ?_, ?_⟩
      · intro i
        rw [hlog]
        show s.data i = slot i (s.log ++ ([_] ++ [_]))
        rw [← List.append_assoc, slot_append, slot_append, hs.data]
        by_cases hi : id = i
        · subst hi; simp [hsl]
        · simp [hi]
      · rw [hlog, registeredIds_append]; simpa [registeredIds] using hs.ids
      · rw [hlog, registeredIds_append]
        have := hs.below
        simpa [registeredIds, Callbacks.begin, Callbacks.note] using this
      · intro a n i u b e
        cases a with
        | nil =>
          simp only [List.nil_append, List.cons.injEq, CbEvent.hostCall.injEq] at e
          obtain ⟨⟨rfl, rfl, rfl⟩, rfl⟩ := e
          unfold Dispatched
          rw [List.append_nil, hsl]
          exact ⟨[], rfl⟩
        | cons x a =>
          simp only [List.cons_append, List.cons.injEq] at e
          have : CbEvent.hostCall n i u ∈ [CbEvent.answer (F := F) (V := V) s.calls id (none : Option R)] := by
            rw [e.2]; simp
          simp at this
      · intro a n i f u r b e
        have : CbEvent.ran n i f u r ∈ [CbEvent.hostCall s.calls id v, .answer s.calls id none] := by
          rw [e]; simp
        simp at this
    | some x =>
      obtain ⟨f, once⟩ := x
      have hsl : slot id s.log = some (f, once) := by rw [← hs.data]; exact hd
      dsimp only
      generalize hs1 : (s.begin id v).note (.ran s.calls id f v r) = s1
      have hlog1 : s1.log = s.log ++ [.hostCall s.calls id v, .ran s.calls id f v r] := by
        rw [← hs1]; simp [Callbacks.begin, Callbacks.note]
      have hok1 : s1.Ok := by
        refine ⟨?_, ?_, ?_⟩
        · intro i
          rw [hlog1, ← hs1]
          show s.data i = slot i (s.log ++ ([_] ++ [_]))
          rw [← List.append_assoc, slot_append, slot_append, hs.data]
        · rw [hlog1, registeredIds_append]; simpa [registeredIds] using hs.ids
        · rw [hlog1, registeredIds_append, ← hs1]
          have := hs.below
          simpa [registeredIds, Callbacks.begin, Callbacks.note] using this
      obtain ⟨ho2, n2, hlog2, p2⟩ := Callbacks.execAll_step body s1 hok1
      generalize hs2 : s1.execAll body = s2 at ho2 hlog2 ⊢
      have hlog3 : (s2.finish s.calls id once r).log =
          s.log ++ (([.hostCall s.calls id v, .ran s.calls id f v r] ++ n2) ++
            [.answer s.calls id (some r)]) := by
        show s2.log ++ _ = _
        rw [hlog2, hlog1]; simp
      refine ⟨⟨?_, ?_, ?_⟩, _, hlog3, ?_, ?_⟩
      · intro i
        have hl : (s2.finish s.calls id once r).log = s2.log ++ [.answer s.calls id (some r)] := rfl
        rw [hl]
        show (if once then update s2.data id none else s2.data) i = _
        have hnot : id ∉ registeredIds ([CbEvent.hostCall s.calls id v, .ran s.calls id f v r] ++ n2) := by
          intro hmem
          have hpw := ho2.ids
          rw [hlog2, hlog1, List.append_assoc, registeredIds_append, List.pairwise_append] at hpw
          have : id ∈ registeredIds s.log := by
            by_contra hno
            have : ∀ (l : List (CbEvent F V R)), id ∉ registeredIds l → slot id l = none := by
              intro l
              induction l using List.reverseRecOn with
              | nil => intro _; rfl
              | append_singleton l x ih =>
                intro hl
                rw [registeredIds_append, List.mem_append, not_or] at hl
                rw [slot_append, ih hl.1]
                cases x with
                | registered i g o =>
                  have hi : i ≠ id := by
                    have := hl.2; simp [registeredIds] at this; exact fun h => this h.symm
                  simp [hi]
                | dropped i => simp
                | hostCall n i v => rfl
                | ran n i g v r => rfl
                | answer n i r => simp
            rw [this _ hno] at hsl
            simp at hsl
          exact Nat.lt_irrefl _ (hpw.2.2 id this id hmem)
        have hsl2 : slot id s2.log = some (f, once) ∨ slot id s2.log = none := by
          rw [hlog2, hlog1, List.append_assoc]
          exact slot_once hsl hnot
        by_cases hi : id = i
        · subst hi
          rw [slot_answer]
          cases once with
          | true =>
            rcases hsl2 with h | h <;> rw [h] <;> simp only [if_true, update] <;> rfl
          | false =>
            simp only [Bool.false_eq_true, if_false]
            rw [ho2.data]
            rcases hsl2 with h | h <;> rw [h] <;> rfl
        · have hi' : i ≠ id := Ne.symm hi
          rw [slot_append]
          cases once <;> simp [update, hi, hi', ho2.data]
      · have hl : (s2.finish s.calls id once r).log = s2.log ++ [.answer s.calls id (some r)] := rfl
        rw [hl, registeredIds_append]; simpa [registeredIds] using ho2.ids
      · have hl : (s2.finish s.calls id once r).log = s2.log ++ [.answer s.calls id (some r)] := rfl
        rw [hl, registeredIds_append]
        have := ho2.below
        simpa [registeredIds, Callbacks.finish] using this
      · intro a n i u b e
        cases a with
        | nil =>
          simp only [List.nil_append, List.cons_append, List.cons.injEq, CbEvent.hostCall.injEq] at e
          obtain ⟨⟨rfl, rfl, rfl⟩, rfl⟩ := e
          unfold Dispatched
          rw [List.append_nil, hsl]
          exact ⟨r, n2, [], by simp⟩
        | cons x a =>
          simp only [List.cons_append, List.nil_append, List.cons.injEq] at e
          obtain ⟨rfl, e⟩ := e
          cases a with
          | nil => simp at e
          | cons y a =>
            simp only [List.cons_append, List.cons.injEq] at e
            obtain ⟨rfl, e⟩ := e
            have hp : CbPiece s1.log (n2 ++ [.answer s.calls id (some r)]) :=
              p2.append (.single _ _ (by simp) (by simp))
            have := hp.good a n i u b e
            rw [hlog1] at this
            simpa using this
      · intro a n i g u q b e
        cases a with
        | nil => simp at e
        | cons x a =>
          simp only [List.cons_append, List.nil_append, List.cons.injEq] at e
          obtain ⟨rfl, e⟩ := e
          cases a with
          | nil =>
            simp only [List.nil_append, List.cons.injEq, CbEvent.ran.injEq] at e
            obtain ⟨⟨rfl, rfl, rfl, rfl, rfl⟩, rfl⟩ := e
            exact ⟨[], rfl⟩
          | cons y a =>
            simp only [List.cons_append, List.cons.injEq] at e
            obtain ⟨rfl, e⟩ := e
            have hp : CbPiece s1.log (n2 ++ [.answer s.calls id (some r)]) :=
              p2.append (.single _ _ (by simp) (by simp))
            obtain ⟨a', rfl⟩ := hp.caused a n i g u q b e
            exact ⟨.hostCall s.calls id v :: .ran s.calls id f v r :: a', by simp⟩
theorem Callbacks.execAll_step (ops : CbOps F V R) : ∀ s : Callbacks F V R, CbStep s (s.execAll ops) := by
  cases ops with
  | done => intro s hs; rw [Callbacks.execAll]; exact ⟨hs, [], by simp, .nil _⟩
  | next op rest =>
    intro s hs
    rw [Callbacks.execAll]
    obtain ⟨h1, n1, l1, p1⟩ := Callbacks.exec_step op s hs
    obtain ⟨h2, n2, l2, p2⟩ := Callbacks.execAll_step rest _ h1
    exact ⟨h2, n1 ++ n2, by rw [l2, l1, List.append_assoc], p1.append (l1 ▸ p2)⟩
end

theorem callbacks_ok : (Callbacks.new (F := F) (V := V) (R := R)).Ok :=
  ⟨fun _ => rfl, by simp [Callbacks.new, registeredIds], by simp [Callbacks.new, registeredIds]⟩

/-- The events of a history of operations on a new store. -/
def cbHistory (ops : CbOps F V R) : List (CbEvent F V R) := ((Callbacks.new).execAll ops).log

theorem cbHistory_piece (ops : CbOps F V R) : CbPiece [] (cbHistory ops) := by
  obtain ⟨_, n, hn, p⟩ := Callbacks.execAll_step ops _ (callbacks_ok (F := F) (V := V) (R := R))
  have : cbHistory ops = n := by unfold cbHistory; rw [hn]; rfl
  rw [this]; exact p

/-- **C38** (dispatch).  In every history, with functions that register, drop and are called again while
they run: a host call of an id runs exactly the function registered under that id, with the argument of
the call, and answers with its result; if nothing is registered under the id (any more) nothing runs. -/
theorem C38_dispatch (ops : CbOps F V R) (a : List (CbEvent F V R)) (n id : Nat) (v : V)
    (b : List (CbEvent F V R)) (h : cbHistory ops = a ++ .hostCall n id v :: b) :
    Dispatched a n id v b := by
  simpa using (cbHistory_piece ops).good a n id v b h

/-- **C38** (only on request).  A function runs only because the host has just called its id. -/
theorem C38_only_called (ops : CbOps F V R) (a : List (CbEvent F V R)) (n id : Nat) (f : F) (v : V) (r : R)
    (b : List (CbEvent F V R)) (h : cbHistory ops = a ++ .ran n id f v r :: b) :
    ∃ a', a = a' ++ [.hostCall n id v] ∧ (slot id a').map Prod.fst = some f := by
  obtain ⟨a', rfl⟩ := (cbHistory_piece ops).caused a n id f v r b h
  refine ⟨a', rfl, ?_⟩
  have := C38_dispatch ops a' n id v (.ran n id f v r :: b) (by rw [h]; simp)
  unfold Dispatched at this
  cases hs : slot id a' with
  | none => rw [hs] at this; obtain ⟨d, hd⟩ := this; simp at hd
  | some x =>
    rw [hs] at this
    obtain ⟨r', c, d, hd⟩ := this
    simp only [List.cons_append, List.cons.injEq, CbEvent.ran.injEq, true_and] at hd
    simp [hd.1]

/-- **C38** (ids).  No id is given out twice. -/
theorem C38_ids (ops : CbOps F V R) : (registeredIds (cbHistory ops)).Pairwise (· < ·) :=
  (Callbacks.execAll_step ops _ callbacks_ok).1.ids

/-- Once a call of a once-function is answered, the slot is empty, and stays so. -/
theorem slot_freed {id : Nat} {f : F} {n : Nat} {r : Option R} {a b d : List (CbEvent F V R)}
    (hids : (registeredIds (a ++ .registered id f true :: (b ++ .answer n id r :: d))).Pairwise (· < ·)) :
    slot id (a ++ .registered id f true :: (b ++ .answer n id r :: d)) = none := by
  have hp : a ++ .registered id f true :: (b ++ .answer n id r :: d) =
      (a ++ [.registered id f true]) ++ (b ++ .answer n id r :: d) := by simp
  rw [hp, registeredIds_append, List.pairwise_append] at hids
  have hno : id ∉ registeredIds (b ++ .answer n id r :: d) := by
    intro h
    have h' : id ∈ registeredIds (a ++ [CbEvent.registered (V := V) (R := R) id f true]) := by
      simp [registeredIds]
    exact Nat.lt_irrefl _ (hids.2.2 id h' id h)
  rw [registeredIds_append, List.mem_append, not_or] at hno
  have h0 : slot id (a ++ [CbEvent.registered id f true]) = some (f, true) := by
    rw [slot_append]; simp
  have h1 := slot_once h0 hno.1
  have h2 : slot id (((a ++ [CbEvent.registered id f true]) ++ b) ++ [.answer n id r]) = none := by
    rw [slot_answer]
    rcases h1 with h | h <;> rw [h] <;> rfl
  have h3 : ∀ (d l : List (CbEvent F V R)), slot id l = none → id ∉ registeredIds d →
      slot id (l ++ d) = none := by
    intro d
    induction d using List.reverseRecOn with
    | nil => intro l h _; simpa using h
    | append_singleton d x ih =>
      intro l h hd
      rw [registeredIds_append, List.mem_append, not_or] at hd
      rw [← List.append_assoc, slot_append, ih l h hd.1]
      cases x with
      | registered i g o =>
        have hi : i ≠ id := by
          have := hd.2; simp [registeredIds] at this; exact fun h => this h.symm
        simp [hi]
      | dropped i => simp
      | hostCall n i v => rfl
      | ran n i g v r => rfl
      | answer n i r => simp
  rw [hp]
  have := h3 d _ h2 (by
    have := hno.2
    simpa [registeredIds] using this)
  simpa using this

/-- **C38** (once).  A function registered with `register_once` runs a second time only if the host calls
it again while its first run has not returned: once a call of it has been answered, its slot is empty and
it never runs again. -/
theorem C38_once (ops : CbOps F V R) (a c d : List (CbEvent F V R)) (id : Nat) (f : F) (n : Nat)
    (r : Option R) (h : cbHistory ops = a ++ .registered id f true :: (c ++ .answer n id r :: d)) :
    (∀ d1 d2, d = d1 ++ d2 → slot id (a ++ .registered id f true :: (c ++ .answer n id r :: d1)) = none) ∧
      ∀ m g v q, .ran m id g v q ∉ d := by
  have hids := C38_ids ops
  rw [h] at hids
  have hfree : ∀ d1 d2, d = d1 ++ d2 →
      slot id (a ++ .registered id f true :: (c ++ .answer n id r :: d1)) = none := by
    rintro d1 d2 rfl
    apply slot_freed
    have e : a ++ .registered id f true :: (c ++ .answer n id r :: (d1 ++ d2)) =
        (a ++ .registered id f true :: (c ++ .answer n id r :: d1)) ++ d2 := by simp
    rw [e, registeredIds_append, List.pairwise_append] at hids
    exact hids.1
  refine ⟨hfree, ?_⟩
  intro m g v q hm
  obtain ⟨d1, d2, rfl⟩ := List.append_of_mem hm
  obtain ⟨a', ha', hs⟩ := C38_only_called ops
    (a ++ .registered id f true :: (c ++ .answer n id r :: d1)) m id g v q d2 (by rw [h]; simp)
  rcases List.eq_nil_or_concat d1 with rfl | ⟨d1', x, rfl⟩
  · have := congrArg List.getLast? ha'
    rw [List.getLast?_append, List.getLast?_append] at this
    simp only [List.getLast?_cons, List.getLast?_append] at this
    simp at this
  · rw [List.concat_eq_append] at ha'
    have e : a ++ .registered id f true :: (c ++ .answer n id r :: (d1' ++ [x])) =
        (a ++ .registered id f true :: (c ++ .answer n id r :: d1')) ++ [x] := by simp
    rw [e] at ha'
    have := (List.append_inj' ha' rfl).1
    rw [← this, hfree d1' ([x] ++ .ran m id g v q :: d2) (by simp)] at hs
    simp at hs

/-- A history: a permanent callback, a once-callback that registers another callback while it runs, and
host calls of both, of the freed slot and of a dropped id. -/
def exampleCalls : CbOps Nat Nat Nat :=
  .next (.register 10 false) (.next (.register 20 true)
    (.next (.call 2 5 (.next (.register 30 false) .done) 50)
      (.next (.call 2 6 .done 60) (.next (.call 1 7 .done 70) (.next (.drop 1)
        (.next (.call 1 8 .done 80) .done))))))

theorem exampleCalls_history : cbHistory exampleCalls =
    [.registered 1 10 false, .registered 2 20 true,
      .hostCall 0 2 5, .ran 0 2 20 5 50, .registered 3 30 false, .answer 0 2 (some 50),
      .hostCall 1 2 6, .answer 1 2 none,
      .hostCall 2 1 7, .ran 2 1 10 7 70, .answer 2 1 (some 70),
      .dropped 1, .hostCall 3 1 8, .answer 3 1 none] := by
  simp [cbHistory, exampleCalls, Callbacks.execAll, Callbacks.exec, Callbacks.new, Callbacks.register,
    Callbacks.drop, Callbacks.note, Callbacks.begin, Callbacks.finish, update]

/-- The hypothesis of `C38_once` is met by this history. -/
example : ∃ a c d, cbHistory exampleCalls = a ++ .registered 2 20 true :: (c ++ .answer 0 2 (some 50) :: d) :=
  ⟨[.registered 1 10 false], [.hostCall 0 2 5, .ran 0 2 20 5 50, .registered 3 30 false],
    [.hostCall 1 2 6, .answer 1 2 none, .hostCall 2 1 7, .ran 2 1 10 7 70, .answer 2 1 (some 70),
      .dropped 1, .hostCall 3 1 8, .answer 3 1 none], exampleCalls_history⟩

/-- The exception in `C38_once` is real: called again by the host while it is running, a function
registered with `register_once` runs twice, because it is removed only after it has returned. -/
theorem C38_once_reentrant_violated : ∃ (ops : CbOps Nat Nat Nat) (a b c : List (CbEvent Nat Nat Nat)),
    cbHistory ops = a ++ .ran 0 1 10 5 50 :: (b ++ .ran 1 1 10 6 60 :: c) ∧
      .registered 1 10 true ∈ a := by
  refine ⟨.next (.register 10 true) (.next (.call 1 5 (.next (.call 1 6 .done 60) .done) 50) .done),
    [.registered 1 10 true, .hostCall 0 1 5], [.hostCall 1 1 6],
    [.answer 1 1 (some 60), .answer 0 1 (some 50)], ?_, by simp⟩
  simp [cbHistory, Callbacks.execAll, Callbacks.exec, Callbacks.new, Callbacks.register,
    Callbacks.note, Callbacks.begin, Callbacks.finish, update]

end Verif.Async

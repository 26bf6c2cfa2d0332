import Mathlib.Data.List.Induction
import Mathlib.Data.List.Sort
/-!
# EventEmitter (C37)

`crates/vertigo/src/driver_module/event_emitter.rs`.  Listeners may add and drop listeners and trigger
the emitter again while they are being called, so a call carries the operations its listener performs.

`F` stands for listeners and `V` for the values passed to them.  The counter of the code is a `u32`; the
model counts without a bound (fewer than 2^32 listeners over the life of an emitter).
-/

namespace Verif.Async

mutual
/-- An operation of the application on an emitter.  `trigger v react`: the listener with id `i`, when it is
called by this trigger, performs the operations `react i` before it returns. -/
inductive EmOp (F V : Type) where
  | add (f : F)
  | drop (id : Nat)
  | trigger (v : V) (react : Nat → EmOps F V)
/-- A sequence of operations. -/
inductive EmOps (F V : Type) where
  | done
  | next (op : EmOp F V) (rest : EmOps F V)
end

/-- What can be seen from outside.  Each trigger has a number of its own. -/
inductive EmEvent (F V : Type) where
  | added (id : Nat) (f : F)
  | dropped (id : Nat)
  | triggered (k : Nat) (v : V)
  | called (k : Nat) (id : Nat) (f : F) (v : V)

/-- `event_emitter.rs:8-12`, with the events so far (the log is not part of the code). -/
structure Emitter (F V : Type) where
  counter : Nat
  list : List (Nat × F)
  triggers : Nat
  log : List (EmEvent F V)

variable {F V : Type}

/-- `event_emitter.rs:14-21`: the counter starts at 1. -/
def Emitter.new : Emitter F V := { counter := 1, list := [], triggers := 0, log := [] }

/-- `BTreeMap::insert`, the map as the list of its entries in key order. -/
def mapInsert (id : Nat) (f : F) : List (Nat × F) → List (Nat × F)
  | [] => [(id, f)]
  | (i, g) :: rest =>
    if id < i then (id, f) :: (i, g) :: rest
    else if id = i then (id, f) :: rest
    else (i, g) :: mapInsert id f rest

/-- `BTreeMap::remove`. -/
def mapRemove (id : Nat) (l : List (Nat × F)) : List (Nat × F) := l.filter fun e => e.1 != id

/-- `event_emitter.rs:24-35` `add`. -/
def Emitter.add (s : Emitter F V) (f : F) : Emitter F V :=
  { s with
    counter := s.counter + 1
    list := mapInsert s.counter f s.list
    log := s.log ++ [.added s.counter f] }

/-- `event_emitter.rs:29-34`: the function run when the `DropResource` of a listener is dropped. -/
def Emitter.drop (s : Emitter F V) (id : Nat) : Emitter F V :=
  { s with list := mapRemove id s.list, log := s.log ++ [.dropped id] }

/-- The log entry of a call. -/
def Emitter.call (s : Emitter F V) (k : Nat) (e : Nat × F) (v : V) : Emitter F V :=
  { s with log := s.log ++ [.called k e.1 e.2 v] }

/-- The log entry of a trigger. -/
def Emitter.start (s : Emitter F V) (v : V) : Emitter F V :=
  { s with triggers := s.triggers + 1, log := s.log ++ [.triggered s.triggers v] }

mutual
/-- One operation.  `trigger` (`event_emitter.rs:37-48`) first copies the listeners out of the map, in key
order, and then calls each of them. -/
def Emitter.exec (s : Emitter F V) : EmOp F V → Emitter F V
  | .add f => s.add f
  | .drop id => s.drop id
  | .trigger v react =>
    let callbackList := s.list
    callbackList.foldl (fun s' e => (s'.call s.triggers e v).execAll (react e.1)) (s.start v)
/-- A sequence of operations. -/
def Emitter.execAll (s : Emitter F V) : EmOps F V → Emitter F V
  | .done => s
  | .next op rest => (s.exec op).execAll rest
end

/-! ## Specification -/

/-- The listeners registered and not dropped, in the order of their registration, read off the events. -/
def listeners (log : List (EmEvent F V)) : List (Nat × F) :=
  log.foldl (fun acc e => match e with
    | .added id f => acc ++ [(id, f)]
    | .dropped id => acc.filter fun x => x.1 != id
    | _ => acc) []

/-- The calls made by trigger `k`, in order. -/
def callsOf (k : Nat) (log : List (EmEvent F V)) : List (Nat × F × V) :=
  log.filterMap fun
    | .called k' id f v => if k' = k then some (id, f, v) else none
    | _ => none

/-! ## Proof -/

/-- The ids given out so far. -/
def addedIds (log : List (EmEvent F V)) : List Nat :=
  log.filterMap fun
    | .added id _ => some id
    | _ => none

/-- The state agrees with its log. -/
structure Emitter.Ok (s : Emitter F V) : Prop where
  list : s.list = listeners s.log
  below : ∀ e ∈ s.list, e.1 < s.counter
  sorted : s.list.Pairwise fun a b => a.1 < b.1
  ids : (addedIds s.log).Pairwise (· < ·)
  idsBelow : ∀ i ∈ addedIds s.log, i < s.counter

theorem mapInsert_last (id : Nat) (f : F) (l : List (Nat × F)) (h : ∀ e ∈ l, e.1 < id) :
    mapInsert id f l = l ++ [(id, f)] := by
  induction l with
  | nil => rfl
  | cons e l ih =>
    obtain ⟨i, g⟩ := e
    have hi : i < id := h (i, g) (by simp)
    have h1 : ¬ id < i := by omega
    have h2 : ¬ id = i := by omega
    simp [mapInsert, h1, h2, ih fun e he => h e (List.mem_cons_of_mem _ he)]

theorem listeners_append (a : List (EmEvent F V)) (e : EmEvent F V) :
    listeners (a ++ [e]) = (match e with
      | .added id f => listeners a ++ [(id, f)]
      | .dropped id => (listeners a).filter fun x => x.1 != id
      | _ => listeners a) := by
  unfold listeners
  rw [List.foldl_append]
  cases e <;> rfl

/-- What a piece of the log, produced while the state went from `s` to `s'`, must look like. -/
structure Piece (s s' : Emitter F V) (new : List (EmEvent F V)) : Prop where
  log : s'.log = s.log ++ new
  mono : s.triggers ≤ s'.triggers
  fresh : ∀ k, k < s.triggers → callsOf k new = []
  old : ∀ k, s'.triggers ≤ k → callsOf k new = []
  used : ∀ k v, .triggered k v ∈ new → s.triggers ≤ k ∧ k < s'.triggers
  good : ∀ a k v b, new = a ++ .triggered k v :: b →
    callsOf k a = [] ∧ callsOf k b = (listeners (s.log ++ a)).map fun e => (e.1, e.2, v)

theorem callsOf_append (k : Nat) (a b : List (EmEvent F V)) :
    callsOf k (a ++ b) = callsOf k a ++ callsOf k b := by simp [callsOf]

theorem Piece.trans {s s' s'' : Emitter F V} {n n' : List (EmEvent F V)}
    (h : Piece s s' n) (h' : Piece s' s'' n') : Piece s s'' (n ++ n') := by
  refine ⟨by rw [h'.log, h.log, List.append_assoc], h.mono.trans h'.mono, ?_, ?_, ?_, ?_⟩
  · intro k hk
    rw [callsOf_append, h.fresh k hk, h'.fresh k (lt_of_lt_of_le hk h.mono)]; rfl
  · intro k hk
    rw [callsOf_append, h.old k (h'.mono.trans hk), h'.old k hk]; rfl
  · intro k v hm
    rcases List.mem_append.1 hm with hm | hm
    · exact ⟨(h.used k v hm).1, lt_of_lt_of_le (h.used k v hm).2 h'.mono⟩
    · exact ⟨h.mono.trans (h'.used k v hm).1, (h'.used k v hm).2⟩
  · intro a k v b e
    rcases List.append_eq_append_iff.1 e with ⟨c, rfl, hc⟩ | ⟨c, rfl, hc⟩
    · -- the trigger is in the second part
      obtain ⟨h1, h2⟩ := h'.good c k v b hc
      have hk := (h'.used k v (by rw [hc]; simp)).1
      refine ⟨by rw [callsOf_append, h1, h.old k hk]; rfl, ?_⟩
      rw [h2, h.log, List.append_assoc]
    · cases c with
      | nil =>
        simp only [List.nil_append] at hc
        obtain ⟨h1, h2⟩ := h'.good [] k v b hc.symm
        have hk := (h'.used k v (by rw [← hc]; simp)).1
        simp only [List.append_nil] at h h2 ⊢
        refine ⟨h.old k hk, ?_⟩
        rw [h2, h.log]
      | cons x c =>
        simp only [List.cons_append, List.cons.injEq] at hc
        obtain ⟨rfl, rfl⟩ := hc
        obtain ⟨h1, h2⟩ := h.good a k v c rfl
        have hk := (h.used k v (by simp)).2
        refine ⟨h1, ?_⟩
        rw [callsOf_append, h2, h'.fresh k hk, List.append_nil]

theorem Piece.refl (s : Emitter F V) : Piece s s [] :=
  ⟨by simp, le_refl _, fun _ _ => rfl, fun _ _ => rfl, by simp, by simp⟩

/-- An operation leaves a consistent state and a well formed piece of log. -/
def Step (s s' : Emitter F V) : Prop := s.Ok → s'.Ok ∧ ∃ new, Piece s s' new

theorem Emitter.add_step (s : Emitter F V) (f : F) : Step s (s.add f) := by
  intro h
  have hids : addedIds (s.add f).log = addedIds s.log ++ [s.counter] := by
    simp [Emitter.add, addedIds]
  refine ⟨⟨?_, ?_, ?_, ?_, ?_⟩, [.added s.counter f], ?_⟩
  · show mapInsert s.counter f s.list = listeners (s.log ++ [_])
    rw [listeners_append, mapInsert_last _ _ _ h.below, h.list]
  · show ∀ e ∈ mapInsert s.counter f s.list, e.1 < s.counter + 1
    rw [mapInsert_last _ _ _ h.below]
    intro e he
    rcases List.mem_append.1 he with he | he
    · exact Nat.lt_succ_of_lt (h.below e he)
    · simp at he; simp [he]
  · show (mapInsert s.counter f s.list).Pairwise _
    rw [mapInsert_last _ _ _ h.below, List.pairwise_append]
    exact ⟨h.sorted, by simp, fun a ha b hb => by simp at hb; rw [hb]; exact h.below a ha⟩
  · rw [hids, List.pairwise_append]
    exact ⟨h.ids, by simp, fun a ha b hb => by simp at hb; rw [hb]; exact h.idsBelow a ha⟩
  · rw [hids]
    intro i hi
    rcases List.mem_append.1 hi with hi | hi
    · exact Nat.lt_succ_of_lt (h.idsBelow i hi)
    · simp at hi; subst hi; exact Nat.lt_succ_self _
  · refine ⟨rfl, le_refl _, fun _ _ => rfl, fun _ _ => rfl, by simp, ?_⟩
    intro a k v b e
    have := congrArg (fun l => EmEvent.triggered k v ∈ l) e
    simp at this

theorem Emitter.drop_step (s : Emitter F V) (id : Nat) : Step s (s.drop id) := by
  intro h
  have hids : addedIds (s.drop id).log = addedIds s.log := by simp [Emitter.drop, addedIds]
  refine ⟨⟨?_, ?_, ?_, hids ▸ h.ids, hids ▸ h.idsBelow⟩, [.dropped id], ?_⟩
  · show mapRemove id s.list = listeners (s.log ++ [_])
    rw [listeners_append, mapRemove, h.list]
  · exact fun e he => h.below e (List.mem_of_mem_filter he)
  · exact h.sorted.sublist List.filter_sublist
  · refine ⟨rfl, le_refl _, fun _ _ => rfl, fun _ _ => rfl, by simp, ?_⟩
    intro a k v b e
    have := congrArg (fun l => EmEvent.triggered k v ∈ l) e
    simp at this

/-- The calls of one trigger, one after the other. -/
theorem calls_step (v : V) (react : Nat → EmOps F V)
    (ih : ∀ i (s : Emitter F V), Step s (s.execAll (react i))) (k : Nat) :
    ∀ (l : List (Nat × F)) (s : Emitter F V), s.Ok → k < s.triggers →
      let s' := l.foldl (fun s' e => (s'.call k e v).execAll (react e.1)) s
      s'.Ok ∧ s.triggers ≤ s'.triggers ∧ ∃ new, s'.log = s.log ++ new ∧
        callsOf k new = l.map (fun e => (e.1, e.2, v)) ∧
        (∀ j, j < s.triggers → j ≠ k → callsOf j new = []) ∧
        (∀ j, s'.triggers ≤ j → callsOf j new = []) ∧
        (∀ j u, .triggered j u ∈ new → s.triggers ≤ j ∧ j < s'.triggers) ∧
        (∀ a j u b, new = a ++ .triggered j u :: b →
          callsOf j a = [] ∧ callsOf j b = (listeners (s.log ++ a)).map fun e => (e.1, e.2, u)) := by
  intro l
  induction l with
  | nil =>
    intro s hs hk
    exact ⟨hs, le_refl _, [], by simp, rfl, fun _ _ _ => rfl, fun _ _ => rfl, by simp, by simp⟩
  | cons e l ihl =>
    intro s hs hk
    have hc : (s.call k e v).Ok := by
      have hids : addedIds (s.call k e v).log = addedIds s.log := by simp [Emitter.call, addedIds]
      refine ⟨?_, hs.below, hs.sorted, hids ▸ hs.ids, hids ▸ hs.idsBelow⟩
      show s.list = listeners (s.log ++ [_])
      rw [listeners_append, hs.list]
    obtain ⟨ho, n1, p1⟩ := ih e.1 _ hc
    have hk1 : k < ((s.call k e v).execAll (react e.1)).triggers := lt_of_lt_of_le hk p1.mono
    obtain ⟨h1, h2, n2, h3, h4, h5, h6, h7, h8⟩ := ihl _ ho hk1
    have hlog1 : ((s.call k e v).execAll (react e.1)).log =
        (s.log ++ [.called k e.1 e.2 v]) ++ n1 := p1.log
    have hmono : s.triggers ≤ ((s.call k e v).execAll (react e.1)).triggers := p1.mono
    refine ⟨h1, hmono.trans h2, .called k e.1 e.2 v :: (n1 ++ n2), ?_, ?_, ?_, ?_, ?_, ?_⟩
    · rw [List.foldl_cons, h3, hlog1]; simp
    · have : callsOf k n1 = [] := p1.fresh k hk
      show callsOf k ([_] ++ (n1 ++ n2)) = _
      rw [callsOf_append, callsOf_append, this, h4]
      simp [callsOf]
    · intro j hj hjk
      show callsOf j ([_] ++ (n1 ++ n2)) = _
      rw [callsOf_append, callsOf_append, p1.fresh j hj, h5 j (lt_of_lt_of_le hj hmono) hjk]
      simp [callsOf, Ne.symm hjk]
    · intro j hj
      have hj2 : ((s.call k e v).execAll (react e.1)).triggers ≤ j := h2.trans hj
      have hjk : k ≠ j := by
        have := hk1
        intro h; subst h; exact absurd hj2 (not_le.2 this)
      show callsOf j ([_] ++ (n1 ++ n2)) = _
      rw [callsOf_append, callsOf_append, p1.old j hj2, h6 j hj]
      simp [callsOf, hjk]
    · intro j u hm
      simp only [List.mem_cons, reduceCtorEq, List.mem_append, false_or] at hm
      rcases hm with hm | hm
      · exact ⟨(p1.used j u hm).1, lt_of_lt_of_le (p1.used j u hm).2 h2⟩
      · exact ⟨hmono.trans (h7 j u hm).1, (h7 j u hm).2⟩
    · intro a j u b heq
      cases a with
      | nil => simp at heq
      | cons x a =>
        simp only [List.cons_append, List.cons.injEq] at heq
        obtain ⟨rfl, heq⟩ := heq
        rcases List.append_eq_append_iff.1 heq with ⟨c, rfl, hc'⟩ | ⟨c, rfl, hc'⟩
        · obtain ⟨g1, g2⟩ := h8 c j u b hc'
          have hj := (h7 j u (by rw [hc']; simp)).1
          have hjk : k ≠ j := fun h => absurd (h ▸ hj) (not_le.2 hk1)
          refine ⟨?_, ?_⟩
          · show callsOf j ([_] ++ (n1 ++ c)) = _
            rw [callsOf_append, callsOf_append, p1.old j hj, g1]
            simp [callsOf, hjk]
          · rw [g2, hlog1]; simp
        · cases c with
          | nil =>
            simp only [List.nil_append, List.append_nil] at hc' p1 hlog1 ⊢
            obtain ⟨g1, g2⟩ := h8 [] j u b hc'.symm
            have hj := (h7 j u (by rw [← hc']; simp)).1
            have hjk : k ≠ j := fun h => absurd (h ▸ hj) (not_le.2 hk1)
            refine ⟨?_, ?_⟩
            · show callsOf j ([_] ++ a) = _
              rw [callsOf_append, p1.old j hj]
              simp [callsOf, hjk]
            · rw [g2, hlog1]; simp
          | cons y c =>
            simp only [List.cons_append, List.cons.injEq] at hc'
            obtain ⟨rfl, rfl⟩ := hc'
            obtain ⟨g1, g2⟩ := p1.good a j u c rfl
            have hj := p1.used j u (by simp)
            have hjk : k ≠ j := fun h => absurd (h ▸ hj.1 : s.triggers ≤ k) (not_le.2 hk)
            refine ⟨?_, ?_⟩
            · show callsOf j ([_] ++ a) = _
              rw [callsOf_append, g1]
              simp [callsOf, hjk]
            · rw [callsOf_append, g2, h5 j hj.2 (Ne.symm hjk)]
              simp [Emitter.call]

mutual
theorem Emitter.exec_step (op : EmOp F V) : ∀ s : Emitter F V, Step s (s.exec op) := by
  cases op with
  | add f => intro s; rw [Emitter.exec]; exact s.add_step f
  | drop id => intro s; rw [Emitter.exec]; exact s.drop_step id
  | trigger v react =>
    intro s hs
    have ih : ∀ i (s : Emitter F V), Step s (s.execAll (react i)) := fun i => Emitter.execAll_step (react i)
    have ho : (s.start v).Ok := by
      have hids : addedIds (s.start v).log = addedIds s.log := by simp [Emitter.start, addedIds]
      refine ⟨?_, hs.below, hs.sorted, hids ▸ hs.ids, hids ▸ hs.idsBelow⟩
      show s.list = listeners (s.log ++ [_])
      rw [listeners_append, hs.list]
    obtain ⟨h1, h2, n, h3, h4, h5, h6, h7, h8⟩ :=
      calls_step v react ih s.triggers s.list (s.start v) ho (Nat.lt_succ_self _)
    rw [Emitter.exec]
    refine ⟨h1, .triggered s.triggers v :: n, ?_, ?_, ?_, ?_, ?_, ?_⟩
    · rw [h3]; simp [Emitter.start]
    · exact (Nat.le_succ _).trans h2
    · intro k hk
      exact h5 k (Nat.lt_succ_of_lt hk) (Nat.ne_of_lt hk)
    · exact fun k hk => h6 k hk
    · intro k u hm
      rcases List.mem_cons.1 hm with hm | hm
      · injection hm with e1 e2
        subst e1
        exact ⟨le_refl _, h2⟩
      · exact ⟨(Nat.le_succ _).trans (h7 k u hm).1, (h7 k u hm).2⟩
    · intro a k u b heq
      cases a with
      | nil =>
        simp only [List.nil_append, List.cons.injEq, EmEvent.triggered.injEq] at heq
        obtain ⟨⟨rfl, rfl⟩, rfl⟩ := heq
        refine ⟨rfl, ?_⟩
        rw [h4, List.append_nil, hs.list]
      | cons x a =>
        simp only [List.cons_append, List.cons.injEq] at heq
        obtain ⟨rfl, heq⟩ := heq
        obtain ⟨g1, g2⟩ := h8 a k u b heq
        refine ⟨g1, ?_⟩
        rw [g2]; simp [Emitter.start]
theorem Emitter.execAll_step (ops : EmOps F V) : ∀ s : Emitter F V, Step s (s.execAll ops) := by
  cases ops with
  | done => intro s hs; rw [Emitter.execAll]; exact ⟨hs, [], Piece.refl s⟩
  | next op rest =>
    intro s hs
    rw [Emitter.execAll]
    obtain ⟨h1, n1, p1⟩ := Emitter.exec_step op s hs
    obtain ⟨h2, n2, p2⟩ := Emitter.execAll_step rest _ h1
    exact ⟨h2, n1 ++ n2, p1.trans p2⟩
end

theorem new_ok : (Emitter.new (F := F) (V := V)).Ok :=
  ⟨rfl, by simp [Emitter.new], by simp [Emitter.new], by simp [Emitter.new, addedIds],
    by simp [Emitter.new, addedIds]⟩

/-- **C37**.  In every history of an emitter, with listeners that add, drop and trigger as they like while
they are called: a trigger calls exactly the listeners registered and not dropped when it starts, in the
order of their registration, each once and with the value of the trigger. -/
theorem C37_trigger (ops : EmOps F V) (a : List (EmEvent F V)) (k : Nat) (v : V)
    (b : List (EmEvent F V)) (h : ((Emitter.new).execAll ops).log = a ++ .triggered k v :: b) :
    callsOf k (a ++ .triggered k v :: b) = (listeners a).map fun e => (e.1, e.2, v) := by
  obtain ⟨_, n, p⟩ := Emitter.execAll_step ops _ new_ok
  have hn : n = a ++ .triggered k v :: b := by rw [← h, p.log]; rfl
  obtain ⟨g1, g2⟩ := p.good a k v b hn
  rw [callsOf_append, g1]
  simpa [Emitter.new, callsOf] using g2

theorem mem_listeners_append {e : Nat × F} : ∀ (b a : List (EmEvent F V)),
    e ∈ listeners (a ++ b) → e ∈ listeners a ∨ ∃ f, .added e.1 f ∈ b := by
  intro b
  induction b using List.reverseRecOn with
  | nil => intro a h; left; simpa using h
  | append_singleton b x ih =>
    intro a h
    rw [← List.append_assoc, listeners_append] at h
    have lift : (e ∈ listeners a ∨ ∃ f, .added e.1 f ∈ b) →
        (e ∈ listeners a ∨ ∃ f, .added e.1 f ∈ b ++ [x]) := by
      rintro (h | ⟨f, h⟩)
      · exact .inl h
      · exact .inr ⟨f, by simp [h]⟩
    cases x with
    | added id f =>
      rcases List.mem_append.1 h with h | h
      · exact lift (ih a h)
      · simp at h; right; exact ⟨f, by simp [h]⟩
    | dropped id => exact lift (ih a (List.mem_of_mem_filter h))
    | triggered k v => exact lift (ih a h)
    | called k id f v => exact lift (ih a h)

/-- **C37**.  Once a listener has been dropped, no trigger that starts later calls it, in any history. -/
theorem C37_dropped (ops : EmOps F V) (a b : List (EmEvent F V)) (id : Nat) (f : F)
    (h : ((Emitter.new).execAll ops).log = a ++ .dropped id :: b) (ha : .added id f ∈ a)
    (a' b' : List (EmEvent F V)) (k : Nat) (v : V) (hb : b = a' ++ .triggered k v :: b') :
    ∀ c ∈ callsOf k ((Emitter.new).execAll ops).log, c.1 ≠ id := by
  have hl : ((Emitter.new).execAll ops).log = (a ++ .dropped id :: a') ++ .triggered k v :: b' := by
    rw [h, hb]; simp
  have ht := C37_trigger ops _ k v b' hl
  rw [hl, ht]
  intro c hc
  obtain ⟨e, he, rfl⟩ := List.mem_map.1 hc
  show e.1 ≠ id
  intro hid
  have e1 : a ++ .dropped id :: a' = (a ++ [.dropped id]) ++ a' := by simp
  rw [e1] at he
  rcases mem_listeners_append a' _ he with he | ⟨g, hg⟩
  · rw [listeners_append] at he
    have := (List.mem_filter.1 he).2
    simp [hid] at this
  · have hs := (Emitter.execAll_step ops _ (new_ok (F := F) (V := V))).1.ids
    rw [hl] at hs
    have e2 : (a ++ .dropped id :: a') ++ .triggered k v :: b' =
        a ++ (.dropped id :: a' ++ .triggered k v :: b') := by simp
    rw [e2] at hs
    unfold addedIds at hs
    rw [List.filterMap_append, List.pairwise_append] at hs
    have h1 : id ∈ addedIds a := List.mem_filterMap.2 ⟨_, ha, rfl⟩
    have h2 : id ∈ addedIds (.dropped id :: a' ++ .triggered k v :: b') :=
      List.mem_filterMap.2 ⟨.added e.1 g, by simp [hg], by simp [hid]⟩
    exact lt_irrefl _ (hs.2.2 id h1 id h2)

/-- The events of a history. -/
def history (ops : EmOps F V) : List (EmEvent F V) := ((Emitter.new).execAll ops).log

/-- Two listeners; while the first one is called by trigger 0 it drops the second, adds a third and
triggers again. -/
def exampleOps : EmOps Nat Nat :=
  .next (.add 10) (.next (.add 20) (.next (.trigger 7 fun i =>
    if i = 1 then .next (.drop 2) (.next (.add 30) (.next (.trigger 8 fun _ => .done) .done)) else .done)
    (.next (.trigger 9 fun _ => .done) .done)))

/-- The second listener is still called by the trigger that was running when it was dropped, and by no
other; the third one is called only by the triggers that start after it was added. -/
example : history exampleOps =
    [.added 1 10, .added 2 20, .triggered 0 7, .called 0 1 10 7, .dropped 2, .added 3 30,
      .triggered 1 8, .called 1 1 10 8, .called 1 3 30 8, .called 0 2 20 7,
      .triggered 2 9, .called 2 1 10 9, .called 2 3 30 9] := by
  simp [history, exampleOps, Emitter.execAll, Emitter.exec, Emitter.new, Emitter.add, Emitter.drop,
    Emitter.call, Emitter.start, mapInsert, mapRemove]

end Verif.Async

import Verif.Reactive.Steps
import Verif.Reactive.GraphLemmas
/-! # What the operations leave alone -/
namespace Verif.Reactive

variable {V : Type}

/-- The parts of the state that evaluation and link updates never touch. -/
structure Same (s s' : St V) : Prop where
  next : s'.next = s.next
  vals : s'.vals = s.vals
  defs : s'.defs = s.defs
  tx : s'.tx = s.tx
  connectable : s'.connectable = s.connectable
  todo : s'.todo = s.todo

theorem Same.refl (s : St V) : Same s s := ⟨rfl, rfl, rfl, rfl, rfl, rfl⟩
theorem Same.trans {a b c : St V} (h1 : Same a b) (h2 : Same b c) : Same a c :=
  ⟨h2.next.trans h1.next, h2.vals.trans h1.vals, h2.defs.trans h1.defs, h2.tx.trans h1.tx,
    h2.connectable.trans h1.connectable, h2.todo.trans h1.todo⟩

theorem same_clearCache (s : St V) (id) : Same s (s.clearCache id) := by
  unfold St.clearCache; split
  · exact .refl _
  · exact ⟨rfl, rfl, rfl, rfl, rfl, rfl⟩
  · split <;> exact ⟨rfl, rfl, rfl, rfl, rfl, rfl⟩

theorem same_setConnection (s : St V) (id b) : Same s (s.setConnection id b) := by
  unfold St.setConnection; repeat' split
  all_goals exact ⟨rfl, rfl, rfl, rfl, rfl, rfl⟩

theorem same_applyInfo (s : St V) (l) : Same s (s.applyInfo l) := by
  induction l generalizing s with
  | nil => exact .refl _
  | cons x l ih =>
    obtain ⟨id, b⟩ := x
    simp only [St.applyInfo]
    refine Same.trans ?_ (ih _)
    split
    · exact same_setConnection _ _ _
    · split
      · exact .refl _
      · exact (same_clearCache s id).trans ⟨rfl, rfl, rfl, rfl, rfl, rfl⟩

theorem same_setParents {s s' : St V} {id N} (h : s.setParents id N = .ok s') : Same s s' := by
  unfold St.setParents at h
  split at h
  · cases h
  · rename_i conn info _
    cases h
    have := same_applyInfo { s with conn := conn } info
    exact ⟨this.next, this.vals, this.defs, this.tx, this.connectable, this.todo⟩

theorem same_eval {rd : St V → GraphId → Except Err (St V × V)}
    (hrd : ∀ s id s' v, rd s id = .ok (s', v) → Same s s') (p : Prog V) {s ctx s' v ctx'}
    (h : p.eval rd s ctx = .ok (s', v, ctx')) : Same s s' := by
  induction p generalizing s ctx with
  | ret w => simp [Prog.eval] at h; rw [h.1]; exact .refl _
  | read id k ih =>
    simp only [Prog.eval] at h
    split at h
    · cases h
    · rename_i s1 w h1
      exact (hrd _ _ _ _ h1).trans (ih _ h)

theorem same_getNode (n) : ∀ K (s : St V) id s' v, getNode n K s id = .ok (s', v) → Same s s' := by
  induction n with
  | zero => intro K s id s' v h; simp [getNode] at h
  | succ n ih =>
    intro K s id s' v h
    simp only [getNode] at h
    split at h
    · split at h
      · cases h
      · cases h; exact .refl _
    · split at h
      · cases h
      · split at h
        · cases h; exact .refl _
        · split at h
          · cases h
          · rename_i h1
            split at h
            · cases h
            · rename_i h2
              cases h
              exact (same_eval (ih _) _ h1).trans ((same_setParents h2).trans ⟨rfl, rfl, rfl, rfl, rfl, rfl⟩)
    · cases h

variable [DecidableEq V]

theorem same_observe {lim id o} {s s' : St V} (h : s.observe lim id = .ok (s', o)) : Same s s' := by
  unfold St.observe at h
  split at h
  · cases h
  · split at h
    · cases h
    · rename_i h1
      have := same_getNode _ _ _ _ _ _ h1
      split at h
      · cases h
      · split at h <;> cases h <;> exact this.trans ⟨rfl, rfl, rfl, rfl, rfl, rfl⟩

omit [DecidableEq V] in
theorem same_startRun {id} {s s' : St V} (h : s.startRun id = .ok s') : Same s s' := by
  unfold St.startRun at h; split at h <;> cases h; exact ⟨rfl, rfl, rfl, rfl, rfl, rfl⟩

omit [DecidableEq V] in
theorem same_swapOwned {id l} {s s' : St V} (h : s.swapOwned id = .ok (s', l)) : Same s s' := by
  unfold St.swapOwned at h; split at h <;> cases h; exact ⟨rfl, rfl, rfl, rfl, rfl, rfl⟩

omit [DecidableEq V] in
theorem same_giveTo {o b id} {s s' : St V} (h : s.giveTo o b id = .ok s') : Same s s' := by
  unfold St.giveTo at h
  repeat' split at h
  all_goals first | cases h; exact ⟨rfl, rfl, rfl, rfl, rfl, rfl⟩ | cases h

omit [DecidableEq V] in
theorem same_dropOne {id} {s s' : St V} (h : s.dropOne id = .ok s') : Same s s' := by
  unfold St.dropOne at h
  have := same_setParents h
  exact ⟨this.next, this.vals, this.defs, this.tx, this.connectable, this.todo⟩

theorem same_finishRun {id} {s s' : St V} (h : s.finishRun id = .ok s') : Same s s' := by
  unfold St.finishRun at h
  split at h
  · cases h
  · split at h
    · cases h
    split at h
    · cases h
    · rename_i h1; cases h
      exact (same_setParents h1).trans ⟨rfl, rfl, rfl, rfl, rfl, rfl⟩

omit [DecidableEq V] in
theorem St.invalidate_same (s : St V) (l) : Same s (s.invalidate l) := by
  induction l generalizing s with
  | nil => exact .refl _
  | cons x l ih =>
    simp only [St.invalidate]
    refine Same.trans ?_ (ih _)
    split
    · exact same_clearCache _ _
    · exact .refl _

omit [DecidableEq V] in
theorem dropComputed_todo {id} {s s' : St V} (h : s.dropComputed id = .ok s') :
    s'.todo = s.todo ∧ s'.tx = s.tx := by
  unfold St.dropComputed at h
  split at h
  · have := same_setParents h; exact ⟨this.todo, this.tx⟩
  · cases h

/-- Atomic steps of user code do not touch the refresh loop; while subscribers are
being refreshed they leave the transaction state alone. -/
theorem mstep_todo {lim} {s s' : St V} (h : MStep lim s s') :
    s'.todo = s.todo ∧ (s.tx = .refreshing → s'.tx = .refreshing) := by
  have key : ∀ {a b : St V}, Same a b → b.todo = a.todo ∧ (a.tx = .refreshing → b.tx = .refreshing) :=
    fun h => ⟨h.todo, fun e => h.tx.trans e⟩
  cases h with
  | newValue v b => exact ⟨rfl, id⟩
  | newComputed p => exact ⟨rfl, id⟩
  | subscribe h1 h2 =>
    have h3 := (same_startRun h1).trans (same_observe h2)
    exact ⟨h3.todo, fun e => h3.tx.trans e⟩
  | swapOwned h => exact key (same_swapOwned h)
  | finishRun _ _ h => exact key (same_finishRun h)
  | finishDrop _ _ h1 h2 => exact key ((same_finishRun h1).trans (same_dropOne h2))
  | giveTo h => exact key (same_giveTo h)
  | dropOne _ _ h => exact key (same_dropOne h)
  | dropReq _ _ => exact ⟨rfl, id⟩
  | dropComputed h => obtain ⟨h1, h2⟩ := dropComputed_todo h; exact ⟨h1, fun e => h2.trans e⟩
  | begin_ h => refine ⟨rfl, fun e => ?_⟩; rw [e] at h; cases h
  | end_ h => refine ⟨rfl, fun e => ?_⟩; rw [e] at h; cases h; rfl
  | write h =>
    unfold St.write at h
    split at h
    · rename_i hv ht
      refine ⟨?_, fun e => by rw [ht] at e; cases e⟩
      simp only at h
      split at h
      · cases h; rfl
      · unfold St.reportSet at h
        split at h
        · cases h
        · cases h; exact (St.invalidate_same _ _).todo
    · cases h
  | get h => exact key ((same_getNode _ _ _ _ _ _ h).trans ⟨rfl, rfl, rfl, rfl, rfl, rfl⟩)

theorem star_mstep_todo {lim} {s s' : St V} (h : Star (MStep lim) s s') :
    s'.todo = s.todo ∧ (s.tx = .refreshing → s'.tx = .refreshing) := by
  induction h with
  | refl => exact ⟨rfl, id⟩
  | tail _ h ih =>
    have := mstep_todo h
    exact ⟨this.1.trans ih.1, fun e => this.2 (ih.2 e)⟩

omit [DecidableEq V] in
theorem down_some {tx tx' : TxState} {cs} (h : tx.down = (tx', some cs)) : tx' = .refreshing := by
  unfold TxState.down at h
  split at h
  · cases h
  · split at h <;> cases h; rfl
  · cases h

end Verif.Reactive

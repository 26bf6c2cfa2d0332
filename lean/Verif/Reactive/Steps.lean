import Verif.Reactive.Spec
import Verif.Reactive.GraphLemmas
/-!
# Executions as sequences of atomic steps

`MStep` are the atomic steps of user code; `Step` adds those of the refresh phase.
`exec_steps` (in `Exec.lean`): the final state of every program is reached by such steps.
-/
namespace Verif.Reactive

variable {V : Type} [DecidableEq V]

/-- Atomic steps of user code. -/
inductive MStep (lim : Nat) : St V → St V → Prop where
  | newValue (s v b) : MStep lim s (s.addValue v b)
  | newComputed (s p) : MStep lim s (s.addComputed p)
  /-- A new subscription starts its first run. -/
  | subscribe {s s1 s' t a cb o} (h1 : (s.addClient t a cb).startRun ⟨.client, s.next⟩ = .ok s1)
      (h2 : s1.observe lim ⟨.client, s.next⟩ = .ok (s', o)) : MStep lim s s'
  | swapOwned {s s' id l} (h : s.swapOwned id = .ok (s', l)) : MStep lim s s'
  | finishRun {s s' id cl} (hc : s.clients id = some cl) (hd : cl.dropReq = false)
      (h : s.finishRun id = .ok s') : MStep lim s s'
  /-- The run of a subscription ends whose resource was dropped in the meantime. -/
  | finishDrop {s s1 s' id cl} (hc : s.clients id = some cl) (hd : cl.dropReq = true)
      (h1 : s.finishRun id = .ok s1) (h2 : s1.dropOne id = .ok s') : MStep lim s s'
  | giveTo {s s' o b id} (h : s.giveTo o b id = .ok s') : MStep lim s s'
  | dropOne {s s' id cl} (hc : s.clients id = some cl) (hr : cl.running = false)
      (h : s.dropOne id = .ok s') : MStep lim s s'
  | dropReq {s id cl} (hc : s.clients id = some cl) (hr : cl.running = true) :
      MStep lim s ({ s with clients := upd s.clients id (some { cl with dropReq := true }) }.emit
        (.released id))
  | dropComputed {s s' id} (h : s.dropComputed id = .ok s') : MStep lim s s'
  | begin_ {s tx} (h : s.tx.up = .ok tx) : MStep lim s ({ s with tx := tx }.emit .begin_)
  | end_ {s tx} (h : s.tx.down = (tx, none)) : MStep lim s ({ s with tx := tx }.emit .end_)
  | write {s s' id v b} (h : s.write id v b = .ok s') : MStep lim s s'
  | get {s s' id v} (h : getNode lim [] s id = .ok (s', v)) :
      MStep lim s (s'.emit (.read id v (!s'.taint id) s'.vals s'.defs))

/-- No subscription that has completed a run is running. -/
def Calm (s : St V) : Prop :=
  ∀ c cl, s.clients c = some cl → cl.ready = true → cl.running = false

/-- Atomic steps, including those of the refresh phase. -/
inductive Step (lim : Nat) : St V → St V → Prop where
  | micro {s s'} (h : MStep lim s s') : Step lim s s'
  /-- The outermost transaction ends. -/
  | finish {s cs} (h : s.tx.down = (.refreshing, some cs)) :
      Step lim s ({ ({ s with tx := .refreshing }.emit .end_) with todo := cs }.emit (.finish cs))
  | skip {s c cs} (htx : s.tx = .refreshing) (ht : s.todo = c :: cs) (hq : Calm s)
      (h : s.clients c = none ∨ ∃ cl, s.clients c = some cl ∧ cl.ready = false) :
      Step lim s ({ s with todo := cs }.emit (.skipped c))
  | refresh {s s1 s' c cs cl o} (htx : s.tx = .refreshing) (ht : s.todo = c :: cs) (hq : Calm s)
      (hc : s.clients c = some cl) (hr : cl.ready = true)
      (h1 : ({ s with todo := cs }.emit (.refreshed c)).startRun c = .ok s1)
      (h2 : s1.observe lim c = .ok (s', o)) :
      Step lim s s'
  | idle {s} (htx : s.tx = .refreshing) (ht : s.todo = []) (hq : Calm s) :
      Step lim s ({ s with tx := s.tx.moveToIdle }.emit .idle)

/-- Reflexive transitive closure. -/
inductive Star {α : Type} (R : α → α → Prop) : α → α → Prop where
  | refl (a) : Star R a a
  | tail {a b c} : Star R a b → R b c → Star R a c

theorem Star.trans {α : Type} {R : α → α → Prop} {a b c} (h1 : Star R a b) (h2 : Star R b c) :
    Star R a c := by
  induction h2 with
  | refl => exact h1
  | tail _ h ih => exact ih.tail h

theorem Star.single {α : Type} {R : α → α → Prop} {a b} (h : R a b) : Star R a b := (Star.refl a).tail h

theorem Star.mono {α : Type} {R S : α → α → Prop} (h : ∀ a b, R a b → S a b) {a b} (hs : Star R a b) :
    Star S a b := by
  induction hs with
  | refl => exact .refl _
  | tail _ h' ih => exact ih.tail (h _ _ h')

theorem Star.inv {α : Type} {R : α → α → Prop} {P : α → Prop} (h : ∀ a b, P a → R a b → P b)
    {a b} (hs : Star R a b) (ha : P a) : P b := by
  induction hs with
  | refl => exact ha
  | tail _ h' ih => exact h _ _ ih h'

theorem dropAll_steps (lim n l) {s s' : St V} (h : St.dropAll n l s = .ok s') :
    Star (MStep lim) s s' := by
  induction n generalizing l s with
  | zero => simp [St.dropAll] at h
  | succ n ih =>
    cases l with
    | nil => simp [St.dropAll] at h; subst h; exact .refl _
    | cons id rest =>
      simp only [St.dropAll] at h
      split at h
      · exact ih _ h
      · rename_i cl hc
        split at h
        · rename_i hr
          exact (Star.single (.dropReq hc hr)).trans (ih _ h)
        · rename_i hr
          split at h
          · cases h
          · rename_i s1 h1
            exact (Star.single (.dropOne hc (by simpa using hr) h1)).trans (ih _ h)

theorem finishRun_clients {id} {s s' : St V} (h : s.finishRun id = .ok s') :
    ∃ cl, s.clients id = some cl ∧
      s'.clients id = some { cl with ready := true, running := false } := by
  unfold St.finishRun at h
  split at h
  · cases h
  rename_i cl hc
  split at h
  · cases h
  split at h
  · cases h
  cases h
  exact ⟨cl, hc, by simp [St.emit, upd]⟩

theorem finishEnd_steps (lim n id) {s s1 s' : St V} (h1 : s.finishRun id = .ok s1)
    (h : s1.endRun n id = .ok s') : ∃ s2, MStep lim s s2 ∧ Star (MStep lim) s2 s' ∧
      (s2 = s1 ∨ s1.dropOne id = .ok s2) := by
  obtain ⟨cl, hc, hc1⟩ := finishRun_clients h1
  unfold St.endRun at h
  rw [hc1] at h
  simp only at h
  split at h
  · rename_i hd
    cases n with
    | zero => simp [St.dropAll] at h
    | succ n =>
      simp only [St.dropAll, hc1, Bool.false_eq_true, ↓reduceIte] at h
      split at h
      · cases h
      rename_i s2 h2
      exact ⟨s2, .finishDrop hc hd h1 h2, dropAll_steps lim _ _ h, .inr h2⟩
  · rename_i hd
    cases h
    exact ⟨s1, .finishRun hc (by simpa using hd) h1, .refl _, .inl rfl⟩

/-- A relation that contains the atomic steps. -/
structure Contains (lim : Nat) (R : St V → St V → Prop) : Prop where
  refl : ∀ a, R a a
  trans : ∀ a b c, R a b → R b c → R a c
  micro : ∀ a b, MStep lim a b → R a b

theorem Contains.star {lim} {R : St V → St V → Prop} (hR : Contains lim R) {a b}
    (h : Star (MStep lim) a b) : R a b := by
  induction h with
  | refl => exact hR.refl _
  | tail _ h ih => exact hR.trans _ _ _ ih (hR.micro _ _ h)

theorem runClient_steps {lim} {R : St V → St V → Prop} (hR : Contains lim R)
    {call : V → St V → Except Err (St V)} (hcall : ∀ v s s', call v s = .ok s' → R s s')
    {id} {s s' : St V} (h : runClient lim call id s = .ok s') :
    ∃ s0 s1 o, s.startRun id = .ok s0 ∧ s0.observe lim id = .ok (s1, o) ∧
      ∃ s2 s3, R s1 s2 ∧ s2.finishRun id = .ok s3 ∧ s3.endRun lim id = .ok s' := by
  unfold runClient at h
  split at h
  · cases h
  rename_i s0 h0
  split at h
  · cases h
  · rename_i s1 ho
    split at h
    · cases h
    · rename_i s2 hf
      exact ⟨s0, s1, _, h0, ho, s1, s2, hR.refl _, hf, h⟩
  · rename_i s1 v ho
    split at h
    · cases h
    rename_i s2 hc
    split at h
    · cases h
    rename_i s3 old hs
    split at h
    · cases h
    rename_i s4 hd
    split at h
    · cases h
    rename_i s5 hf
    exact ⟨s0, s1, _, h0, ho, s4, s5, hR.trans _ _ _ (hcall _ _ _ hc)
      (hR.trans _ _ _ (hR.micro _ _ (.swapOwned hs)) (hR.star (dropAll_steps lim _ _ hd))), hf, h⟩

theorem run_steps {lim} {R : St V → St V → Prop} (hR : Contains lim R)
    {fin : List GraphId → St V → Except Err (St V)}
    (hfin : ∀ (s : St V) tx cs s', s.tx.down = (tx, some cs) →
      fin cs ({ s with tx := tx }.emit .end_) = .ok s' → R s s')
    (a : Act V) {o} {s s' : St V} (h : a.run lim fin o s = .ok s') : R s s' := by
  induction a generalizing o s s' with
  | done => simp [Act.run] at h; subst h; exact hR.refl _
  | newValue v b k ih =>
    simp only [Act.run] at h
    exact hR.trans _ _ _ (hR.micro _ _ (.newValue _ _ _)) (ih _ h)
  | newComputed p k ih =>
    simp only [Act.run] at h
    exact hR.trans _ _ _ (hR.micro _ _ (.newComputed _ _)) (ih _ h)
  | subscribe t a own cb k ihcb ihk =>
    simp only [Act.run] at h
    split at h
    · cases h
    rename_i s1 h1
    split at h
    · cases h
    rename_i s2 h2
    obtain ⟨a0, a1, o, g0, g1, a2, a3, g2, g3, g4⟩ :=
      runClient_steps hR (fun v s s' hs => ihcb v hs) h1
    obtain ⟨a4, g5, g6, -⟩ := finishEnd_steps lim _ _ g3 g4
    exact hR.trans _ _ _ (hR.micro _ _ (.subscribe g0 g1)) (hR.trans _ _ _ g2
      (hR.trans _ _ _ (hR.micro _ _ g5) (hR.trans _ _ _ (hR.star g6)
        (hR.trans _ _ _ (hR.micro _ _ (.giveTo h2)) (ihk _ h)))))
  | dropSub id k ih =>
    simp only [Act.run] at h
    split at h
    · cases h
    rename_i s1 h1
    exact hR.trans _ _ _ (hR.star (dropAll_steps lim _ _ h1)) (ih h)
  | dropComputed id k ih =>
    simp only [Act.run] at h
    split at h
    · cases h
    rename_i s1 h1
    exact hR.trans _ _ _ (hR.micro _ _ (.dropComputed h1)) (ih h)
  | txBegin k ih =>
    simp only [Act.run] at h
    split at h
    · cases h
    rename_i tx h1
    exact hR.trans _ _ _ (hR.micro _ _ (.begin_ h1)) (ih h)
  | txEnd k ih =>
    simp only [Act.run] at h
    split at h
    · rename_i tx h1
      exact hR.trans _ _ _ (hR.micro _ _ (.end_ h1)) (ih h)
    · rename_i tx cs h1
      split at h
      · cases h
      rename_i s1 h2
      exact hR.trans _ _ _ (hfin _ _ _ _ h1 h2) (ih h)
  | write id v b k ih =>
    simp only [Act.run] at h
    split at h
    · cases h
    rename_i s1 h1
    exact hR.trans _ _ _ (hR.micro _ _ (.write h1)) (ih h)
  | get id k ih =>
    simp only [Act.run] at h
    split at h
    · cases h
    rename_i s1 v h1
    exact hR.trans _ _ _ (hR.micro _ _ (.get h1)) (ih _ h)

theorem contains_micro (lim) : Contains lim (Star (MStep lim) : St V → St V → Prop) :=
  ⟨.refl, fun _ _ _ => .trans, fun _ _ => .single⟩

theorem contains_step (lim) : Contains lim (Star (Step lim) : St V → St V → Prop) :=
  ⟨.refl, fun _ _ _ => .trans, fun _ _ h => .single (.micro h)⟩

theorem runRefreshing_steps {lim} {a : Act V} {o} {s s' : St V}
    (h : runRefreshing lim a o s = .ok s') : Star (MStep lim) s s' :=
  run_steps (contains_micro lim) (fun _ _ _ _ _ h => by cases h) a h

end Verif.Reactive

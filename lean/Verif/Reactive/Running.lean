import Verif.Reactive.StaticStar
/-! # When user code has returned, no subscription it has started is running any more -/
namespace Verif.Reactive

variable {V : Type}

/-- Every subscription running in `s'` was running in `s`, except possibly `x`. -/
def RunLe (P : GraphId → Prop) (s s' : St V) : Prop :=
  ∀ c cl', ¬ P c → s'.clients c = some cl' → cl'.running = true →
    ∃ cl, s.clients c = some cl ∧ cl.running = true

abbrev RunLe0 (s s' : St V) : Prop := RunLe (fun _ => False) s s'

theorem RunLe.refl (P) (s : St V) : RunLe P s s := fun _ cl _ h hr => ⟨cl, h, hr⟩

theorem RunLe.trans {P} {a b c : St V} (h1 : RunLe P a b) (h2 : RunLe P b c) : RunLe P a c := by
  intro x cl hp h hr
  obtain ⟨cl1, g1, g2⟩ := h2 x cl hp h hr
  exact h1 x cl1 hp g1 g2

theorem RunLe.weaken {P : GraphId → Prop} {a b : St V} (h : RunLe0 a b) : RunLe P a b :=
  fun c cl _ => h c cl (fun h => h)

theorem FlagsLe.runLe {P} {s s' : St V} (h : FlagsLe s s') : RunLe P s s' := by
  intro c cl' _ hc hr
  obtain ⟨cl, h1, h2, _⟩ := h c cl' hc
  exact ⟨cl, h1, by rw [← h2]; exact hr⟩

theorem runLe_upd {P} {s : St V} {id cl cl'} (h : s.clients id = some cl)
    (hr : cl'.running = cl.running) {s' : St V} (hs : s'.clients = upd s.clients id (some cl')) :
    RunLe P s s' := by
  intro c d _ hd hrun
  rw [hs] at hd
  simp only [upd] at hd
  split at hd
  · cases hd; rename_i e; subst e; exact ⟨cl, h, by rw [← hr]; exact hrun⟩
  · exact ⟨d, hd, hrun⟩

theorem runLe_dropOne {P} {s s' : St V} {id} (h : s.dropOne id = .ok s') : RunLe P s s' := by
  unfold St.dropOne at h
  refine RunLe.trans ?_ (flags_setParents h).runLe
  intro c d _ hd hrun
  simp only [upd, St.emit] at hd
  split at hd
  · cases hd
  · exact ⟨d, hd, hrun⟩

theorem runLe_dropAll {P} (n) : ∀ l (s s' : St V), St.dropAll n l s = .ok s' → RunLe P s s' := by
  induction n with
  | zero => intro l s s' h; simp [St.dropAll] at h
  | succ n ih =>
    intro l s s' h
    cases l with
    | nil => simp [St.dropAll] at h; subst h; exact .refl _ _
    | cons id rest =>
      simp only [St.dropAll] at h
      split at h
      · exact ih _ _ _ h
      · rename_i cl hcl
        split at h
        · exact RunLe.trans (runLe_upd hcl (cl' := { cl with dropReq := true }) rfl rfl) (ih _ _ _ h)
        · split at h
          · cases h
          · rename_i h1; exact (runLe_dropOne h1).trans (ih _ _ _ h)

variable [DecidableEq V]

/-- A run of a subscription ends with that subscription not running. -/
theorem runLe_runClient {lim id} {call : V → St V → Except Err (St V)}
    (hcall : ∀ v s s', call v s = .ok s' → RunLe0 s s') {s s' : St V}
    (h : runClient lim call id s = .ok s') : RunLe0 s s' := by
  have hstart : ∀ {s s' : St V}, s.startRun id = .ok s' → RunLe (· = id) s s' := by
    intro s s' h
    unfold St.startRun at h
    split at h <;> cases h
    intro c d hp hd hrun
    simp only [upd] at hd
    rw [if_neg hp] at hd
    exact ⟨d, hd, hrun⟩
  have hend : ∀ {s s' : St V}, s.endRun lim id = .ok s' → RunLe0 s s' := by
    intro s s' h
    unfold St.endRun at h
    split at h
    · split at h
      · exact runLe_dropAll _ _ _ _ h
      · cases h; exact .refl _ _
    · cases h; exact .refl _ _
  have hfin : ∀ {a s s' : St V}, RunLe (· = id) a s → s.finishRun id = .ok s' → RunLe0 a s' := by
    intro a s s' ha h
    obtain ⟨cl, s1, hcl, hrun, hsrc, h1, rfl⟩ := finishRun_cases h
    intro c d _ hd hr
    simp only [St.emit, upd] at hd
    split at hd
    · cases hd; cases hr
    · rename_i hne
      obtain ⟨e, g1, g2, _⟩ := flags_setParents h1 c d hd
      exact ha c e hne g1 (by rw [← g2]; exact hr)
  unfold runClient at h
  split at h
  · cases h
  rename_i s1 h1
  split at h
  · cases h
  · rename_i s2 h2
    have a2 : RunLe (· = id) s s2 := (hstart h1).trans (flags_observe h2).runLe
    split at h
    · cases h
    rename_i s3 h3
    exact (hfin a2 h3).trans (hend h)
  · rename_i s2 v h2
    have a2 : RunLe (· = id) s s2 := (hstart h1).trans (flags_observe h2).runLe
    split at h
    · cases h
    rename_i s3 h3
    split at h
    · cases h
    rename_i s4 old h4
    split at h
    · cases h
    rename_i s5 h5
    split at h
    · cases h
    rename_i s6 h6
    have a4 : RunLe (· = id) s3 s4 := by
      unfold St.swapOwned at h4
      split at h4 <;> cases h4
      rename_i cl hcl
      exact runLe_upd hcl (cl' := { cl with owned := cl.fresh, fresh := [] }) rfl rfl
    exact (hfin (a2.trans ((hcall _ _ _ h3).weaken.trans (a4.trans (runLe_dropAll _ _ _ _ h5)))) h6).trans (hend h)

theorem runLe_run {lim} {fin : List GraphId → St V → Except Err (St V)}
    (hfin : ∀ cs s s', fin cs s = .ok s' → RunLe0 s s') (a : Act V) :
    ∀ {o s s'}, a.run lim fin o s = .ok s' → RunLe0 s s' := by
  induction a with
  | done => intro o s s' h; simp [Act.run] at h; subst h; exact .refl _ _
  | newValue v b k ih =>
    intro o s s' h; simp only [Act.run] at h
    intro c d hp hd hr; exact ih _ h c d hp hd hr
  | newComputed p k ih =>
    intro o s s' h; simp only [Act.run] at h
    intro c d hp hd hr; exact ih _ h c d hp hd hr
  | subscribe t a own cb k ihcb ih =>
    intro o s s' h; simp only [Act.run] at h
    split at h
    · cases h
    rename_i s1 h1
    split at h
    · cases h
    rename_i s2 h2
    have a1 := runLe_runClient (fun v s s' hc => ihcb v hc) h1
    have a0 : RunLe0 s (s.addClient t a cb) := by
      intro c d _ hd hr
      simp only [St.addClient, St.emit, upd] at hd
      split at hd
      · cases hd; cases hr
      · exact ⟨d, hd, hr⟩
    have a2 : RunLe0 s1 s2 := by
      unfold St.giveTo at h2
      split at h2
      · split at h2 <;> cases h2
        rename_i cl hcl
        exact runLe_upd hcl (cl' := { cl with fresh := cl.fresh ++ [⟨.client, s.next⟩] }) rfl rfl
      · cases h2; exact .refl _ _
    exact ((a0.trans a1).trans a2).trans (ih _ h)
  | dropSub id k ih =>
    intro o s s' h; simp only [Act.run] at h
    split at h
    · cases h
    rename_i s1 h1
    exact (runLe_dropAll _ _ _ _ h1).trans (ih h)
  | dropComputed id k ih =>
    intro o s s' h; simp only [Act.run] at h
    split at h
    · cases h
    rename_i s1 h1
    unfold St.dropComputed at h1
    split at h1
    · refine RunLe.trans ?_ (ih h)
      intro c d _ hd hr
      obtain ⟨e, g1, g2, _⟩ := flags_setParents h1 c d hd
      exact ⟨e, g1, by rw [← g2]; exact hr⟩
    · cases h1
  | txBegin k ih =>
    intro o s s' h; simp only [Act.run] at h
    split at h
    · cases h
    intro c d hp hd hr; exact ih h c d hp hd hr
  | txEnd k ih =>
    intro o s s' h; simp only [Act.run] at h
    split at h
    · intro c d hp hd hr; exact ih h c d hp hd hr
    · split at h
      · cases h
      rename_i h1
      have := (hfin _ _ _ h1).trans (ih h)
      intro c d hp hd hr; exact this c d hp hd hr
  | write id v b k ih =>
    intro o s s' h; simp only [Act.run] at h
    split at h
    · cases h
    rename_i s1 h1
    refine RunLe.trans ?_ (ih h)
    obtain ⟨old, l, cs, hv, ht, ⟨_, _, rfl⟩ | ⟨_, W⟩⟩ := write_cases h1
    · exact .refl _ _
    · intro c d _ hd hr; rw [W.clients] at hd; exact ⟨d, hd, hr⟩
  | get id k ih =>
    intro o s s' h; simp only [Act.run] at h
    split at h
    · cases h
    rename_i s1 v h1
    refine RunLe.trans (flags_getNode _ _ _ _ _ _ h1).runLe ?_
    intro c d hp hd hr; exact ih _ h c d hp hd hr

theorem runLe_finishTx {lim cs} {s s' : St V} (h : finishTx lim cs s = .ok s') : RunLe0 s s' := by
  have key : ∀ cs (s s' : St V), refreshAll lim cs s = .ok s' → RunLe0 s s' := by
    intro cs
    induction cs with
    | nil => intro s s' h; simp [refreshAll] at h; subst h; exact .refl _ _
    | cons c cs ih =>
      intro s s' h
      simp only [refreshAll] at h
      split at h
      · intro x d hp hd hr; exact ih _ _ h x d hp hd hr
      · split at h
        · split at h
          · cases h
          rename_i h1
          have a1 := runLe_runClient (fun v s s' hc => runLe_run (fun _ _ _ h => by cases h) _ hc) h1
          exact RunLe.trans (b := _) (by intro x d hp hd hr; exact a1 x d hp hd hr) (ih _ _ h)
        · intro x d hp hd hr; exact ih _ _ h x d hp hd hr
  unfold finishTx at h
  split at h
  · cases h
  rename_i h1
  cases h
  intro x d hp hd hr; exact key _ _ _ h1 x d hp hd hr

/-- After a complete program no subscription is running. -/
theorem exec_not_running {lim} {a : Act V} {s : St V} (h : a.exec lim = .ok s) {c cl}
    (hc : s.clients c = some cl) : cl.running = false := by
  cases hr : cl.running with
  | false => rfl
  | true =>
    obtain ⟨d, hd, _⟩ := runLe_run (fun cs s s' h => runLe_finishTx h) a h c cl (fun h => h) hc hr
    cases hd

end Verif.Reactive

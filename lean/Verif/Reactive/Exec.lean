import Verif.Reactive.Inv
/-! # Programs as sequences of atomic steps -/
namespace Verif.Reactive

variable {V : Type}

/-- Flags of the subscriptions of `s'` come from `s`, `ready` may have been reset. -/
def FlagsLe (s s' : St V) : Prop :=
  ∀ c cl', s'.clients c = some cl' → ∃ cl, s.clients c = some cl ∧ cl'.running = cl.running ∧
    (cl'.ready = true → cl.ready = true)

theorem FlagsLe.refl (s : St V) : FlagsLe s s := fun _ cl h => ⟨cl, h, rfl, id⟩
theorem FlagsLe.trans {a b c : St V} (h1 : FlagsLe a b) (h2 : FlagsLe b c) : FlagsLe a c := by
  intro x cl h
  obtain ⟨cl1, g1, g2, g3⟩ := h2 x cl h
  obtain ⟨cl2, k1, k2, k3⟩ := h1 x cl1 g1
  exact ⟨cl2, k1, g2.trans k2, fun e => k3 (g3 e)⟩

theorem flags_eq {s s' : St V} (h : s'.clients = s.clients) : FlagsLe s s' := by
  intro c cl hc; rw [h] at hc; exact ⟨cl, hc, rfl, id⟩

theorem flags_applyInfo (s : St V) (l) : FlagsLe s (s.applyInfo l) := by
  intro c cl h
  rw [applyInfo_clients] at h
  split at h
  · cases hc : s.clients c with
    | none => rw [hc] at h; cases h
    | some d => rw [hc] at h; cases h; exact ⟨d, rfl, rfl, fun e => by cases e⟩
  · exact ⟨cl, h, rfl, id⟩

theorem flags_setParents {s s' : St V} {id N} (h : s.setParents id N = .ok s') : FlagsLe s s' := by
  unfold St.setParents at h
  split at h <;> cases h
  rename_i conn info _
  intro c cl hc
  exact flags_applyInfo { s with conn := conn } info c cl hc

theorem flags_eval {rd : St V → GraphId → Except Err (St V × V)}
    (hrd : ∀ s id s' v, rd s id = .ok (s', v) → FlagsLe s s') (p : Prog V) {s ctx s' v ctx'}
    (h : p.eval rd s ctx = .ok (s', v, ctx')) : FlagsLe s s' := by
  induction p generalizing s ctx with
  | ret w => simp [Prog.eval] at h; rw [h.1]; exact .refl _
  | read id k ih =>
    simp only [Prog.eval] at h
    split at h
    · cases h
    · rename_i h1; exact (hrd _ _ _ _ h1).trans (ih _ h)

theorem flags_getNode (n) : ∀ K (s : St V) id s' v, getNode n K s id = .ok (s', v) → FlagsLe s s' := by
  induction n with
  | zero => intro K s id s' v h; simp [getNode] at h
  | succ n ih =>
    intro K s id s' v h
    simp only [getNode] at h
    split at h
    · split at h <;> cases h; exact .refl _
    · split at h
      · cases h
      split at h
      · cases h; exact .refl _
      split at h
      · cases h
      rename_i h1
      split at h
      · cases h
      rename_i h2
      cases h
      have h3 := (flags_eval (ih _) _ h1).trans (flags_setParents h2)
      intro c cl hc; exact h3 c cl hc
    · cases h

/-- Subscriptions other than `c` that have completed a run are not running. -/
def CalmBut (P : GraphId → Prop) (s : St V) : Prop :=
  ∀ c cl, ¬ P c → s.clients c = some cl → cl.ready = true → cl.running = false

theorem calmBut_none {s : St V} : CalmBut (fun _ => False) s ↔ Calm s :=
  ⟨fun h c cl h1 => h c cl id h1, fun h c cl _ h1 => h c cl h1⟩

theorem CalmBut.flags {P} {s s' : St V} (h : CalmBut P s) (hf : FlagsLe s s') : CalmBut P s' := by
  intro c cl hP hc hr
  obtain ⟨d, h1, h2, h3⟩ := hf c cl hc
  rw [h2]; exact h c d hP h1 (h3 hr)

variable [DecidableEq V]

theorem flags_observe {lim id o} {s s' : St V} (h : s.observe lim id = .ok (s', o)) : FlagsLe s s' := by
  unfold St.observe at h
  split at h
  · cases h
  split at h
  · cases h
  rename_i s1 v h1
  split at h
  · cases h
  rename_i cl hc
  have key : FlagsLe s1 { s1 with clients := upd s1.clients id (some { cl with prev := some v }) } := by
    intro c d hd
    simp only [upd] at hd
    split at hd
    · cases hd; rename_i e; subst e; exact ⟨cl, hc, rfl, _root_.id⟩
    · exact ⟨d, hd, rfl, _root_.id⟩
  have h2 := (flags_getNode _ _ _ _ _ _ h1).trans key
  simp only at h
  split at h <;> cases h <;> exact h2

omit [DecidableEq V] in
theorem calm_startRun {id} {s s' : St V} {P : GraphId → Prop} (h : s.startRun id = .ok s')
    (hc : CalmBut P s) (hr : P id ∨ ∀ cl, s.clients id = some cl → cl.ready = false) : CalmBut P s' := by
  unfold St.startRun at h
  split at h <;> cases h
  rename_i cl hcl
  intro c d hP hd hr'
  simp only [upd] at hd
  split at hd
  · cases hd; rename_i e; subst e
    rcases hr with h1 | h1
    · exact absurd h1 hP
    · have := h1 cl hcl; simp_all
  · exact hc c d hP hd hr'

theorem calm_finishRun {id} {s s' : St V} {P : GraphId → Prop} (h : s.finishRun id = .ok s')
    (hc : CalmBut P s) : CalmBut (fun c => P c ∧ c ≠ id) s' := by
  unfold St.finishRun at h
  split at h
  · cases h
  rename_i cl hcl
  split at h
  · cases h
  split at h
  · cases h
  rename_i s1 h1
  cases h
  intro c d hP hd hr'
  simp only [upd, St.emit] at hd
  split at hd
  · cases hd; rfl
  · rename_i hne
    have := hc.flags (flags_setParents h1)
    exact this c d (fun hp => hP ⟨hp, hne⟩) hd hr'

omit [DecidableEq V] in
theorem calm_dropOne {id} {s s' : St V} {P : GraphId → Prop} (h : s.dropOne id = .ok s')
    (hc : CalmBut P s) : CalmBut P s' := by
  unfold St.dropOne at h
  apply CalmBut.flags _ (flags_setParents h)
  intro c d hP hd
  simp only [upd, St.emit] at hd
  split at hd
  · cases hd
  · exact hc c d hP hd

omit [DecidableEq V] in
/-- Updating the data of one subscription without its flags. -/
theorem CalmBut.upd1 {P : GraphId → Prop} {s : St V} (hc : CalmBut P s) {id cl cl'}
    (h : s.clients id = some cl) (hr : cl'.ready = true → cl.ready = true)
    (hn : cl'.running = cl.running) : CalmBut P { s with clients := upd s.clients id (some cl') } := by
  intro c d hP hd hr'
  simp only [upd] at hd
  split at hd
  · cases hd; rename_i e; subst e; rw [hn]; exact hc c cl hP h (hr hr')
  · exact hc c d hP hd hr'

theorem calm_write {id v b} {s s' : St V} {P : GraphId → Prop} (h : s.write id v b = .ok s')
    (hc : CalmBut P s) : CalmBut P s' := by
  unfold St.write at h
  split at h
  · simp only at h
    split at h
    · cases h; exact hc
    · unfold St.reportSet at h
      split at h
      · cases h
      · rename_i deps _
        cases h
        have : ∀ (l : List GraphId) (t : St V), (t.invalidate l).clients = t.clients := by
          intro l
          induction l with
          | nil => intro t; rfl
          | cons x l ih =>
            intro t
            simp only [St.invalidate]
            rw [ih]
            split
            · rename_i hk; funext y; rw [clearCache_clients, if_neg]
              rintro ⟨rfl, h2⟩; rw [hk] at h2; cases h2
            · rfl
        intro c d hP hd hr
        simp only [St.emit, this] at hd
        exact hc c d hP hd hr
  · cases h

theorem calm_mstep {lim} {s s' : St V} {P : GraphId → Prop} (h : MStep lim s s')
    (hc : CalmBut P s) : CalmBut P s' := by
  cases h with
  | newValue v b => exact hc
  | newComputed p => exact hc
  | @subscribe s1 _ t a cb o h1 h2 =>
    have h0 : CalmBut P (s.addClient t a cb) := by
      intro c d hP hd hr'
      simp only [upd, St.emit, St.addClient] at hd
      split at hd
      · cases hd; cases hr'
      · exact hc c d hP hd hr'
    refine (calm_startRun h1 h0 (Or.inr ?_)).flags (flags_observe h2)
    intro cl hcl; simp only [St.addClient, St.emit, upd_same] at hcl; cases hcl; rfl
  | swapOwned h =>
    unfold St.swapOwned at h
    split at h <;> cases h
    rename_i cl hcl
    exact hc.upd1 (cl := cl) hcl id rfl
  | finishRun _ _ h =>
    have := calm_finishRun h hc
    intro c d hP hd; exact this c d (fun h => hP h.1) hd
  | finishDrop _ _ h1 h2 =>
    refine calm_dropOne h2 ?_
    have := calm_finishRun h1 hc
    intro c d hP hd; exact this c d (fun h => hP h.1) hd
  | giveTo h =>
    unfold St.giveTo at h
    split at h
    · split at h <;> cases h
      rename_i cl hcl
      exact hc.upd1 (cl := cl) hcl id rfl
    · cases h; exact hc
  | dropOne _ _ h => exact calm_dropOne h hc
  | dropReq h1 h2 => exact hc.upd1 h1 id rfl
  | dropComputed h =>
    unfold St.dropComputed at h
    split at h
    · intro c d hP hd hr
      obtain ⟨e, g1, g2, g3⟩ := flags_setParents h c d hd
      rw [g2]; exact hc c e hP g1 (g3 hr)
    · cases h
  | begin_ h => exact hc
  | end_ h => exact hc
  | write h => exact calm_write h hc
  | get h =>
    have := hc.flags (flags_getNode _ _ _ _ _ _ h)
    exact this

/-! ## The refresh phase -/

theorem refreshAll_steps {lim} (cs) {s s' : St V} (htx : s.tx = .refreshing) (ht : s.todo = cs)
    (hq : Calm s) (h : refreshAll lim cs s = .ok s') :
    Star (Step lim) s s' ∧ s'.todo = [] ∧ s'.tx = .refreshing ∧ Calm s' := by
  induction cs generalizing s with
  | nil => simp [refreshAll] at h; subst h; exact ⟨.refl _, ht, htx, hq⟩
  | cons c cs ih =>
    simp only [refreshAll] at h
    split at h
    · rename_i hc
      obtain ⟨h1, h2⟩ := ih (s := ({ s with todo := cs }.emit (.skipped c))) htx rfl hq h
      exact ⟨(Star.single (.skip htx ht hq (Or.inl hc))).trans h1, h2⟩
    · rename_i cl hc
      split at h
      · rename_i hr
        split at h
        · cases h
        rename_i s1 h1
        obtain ⟨a0, a1, o, g0, g1, a2, a3, g2, g3, g4⟩ :=
          runClient_steps (contains_micro lim) (fun v s s' hs => runRefreshing_steps hs) h1
        obtain ⟨a4, g5, g6, g7⟩ := finishEnd_steps lim _ _ g3 g4
        have f1 := (same_startRun g0).trans (same_observe g1)
        have f2 := star_mstep_todo ((g2.tail g5).trans g6)
        have t0 : a1.todo = cs := f1.todo
        have x0 : a1.tx = .refreshing := f1.tx.trans htx
        have c0 : CalmBut (· = c) a1 :=
          (calm_startRun (P := (· = c)) g0 (fun x d _ => hq x d) (Or.inl rfl)).flags (flags_observe g1)
        have c2 : CalmBut (· = c) a2 := g2.inv (fun _ _ hc h => calm_mstep h hc) c0
        have c4 : Calm a4 := by
          have := calm_finishRun g3 c2
          have h3 : Calm a3 := fun x d hx => this x d (fun h => h.2 h.1) hx
          rcases g7 with rfl | g7
          · exact h3
          · exact calmBut_none.mp (calm_dropOne g7 (calmBut_none.mpr h3))
        have c5 : Calm s1 :=
          calmBut_none.mp (g6.inv (fun _ _ hc h => calm_mstep h hc) (calmBut_none.mpr c4))
        obtain ⟨h2, h3⟩ := ih (f2.2 x0) (f2.1.trans t0) c5 h
        refine ⟨?_, h3⟩
        exact (Star.single (.refresh htx ht hq hc hr g0 g1)).trans
          ((((g2.tail g5).trans g6).mono (fun _ _ h => .micro h)).trans h2)
      · rename_i hr
        obtain ⟨h1, h2⟩ := ih (s := ({ s with todo := cs }.emit (.skipped c))) htx rfl hq h
        exact ⟨(Star.single (.skip htx ht hq (Or.inr ⟨cl, hc, by simpa using hr⟩))).trans h1, h2⟩

theorem finishTx_steps {lim} (s : St V) (tx cs s') (hd : s.tx.down = (tx, some cs)) (hq : Calm s)
    (h : finishTx lim cs ({ s with tx := tx }.emit .end_) = .ok s') :
    Star (Step lim) s s' ∧ Calm s' := by
  have := down_some hd; subst this
  unfold finishTx at h
  split at h
  · cases h
  rename_i s1 h1
  cases h
  obtain ⟨h2, h3, h4, h5⟩ := refreshAll_steps cs (by rfl) (by rfl) (by exact hq) h1
  exact ⟨((Star.single (.finish hd)).trans h2).tail (.idle h4 h3 h5), h5⟩

/-- The final state of every program that runs to completion is reached from the empty
state by atomic steps. -/
theorem exec_steps {lim} {a : Act V} {s : St V} (h : a.exec lim = .ok s) :
    Star (Step lim) {} s := by
  let R : St V → St V → Prop := fun a b => Calm a → Star (Step lim) a b ∧ Calm b
  have hR : Contains lim R := by
    refine ⟨fun a h => ⟨.refl _, h⟩, fun a b c h1 h2 h => ?_, fun a b h hc => ?_⟩
    · obtain ⟨g1, g2⟩ := h1 h
      obtain ⟨g3, g4⟩ := h2 g2
      exact ⟨g1.trans g3, g4⟩
    · exact ⟨.single (.micro h), calmBut_none.mp (calm_mstep h (calmBut_none.mpr hc))⟩
  have := run_steps hR (fun s tx cs s' h1 h2 hc => finishTx_steps s tx cs s' h1 hc h2) a h
  exact (this (fun c cl hc => by cases hc)).1

end Verif.Reactive

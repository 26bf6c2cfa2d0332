import Verif.Reactive.LogInv
/-! # Every step keeps the log invariants -/
namespace Verif.Reactive

variable {V : Type}

theorem xi_addValue {s : St V} (h : XI s) (hg : Good s) (v b) : XI (s.addValue v b) := by
  refine ⟨h.conn, fun x => ?_, h.ok⟩
  simp only [St.addValue]
  by_cases hx : x = ⟨.value, s.next⟩
  · subst hx
    have h0 : s.vals ⟨.value, s.next⟩ = none := by
      cases hv : s.vals ⟨.value, s.next⟩ with
      | none => rfl
      | some w => exact absurd (hg.base.vkind _ (by rw [hv]; simp)).2 (Nat.lt_irrefl _)
    have h1 : s.connected ⟨.value, s.next⟩ = false := by
      cases hc : s.connected ⟨.value, s.next⟩ with
      | false => rfl
      | true =>
        have := ((h.obs _).mp hc).1
        exact absurd h0 (hg.base.con _ this)
    rw [h1]
    constructor
    · intro h; cases h
    · rintro ⟨_, c, hc⟩
      rcases hg.base.src _ c hc with ⟨_, g⟩ | ⟨g, _⟩
      · exact absurd h0 g
      · cases g
  · rw [upd_ne _ hx]; exact h.obs x

theorem XI.push' {s s' : St V} {X N} (h : XI s) (hw : s.conn.WF) (hk : ∀ x, s.connectable x = true → x.kind = .value)
    (hs : s.setParents X N = .ok s') : XI s' := by
  obtain ⟨nodes, hp⟩ := setParents_push hw hs
  exact h.push hs hp hk

theorem LV.push' {s s' : St V} {X N} (h : LV s) (hw : s.conn.WF)
    (hs : s.setParents X N = .ok s') : LV s' := by
  obtain ⟨nodes, hp⟩ := setParents_push hw hs
  exact h.push hs hp

variable [DecidableEq V]

/-- Observing the target of a subscription whose run has just started. -/
theorem log_observe {s s' : St V} {lim id o} (hg : Good s) (hx : XI s) (hl : LV s) (hm : MI s)
    (hst : Started id s.log)
    (hd : ∀ cl, s.clients id = some cl → cl.dropReq = false)
    (hs : s.observe lim id = .ok (s', o)) : XI s' ∧ LV s' ∧ MI s' := by
  obtain ⟨cl, s1, v, cl1, h1, h2, h3, h4⟩ := observe_cases hs
  have hr := getNode_evalRel hg (stackOK_nil s) h2
  have hgot := good_get hg h2
  have hx1 := getNode_xi hg (stackOK_nil s) hx h2
  have hl1 := hl.evalRel hr
  have hm1 := hm.evalRel hr
  have hcl : cl = cl1 := by rw [hr.clients, h1] at h3; exact Option.some.inj h3
  subst hcl
  have hk := (hg.base.ckind id (by rw [h1]; simp)).1
  have hst1 : Started id s1.log := by
    obtain ⟨k, e1, e2⟩ := hr.log
    obtain ⟨b, e, m, g1, g2, g3⟩ := hst
    refine ⟨b, e, m ++ k, by rw [e1, g1]; simp, ?_, g3⟩
    intro x hx
    rcases List.mem_append.mp hx with h | h
    · exact g2 x h
    · exact e2 x h
  rcases h4 with ⟨hdel, _, rfl⟩ | ⟨_, hprev, _, rfl⟩
  · refine ⟨?_, ?_, ?_⟩
    · refine hx1.emit rfl rfl rfl rfl rfl ⟨⟨cl.target, cl.all, hl1.subs id cl h3, ?_, ?_⟩, ?_, ?_, hst1⟩
      · intro hc; exact hgot.scratch (by simpa using hc)
      · intro ha
        rw [hl1.last id cl h3]
        rcases hdel with h | h
        · rw [ha] at h; cases h
        · exact h
      · intro hmem; have := hl1.gone id hk hmem; rw [h3] at this; cases this
      · intro hmem
        have := hl1.rel id cl hmem h3
        rw [hd cl h1] at this; cases this
    · have hnum := (hgot.good.base.ckind id (by rw [h3]; simp)).2
      refine ⟨?_, ?_, ?_, ?_, ?_, ?_⟩
      · intro c d hc
        simp only [St.emit, upd] at hc ⊢
        refine List.mem_append_left _ ?_
        split at hc
        · cases hc; rename_i e; subst e; exact hl1.subs c cl h3
        · exact hl1.subs c d hc
      · intro c d hc
        simp only [St.emit, upd] at hc ⊢
        rw [lastDelivered_snoc]
        split at hc
        · cases hc; rename_i e; subst e; simp
        · rename_i e; simp only [if_neg (Ne.symm e)]; exact hl1.last c d hc
      · intro c hck hmem
        simp only [St.emit, upd] at hmem ⊢
        have hmem' : .dropped c ∈ s1.log := by simpa using hmem
        split
        · rename_i e; subst e; have := hl1.gone c hk hmem'; rw [h3] at this; cases this
        · exact hl1.gone c hck hmem'
      · intro c d hmem hc
        simp only [St.emit, upd] at hmem hc
        have hmem' : .released c ∈ s1.log := by simpa using hmem
        split at hc
        · cases hc; rename_i e; subst e; exact hl1.rel c cl hmem' h3
        · exact hl1.rel c d hmem' hc
      · intro e he c hck hc
        simp only [St.emit] at he ⊢
        rcases List.mem_append.mp he with h | h
        · exact hl1.nums e h c hck hc
        · simp only [List.mem_singleton] at h
          subst h
          have : id = c := hc
          subst this; exact hnum
      · intro c hc hn
        simp only [St.emit, upd] at hn ⊢
        refine List.mem_append_left _ (hl1.lost c hc ?_)
        split at hn
        · cases hn
        · exact hn
    · exact hm1.ext (k := [_]) rfl (by simp [Ev.txNeutral]) rfl rfl
  · refine ⟨hx1.congr rfl rfl rfl rfl, ?_, hm1.ext (k := []) (by simp) (by simp) rfl rfl⟩
    refine hl1.upd1 (k := []) h3 (cl' := { cl with prev := some v }) ⟨rfl, rfl, hprev.symm, fun h => h⟩ rfl (by simp)
      (by simp) (Nat.le_refl _) (fun _ h => h)

omit [DecidableEq V] in
theorem log_startRun {s s' : St V} {id} (hx : XI s) (hl : LV s) (hm : MI s)
    (hs : s.startRun id = .ok s') : XI s' ∧ LV s' ∧ MI s' ∧ s'.log = s.log ∧
      (∀ cl', s'.clients id = some cl' → ∃ cl, s.clients id = some cl ∧ cl'.dropReq = cl.dropReq) := by
  unfold St.startRun at hs
  split at hs <;> cases hs
  rename_i cl hcl
  refine ⟨hx.congr rfl rfl rfl rfl, ?_, hm.ext (k := []) (by simp) (by simp) rfl rfl, rfl, ?_⟩
  · exact hl.upd1 (k := []) (cl' := { cl with running := true, fresh := [] }) hcl ⟨rfl, rfl, rfl, fun h => h⟩ rfl (by simp) (by simp) (Nat.le_refl _) (fun _ h => h)
  · intro cl' h
    simp only [upd_same, Option.some.injEq] at h
    subst h; exact ⟨cl, hcl, rfl⟩

omit [DecidableEq V] in
theorem lastDelivered_none {s : St V} (hl : LV s) {c : GraphId} (hk : c.kind = .client)
    (hc : s.next ≤ c.num) :
    lastDelivered c s.log = none := by
  have := lastDelivered_about (c := c) (log := []) (k := s.log) (fun e he ha =>
    absurd (hl.nums e he c hk ha) (Nat.not_lt.mpr hc))
  simpa [lastDelivered] using this

omit [DecidableEq V] in
theorem log_addClient {s : St V} (hg : Good s) (hx : XI s) (hl : LV s) (hm : MI s) (t a cb) :
    XI (s.addClient t a cb) ∧ LV (s.addClient t a cb) ∧ MI (s.addClient t a cb) := by
  have fresh : ∀ e : Ev V, e.about ⟨.client, s.next⟩ → e ∉ s.log := fun e ha he =>
    absurd (hl.nums e he _ rfl ha) (Nat.lt_irrefl _)
  have hno := lastDelivered_none hl (c := ⟨.client, s.next⟩) rfl (Nat.le_refl _)
  have hcn : s.clients ⟨.client, s.next⟩ = none := by
    cases h : s.clients ⟨.client, s.next⟩ with
    | none => rfl
    | some cl => exact absurd (hg.base.ckind _ (by rw [h]; simp)).2 (Nat.lt_irrefl _)
  refine ⟨?_, ?_, ?_⟩
  · refine hx.emit rfl rfl rfl rfl rfl ⟨rfl, fun t a => ?_, ?_, ?_, hno⟩
    · exact fresh _ rfl
    · exact fresh _ rfl
    · exact fresh _ rfl
  · refine ⟨?_, ?_, ?_, ?_, ?_, ?_⟩
    · intro c d hcd
      simp only [St.addClient, St.emit, upd] at hcd ⊢
      split at hcd
      · cases hcd; rename_i e; subst e; simp
      · exact List.mem_append_left _ (hl.subs c d hcd)
    · intro c d hcd
      simp only [St.addClient, St.emit, upd] at hcd ⊢
      rw [lastDelivered_snoc]
      split at hcd
      · cases hcd; rename_i e; subst e; exact hno
      · exact hl.last c d hcd
    · intro c hk hmem
      simp only [St.addClient, St.emit, upd] at hmem ⊢
      have hmem' : .dropped c ∈ s.log := by simpa using hmem
      split
      · rename_i e; subst e; exact absurd hmem' (fresh _ rfl)
      · exact hl.gone c hk hmem'
    · intro c d hmem hcd
      simp only [St.addClient, St.emit, upd] at hmem hcd
      have hmem' : .released c ∈ s.log := by simpa using hmem
      split at hcd
      · rename_i e; subst e; exact absurd hmem' (fresh _ rfl)
      · exact hl.rel c d hmem' hcd
    · intro e he c hk hc
      simp only [St.addClient, St.emit] at he ⊢
      rcases List.mem_append.mp he with h | h
      · exact Nat.lt_succ_of_lt (hl.nums e h c hk hc)
      · simp only [List.mem_singleton] at h
        subst h
        have : (⟨.client, s.next⟩ : GraphId) = c := hc
        subst this; exact Nat.lt_succ_self _
    · intro c hcp hn
      simp only [St.addClient, St.emit, upd] at hn ⊢
      split at hn
      · cases hn
      · exact List.mem_append_left _ (hl.lost c hcp hn)
  · exact hm.ext (k := [_]) rfl (by simp [Ev.txNeutral]) rfl rfl

theorem log_finishRun {s s' : St V} {id} (hg : Good s) (hx : XI s) (hl : LV s) (hm : MI s)
    (hs : s.finishRun id = .ok s') : XI s' ∧ LV s' ∧ MI s' := by
  obtain ⟨cl, s1, hcl, hrun, hsrc, h1, rfl⟩ := finishRun_cases hs
  have hx1 := hx.push' hg.base.wf hg.con_value h1
  have hl1 := hl.push' hg.base.wf h1
  have hm1 := hm.push h1
  obtain ⟨nodes, hp⟩ := setParents_push hg.base.wf h1
  refine ⟨hx1.emit rfl rfl rfl rfl rfl trivial, ?_, hm1.ext (k := [_]) rfl (by simp [Ev.txNeutral]) rfl rfl⟩
  have : ∃ cl1, s1.clients id = some cl1 ∧ DataEq { cl with ready := true, running := false } cl1 := by
    rw [hp.clients, hcl]
    split
    · exact ⟨_, rfl, rfl, rfl, rfl, fun h => h⟩
    · exact ⟨_, rfl, rfl, rfl, rfl, fun h => h⟩
  obtain ⟨cl1, g1, g2⟩ := this
  exact hl1.upd1 (k := [_]) g1 g2 rfl rfl (by simp [Ev.about]) (Nat.le_refl _) (fun _ h => h)

omit [DecidableEq V] in
theorem log_dropOne {s s' : St V} {id} (hg : Good s) (hx : XI s) (hl : LV s) (hm : MI s)
    (hc : s.clients id ≠ none) (hs : s.dropOne id = .ok s') : XI s' ∧ LV s' ∧ MI s' := by
  have hkn := hg.base.ckind id hc
  unfold St.dropOne at hs
  generalize h1 : ({ s with clients := upd s.clients id none }.emit (.dropped id)) = s1 at hs
  have hw : s1.conn.WF := by subst h1; exact hg.base.wf
  have hx1 : XI s1 := by subst h1; exact hx.emit rfl rfl rfl rfl rfl trivial
  have hm1 : MI s1 := by subst h1; exact hm.ext (k := [_]) rfl (by simp [Ev.txNeutral]) rfl rfl
  have hl1 : LV s1 := by
    subst h1
    refine ⟨?_, ?_, ?_, ?_, ?_, ?_⟩
    · intro c d hcd
      simp only [St.emit, upd] at hcd ⊢
      split at hcd
      · cases hcd
      · exact List.mem_append_left _ (hl.subs c d hcd)
    · intro c d hcd
      simp only [St.emit, upd] at hcd ⊢
      rw [lastDelivered_snoc]
      split at hcd
      · cases hcd
      · exact hl.last c d hcd
    · intro c hk hmem
      simp only [St.emit, upd] at hmem ⊢
      split
      · rfl
      · rename_i e
        refine hl.gone c hk ?_
        simpa [e] using hmem
    · intro c d hmem hcd
      simp only [St.emit, upd] at hmem hcd
      have hmem' : .released c ∈ s.log := by simpa using hmem
      split at hcd
      · cases hcd
      · exact hl.rel c d hmem' hcd
    · intro e he c hk hc
      simp only [St.emit] at he ⊢
      rcases List.mem_append.mp he with h | h
      · exact hl.nums e h c hk hc
      · simp only [List.mem_singleton] at h
        subst h
        have : id = c := hc
        subst this; exact hkn.2
    · intro c hcp hn
      simp only [St.emit, upd] at hn ⊢
      split at hn
      · rename_i e; subst e; simp
      · exact List.mem_append_left _ (hl.lost c hcp hn)
  exact ⟨hx1.push' hw (by subst h1; exact hg.con_value) hs, hl1.push' hw hs, hm1.push hs⟩

omit [DecidableEq V] in
theorem log_dropComputed {s s' : St V} {id} (hg : Good s) (hx : XI s) (hl : LV s) (hm : MI s)
    (hs : s.dropComputed id = .ok s') : XI s' ∧ LV s' ∧ MI s' := by
  unfold St.dropComputed at hs
  split at hs
  rotate_left
  · cases hs
  rename_i hcond
  generalize h1 : ({ s with defs := upd s.defs id none, cache := upd s.cache id none }.emit
    (.dropped id)) = s1 at hs
  have hw : s1.conn.WF := by subst h1; exact hg.base.wf
  have hx1 : XI s1 := by subst h1; exact hx.emit rfl rfl rfl rfl rfl trivial
  have hm1 : MI s1 := by subst h1; exact hm.ext (k := [_]) rfl (by simp [Ev.txNeutral]) rfl rfl
  have hl1 : LV s1 := by
    subst h1
    refine ⟨?_, ?_, ?_, ?_, ?_, ?_⟩
    · intro c d hcd; exact List.mem_append_left _ (hl.subs c d hcd)
    · intro c d hcd
      simp only [St.emit]; rw [lastDelivered_snoc]; exact hl.last c d hcd
    · intro c hk hmem
      have hne : c ≠ id := by rintro rfl; rw [hcond.1] at hk; cases hk
      exact hl.gone c hk (by simpa [St.emit, hne] using hmem)
    · intro c d hmem hcd
      exact hl.rel c d (by simpa [St.emit] using hmem) hcd
    · intro e he c hk hc
      simp only [St.emit] at he ⊢
      rcases List.mem_append.mp he with h | h
      · exact hl.nums e h c hk hc
      · simp only [List.mem_singleton] at h
        subst h
        have : id = c := hc
        subst this; rw [hcond.1] at hk; cases hk
    · intro c hcp hn; exact List.mem_append_left _ (hl.lost c hcp hn)
  exact ⟨hx1.push' hw (by subst h1; exact hg.con_value) hs, hl1.push' hw hs, hm1.push hs⟩

theorem log_subscribe {s s1 s' : St V} {lim t a cb o} (hg : Good s) (hx : XI s) (hl : LV s) (hm : MI s)
    (h1 : (s.addClient t a cb).startRun ⟨.client, s.next⟩ = .ok s1)
    (h2 : s1.observe lim ⟨.client, s.next⟩ = .ok (s', o)) : XI s' ∧ LV s' ∧ MI s' := by
  obtain ⟨x0, l0, m0⟩ := log_addClient hg hx hl hm t a cb
  obtain ⟨x1, l1, m1, e1, d1⟩ := log_startRun x0 l0 m0 h1
  refine log_observe (good_startRun (good_addClient hg _ _ _) h1) x1 l1 m1 ?_ ?_ h2
  · rw [e1]; exact ⟨s.log, _, [], rfl, by simp, Or.inr ⟨t, a, rfl⟩⟩
  · intro cl' hc
    obtain ⟨cl, g1, g2⟩ := d1 cl' hc
    simp only [St.addClient, St.emit, upd_same, Option.some.injEq] at g1
    rw [g2, ← g1]

theorem log_mstep {lim} {s s' : St V} (h : All s) (hs : MStep lim s s') :
    XI s' ∧ LV s' ∧ MI s' := by
  obtain ⟨hg, hc, hx, hl, hm⟩ := h
  cases hs with
  | newValue v b =>
    exact ⟨xi_addValue hx hg v b,
      hl.congr (k := []) rfl (by simp [St.addValue]) (by simp) (Nat.le_succ _) (fun _ h => Or.inl h),
      hm.ext (k := []) (by simp [St.addValue]) (by simp) rfl rfl⟩
  | newComputed p =>
    exact ⟨hx.emit rfl rfl rfl rfl rfl trivial,
      hl.congr (k := [_]) rfl rfl (by simp [Ev.about]) (Nat.le_succ _) (fun _ h => Or.inl h),
      hm.ext (k := [_]) rfl (by simp [Ev.txNeutral]) rfl rfl⟩
  | subscribe h1 h2 => exact log_subscribe hg hx hl hm h1 h2
  | @swapOwned _ id l hs =>
    unfold St.swapOwned at hs
    split at hs <;> cases hs
    rename_i cl hcl
    exact ⟨hx.congr rfl rfl rfl rfl,
      hl.upd1 (k := []) (cl' := { cl with owned := cl.fresh, fresh := [] }) hcl ⟨rfl, rfl, rfl, fun h => h⟩ rfl
        (by simp) (by simp) (Nat.le_refl _) (fun _ h => h),
      hm.ext (k := []) (by simp) (by simp) rfl rfl⟩
  | finishRun _ _ hs => exact log_finishRun hg hx hl hm hs
  | @finishDrop s1 _ id cl hcl hd h1 h2 =>
    obtain ⟨x1, l1, m1⟩ := log_finishRun hg hx hl hm h1
    obtain ⟨cl', _, g⟩ := finishRun_clients h1
    exact log_dropOne (good_finishRun hg h1) x1 l1 m1 (by rw [g]; simp) h2
  | @giveTo _ o b id hs =>
    unfold St.giveTo at hs
    split at hs
    · split at hs <;> cases hs
      rename_i cl hcl
      exact ⟨hx.congr rfl rfl rfl rfl,
        hl.upd1 (k := []) (cl' := { cl with fresh := cl.fresh ++ [id] }) hcl ⟨rfl, rfl, rfl, fun h => h⟩ rfl
          (by simp) (by simp) (Nat.le_refl _) (fun _ h => h),
        hm.ext (k := []) (by simp) (by simp) rfl rfl⟩
    · cases hs; exact ⟨hx, hl, hm⟩
  | dropOne hcl hr hs => exact log_dropOne hg hx hl hm (by rw [hcl]; simp) hs
  | @dropReq id cl hcl hr =>
    refine ⟨hx.emit rfl rfl rfl rfl rfl trivial, ?_, hm.ext (k := [_]) rfl (by simp [Ev.txNeutral]) rfl rfl⟩
    have hkn := hg.base.ckind id (by rw [hcl]; simp)
    refine ⟨?_, ?_, ?_, ?_, ?_, ?_⟩
    · intro c d hcd
      simp only [St.emit, upd] at hcd ⊢
      refine List.mem_append_left _ ?_
      split at hcd
      · cases hcd; rename_i e; subst e; exact hl.subs c cl hcl
      · exact hl.subs c d hcd
    · intro c d hcd
      simp only [St.emit, upd] at hcd ⊢
      rw [lastDelivered_snoc]
      split at hcd
      · cases hcd; rename_i e; subst e; exact hl.last c cl hcl
      · exact hl.last c d hcd
    · intro c hk hmem
      simp only [St.emit, upd] at hmem ⊢
      have hmem' : .dropped c ∈ s.log := by simpa using hmem
      split
      · rename_i e; subst e; have := hl.gone c hk hmem'; rw [hcl] at this; cases this
      · exact hl.gone c hk hmem'
    · intro c d hmem hcd
      simp only [St.emit, upd] at hmem hcd
      split at hcd
      · cases hcd; rfl
      · rename_i e
        exact hl.rel c d (by simpa [e] using hmem) hcd
    · intro e he c hk hc
      simp only [St.emit] at he ⊢
      rcases List.mem_append.mp he with h | h
      · exact hl.nums e h c hk hc
      · simp only [List.mem_singleton] at h
        subst h
        have : id = c := hc
        subst this; exact hkn.2
    · intro c hcp hn
      simp only [St.emit, upd] at hn ⊢
      split at hn
      · cases hn
      · exact List.mem_append_left _ (hl.lost c hcp hn)
  | dropComputed hs => exact log_dropComputed hg hx hl hm hs
  | @begin_ tx hu =>
    refine ⟨hx.emit rfl rfl rfl rfl rfl trivial,
      hl.congr (k := [_]) rfl rfl (by simp [Ev.about]) (Nat.le_refl _) (fun c hcp => Or.inl ?_), ?_⟩
    · revert hcp
      unfold St.pending TxState.up at *
      simp only [St.emit]
      cases htx : s.tx <;> rw [htx] at hu <;> simp only at hu
      · cases hu; exact id
      · split at hu <;> cases hu; exact id
      · cases hu
    · obtain ⟨m, r, hrel⟩ := hm
      unfold MonRel at hrel
      unfold TxState.up at hu
      cases htx : s.tx with
      | idle =>
        rw [htx] at hu hrel; cases hu
        refine ⟨{ m with level := m.level + 1, affected := if m.level = 0 then [] else m.affected },
          r.snoc (by unfold Mon.Step; rw [hrel.1]), ?_⟩
        refine ⟨hrel.1, by show m.level + 1 = 1; rw [hrel.2], Nat.one_pos, ?_, List.Pairwise.nil, by simp⟩
        intro c; rw [if_pos hrel.2]
      | modification l cs =>
        rw [htx] at hu hrel
        simp only at hu
        split at hu <;> cases hu
        obtain ⟨r1, r2, r3, r4, r5, r6⟩ := hrel
        refine ⟨{ m with level := m.level + 1, affected := if m.level = 0 then [] else m.affected },
          r.snoc (by unfold Mon.Step; rw [r1]), ?_⟩
        refine ⟨r1, by show m.level + 1 = l + 1; rw [r2], Nat.succ_pos _, ?_, r5, r6⟩
        intro c; simp only; rw [if_neg (by omega)]; exact r4 c
      | refreshing => rw [htx] at hu; cases hu
  | @end_ tx hd =>
    refine ⟨hx.emit rfl rfl rfl rfl rfl trivial,
      hl.congr (k := [_]) rfl rfl (by simp [Ev.about]) (Nat.le_refl _) (fun c hcp => Or.inl ?_), ?_⟩
    · revert hcp
      unfold St.pending TxState.down at *
      simp only [St.emit]
      cases htx : s.tx <;> rw [htx] at hd <;> simp only at hd
      · cases hd; exact id
      · split at hd <;> cases hd; exact id
      · cases hd; exact id
    · obtain ⟨m, r, hrel⟩ := hm
      unfold MonRel at hrel
      unfold TxState.down at hd
      cases htx : s.tx with
      | idle =>
        rw [htx] at hd hrel; cases hd
        refine ⟨_, r.snoc (by unfold Mon.Step; rw [hrel.1]), ?_⟩
        exact ⟨by simp [hrel.2], by simp [hrel.2]⟩
      | modification l cs =>
        rw [htx] at hd hrel
        simp only at hd
        split at hd <;> cases hd
        rename_i hl1
        obtain ⟨r1, r2, r3, r4, r5, r6⟩ := hrel
        refine ⟨_, r.snoc (by unfold Mon.Step; rw [r1]), ?_⟩
        refine ⟨?_, by simp [r2], by omega, r4, r5, r6⟩
        simp only; rw [if_neg (by omega)]
      | refreshing =>
        rw [htx] at hd hrel; cases hd
        refine ⟨m, r.snoc (by unfold Mon.Step; rw [hrel.1]), ?_⟩
        unfold MonRel; exact hrel
  | @write _ id v b hs =>
    obtain ⟨old, l, cs, hv, ht, ⟨_, _, rfl⟩ | ⟨_, W⟩⟩ := write_cases hs
    · exact ⟨hx, hl, hm⟩
    obtain ⟨l, cs, deps, w1, w2, w3, w4, w5, w6⟩ := W.ex
    have hin : ∀ c, c ∈ deps → ∃ p, s.conn.E p c := by
      intro c hc
      have := (w2 c).mp hc
      cases this with
      | single h => exact ⟨_, h⟩
      | tail _ h => exact ⟨_, h⟩
    refine ⟨hx.emit W.connected W.connectable W.conn w6 rfl trivial,
      hl.congr W.clients w6 (by simp [Ev.about]) (Nat.le_of_eq W.next.symm) ?_, ?_⟩
    · intro c hcp
      unfold St.pending at hcp ⊢
      rw [w5, W.todo] at hcp
      rw [w1]
      simp only [List.mem_append, mem_sExtend, List.mem_filter, decide_eq_true_eq] at hcp ⊢
      rcases hcp with (g | ⟨g1, g2⟩) | g
      · exact Or.inl (Or.inl g)
      · right
        obtain ⟨p, he⟩ := hin c g1
        rw [W.clients]
        rcases hg.base.dst p c he with ⟨k, _⟩ | ⟨_, k⟩
        · rw [k] at g2; cases g2
        · exact k
      · exact Or.inl (Or.inr g)
    · obtain ⟨m, r, hrel⟩ := hm
      unfold MonRel at hrel
      rw [w1] at hrel
      obtain ⟨r1, r2, r3, r4, r5, r6⟩ := hrel
      refine ⟨{ m with affected := m.affected ++ deps.filter fun d => d.kind = .client }, ?_, ?_⟩
      · rw [w6]; refine r.snoc ?_
        unfold Mon.Step; rw [r1]; exact ⟨by omega, rfl⟩
      · unfold MonRel; rw [w5]
        refine ⟨r1, r2, r3, ?_, asc_sExtend r5, ?_⟩
        · intro c; simp only [mem_sExtend, List.mem_append]; rw [r4]
        · intro c hc
          simp only [mem_sExtend, List.mem_filter, decide_eq_true_eq] at hc
          rcases hc with h | h
          · exact r6 c h
          · exact h.2
  | @get _ id v hs =>
    have hr := getNode_evalRel hg (stackOK_nil s) hs
    have hgot := good_get hg hs
    refine ⟨(getNode_xi hg (stackOK_nil s) hx hs).emit rfl rfl rfl rfl rfl ?_,
      (hl.evalRel hr).congr (k := [_]) rfl rfl (by simp [Ev.about]) (Nat.le_refl _) (fun _ h => Or.inl h),
      (hm.evalRel hr).ext (k := [_]) rfl (by simp [Ev.txNeutral]) rfl rfl⟩
    intro hc; exact hgot.scratch (by simpa using hc)

omit [DecidableEq V] in
theorem asc_num {cs : List GraphId} (h : Asc cs) (hk : ∀ c ∈ cs, c.kind = .client) :
    cs.Pairwise (fun a b => a.num < b.num) := by
  refine List.Pairwise.imp_of_mem ?_ h
  intro a b ha hb hlt
  rcases hlt with h | h
  · rw [hk a ha, hk b hb] at h; exact absurd h (Nat.lt_irrefl _)
  · exact h.2

theorem log_step {lim} {s s' : St V} (h : All s) (hs : Step lim s s') : XI s' ∧ LV s' ∧ MI s' := by
  cases hs with
  | micro hs => exact log_mstep h hs
  | @finish cs hd =>
    obtain ⟨hg, hc, hx, hl, hm⟩ := h
    have : ∃ l, s.tx = .modification l cs ∧ l - 1 = 0 := by
      unfold TxState.down at hd
      split at hd
      · cases hd
      · split at hd <;> cases hd; exact ⟨_, by assumption, by assumption⟩
      · cases hd
    obtain ⟨l, hl', hl1⟩ := this
    have ht := hc.todo (by rw [hl']; simp)
    have hx1 : XI ({ s with tx := .refreshing }.emit .end_) := hx.emit rfl rfl rfl rfl rfl trivial
    refine ⟨hx1.emit rfl rfl rfl rfl rfl trivial,
      hl.congr (k := [.end_, .finish cs]) rfl (by simp [St.emit]) (by simp [Ev.about]) (Nat.le_refl _) ?_, ?_⟩
    · intro c hcp
      left
      unfold St.pending at *
      simp [St.emit, hl', ht] at hcp ⊢
      exact hcp
    · obtain ⟨m, r, hrel⟩ := hm
      unfold MonRel at hrel
      rw [hl'] at hrel
      obtain ⟨r1, r2, r3, r4, r5, r6⟩ := hrel
      have q1 : Mon.Runs (s.log ++ [.end_]) { m with level := m.level - 1, phase := .closing } :=
        r.snoc (by unfold Mon.Step; rw [r1]; simp only; rw [if_pos (by omega)])
      have q2 : Mon.Runs ((s.log ++ [.end_]) ++ [.finish cs])
          { m with level := m.level - 1, phase := .refreshing cs } :=
        q1.snoc (by unfold Mon.Step; exact ⟨r4, r6, asc_num r5 r6, rfl⟩)
      exact ⟨_, q2, rfl, by show m.level - 1 = 0; omega⟩
  | @skip c cs htx ht hq hsk =>
    obtain ⟨hg, hc, hx, hl, hm⟩ := h
    have hpd : s.pending = c :: cs := by unfold St.pending; rw [htx, ht]; rfl
    have hcn : s.clients c = none := by
      rcases hsk with g | ⟨d, g1, g2⟩
      · exact g
      · have := (hc.each c d id g1).pend (by rw [hpd]; exact List.mem_cons_self)
        rw [this] at g2; cases g2
    refine ⟨?_, ?_, ?_⟩
    · exact hx.emit rfl rfl rfl rfl rfl (hl.lost c (by rw [hpd]; exact List.mem_cons_self) hcn)
    · refine hl.congr (k := [_]) rfl rfl (by simp [Ev.about]) (Nat.le_refl _) (fun x hxp => Or.inl ?_)
      rw [hpd]; unfold St.pending at hxp; simp [St.emit, htx] at hxp
      exact List.mem_cons_of_mem _ hxp
    · obtain ⟨m, r, hrel⟩ := hm
      unfold MonRel at hrel
      rw [htx] at hrel
      refine ⟨{ m with phase := .refreshing cs }, r.snoc ?_, ?_⟩
      · unfold Mon.Step; rw [hrel.1]; exact ⟨cs, ht, rfl⟩
      · unfold MonRel; simp [St.emit, htx, hrel.2]
  | @refresh s1 _ c cs cl o htx ht hq hcl hr h1 h2 =>
    obtain ⟨hg, hc, hx, hl, hm⟩ := h
    have hpd : s.pending = c :: cs := by unfold St.pending; rw [htx, ht]; rfl
    have hk := (hg.base.ckind c (by rw [hcl]; simp)).1
    have hrun := hq c cl hcl hr
    have hdr : cl.dropReq = false := by
      cases hd : cl.dropReq with
      | false => rfl
      | true => have := (hc.each c cl id hcl).drop hd; rw [hrun] at this; cases this
    have x0 : XI ({ s with todo := cs }.emit (.refreshed c)) := by
      refine hx.emit rfl rfl rfl rfl rfl ⟨?_, ?_, _, _, hl.subs c cl hcl⟩
      · intro hmem; have := hl.gone c hk hmem; rw [hcl] at this; cases this
      · intro hmem; have := hl.rel c cl hmem hcl; rw [hdr] at this; cases this
    have l0 : LV ({ s with todo := cs }.emit (.refreshed c)) := by
      refine hl.congr (k := [_]) rfl rfl (by simp [Ev.about]) (Nat.le_refl _) (fun x hxp => Or.inl ?_)
      rw [hpd]; unfold St.pending at hxp; simp [St.emit, htx] at hxp
      exact List.mem_cons_of_mem _ hxp
    have m0 : MI ({ s with todo := cs }.emit (.refreshed c)) := by
      obtain ⟨m, r, hrel⟩ := hm
      unfold MonRel at hrel
      rw [htx] at hrel
      refine ⟨{ m with phase := .refreshing cs }, r.snoc ?_, ?_⟩
      · unfold Mon.Step; rw [hrel.1]; exact ⟨cs, ht, rfl⟩
      · unfold MonRel; simp [St.emit, htx, hrel.2]
    obtain ⟨x1, l1, m1, e1, d1⟩ := log_startRun x0 l0 m0 h1
    have gg : Good ({ s with todo := cs }.emit (.refreshed c)) :=
      hg.congr rfl rfl rfl rfl rfl rfl (fun _ _ => rfl) (fun _ => Iff.rfl)
    refine log_observe (good_startRun gg h1) x1 l1 m1 ?_ ?_ h2
    · rw [e1]; exact ⟨s.log, _, [], rfl, by simp, Or.inl rfl⟩
    · intro cl' hc'
      obtain ⟨d, g1, g2⟩ := d1 cl' hc'
      have : s.clients c = some d := g1
      rw [hcl] at this; cases this; rw [g2]; exact hdr
  | idle htx ht hq =>
    obtain ⟨hg, hc, hx, hl, hm⟩ := h
    refine ⟨hx.emit rfl rfl rfl rfl rfl trivial,
      hl.congr (k := [_]) rfl rfl (by simp [Ev.about]) (Nat.le_refl _) ?_, ?_⟩
    · intro c hcp; unfold St.pending at hcp; simp [St.emit, htx, ht, TxState.moveToIdle] at hcp
    · obtain ⟨m, r, hrel⟩ := hm
      unfold MonRel at hrel
      rw [htx] at hrel
      refine ⟨{ m with phase := .normal }, r.snoc (by unfold Mon.Step; rw [hrel.1]; exact ⟨ht, rfl⟩), ?_⟩
      unfold MonRel; simp [St.emit, htx, TxState.moveToIdle, hrel.2]

omit [DecidableEq V] in
theorem all_empty : All ({} : St V) := by
  refine ⟨good_empty, ci_empty, ⟨fun _ => rfl, fun x => ?_, LogOK.nil⟩, ⟨?_, ?_, ?_, ?_, ?_, ?_⟩, ⟨{}, .nil, rfl, rfl⟩⟩
  · simp
  · intro c cl h; cases h
  · intro c cl h; cases h
  · intro c _ _; rfl
  · intro c cl h; cases h
  · intro e h; cases h
  · intro c h; cases h

theorem all_star {lim} {s : St V} (h : Star (Step lim) {} s) : All s :=
  h.inv (fun _ _ g h => by
    obtain ⟨x, l, m⟩ := log_step g h
    exact ⟨good_step g.good h, ci_step g.good g.ci h, x, l, m⟩) all_empty

end Verif.Reactive

import Verif.Reactive.Running
/-! # A subscription exists until the log says that it was dropped -/
namespace Verif.Reactive

variable {V : Type}

/-- Existing subscriptions stay, or their end is logged. -/
structure Stay (s s' : St V) : Prop where
  log : ∃ k, s'.log = s.log ++ k ∧ ∀ c t a, .subscribed c t a ∈ k →
    .dropped c ∈ s'.log ∨ ∃ cl, s'.clients c = some cl ∧ cl.target = t ∧ cl.all = a
  keep : ∀ c cl, s.clients c = some cl →
    .dropped c ∈ s'.log ∨ ∃ cl', s'.clients c = some cl' ∧ cl'.target = cl.target ∧ cl'.all = cl.all

theorem Stay.trans {a b c : St V} (h1 : Stay a b) (h2 : Stay b c) : Stay a c := by
  obtain ⟨⟨k1, l1, r1⟩, p1⟩ := h1
  obtain ⟨⟨k2, l2, r2⟩, p2⟩ := h2
  refine ⟨⟨k1 ++ k2, by rw [l2, l1]; simp, ?_⟩, ?_⟩
  · intro x t al hx
    rcases List.mem_append.mp hx with h | h
    · rcases r1 x t al h with h | ⟨cl, g1, g2, g3⟩
      · exact .inl (by rw [l2]; exact List.mem_append_left _ h)
      · rcases p2 x cl g1 with h' | ⟨cl', e1, e2, e3⟩
        · exact .inl h'
        · exact .inr ⟨cl', e1, e2.trans g2, e3.trans g3⟩
    · exact r2 x t al h
  · intro x cl hx
    rcases p1 x cl hx with h | ⟨cl', g1, g2, g3⟩
    · exact .inl (by rw [l2]; exact List.mem_append_left _ h)
    · rcases p2 x cl' g1 with h | ⟨cl2, e1, e2, e3⟩
      · exact .inl h
      · exact .inr ⟨cl2, e1, e2.trans g2, e3.trans g3⟩

/-- Steps that only change other parts of the state, or other data of subscriptions. -/
theorem Stay.mk' {s s' : St V} {k} (hl : s'.log = s.log ++ k) (hk : ∀ c t a, .subscribed c t a ∉ k)
    (hc : ∀ c cl, s.clients c = some cl →
      ∃ cl', s'.clients c = some cl' ∧ cl'.target = cl.target ∧ cl'.all = cl.all) : Stay s s' :=
  ⟨⟨k, hl, fun c t a h => absurd h (hk c t a)⟩, fun c cl h => .inr (hc c cl h)⟩

theorem Stay.same {s s' : St V} {k} (hl : s'.log = s.log ++ k) (hk : ∀ c t a, .subscribed c t a ∉ k)
    (hc : s'.clients = s.clients) : Stay s s' :=
  .mk' hl hk (fun c cl h => ⟨cl, by rw [hc]; exact h, rfl, rfl⟩)

theorem Stay.upd {s s' : St V} {k id cl cl'} (hl : s'.log = s.log ++ k)
    (hk : ∀ c t a, .subscribed c t a ∉ k) (h : s.clients id = some cl)
    (hc : s'.clients = Verif.Reactive.upd s.clients id (some cl')) (h1 : cl'.target = cl.target)
    (h2 : cl'.all = cl.all) : Stay s s' := by
  refine .mk' hl hk (fun c d hd => ?_)
  rw [hc]
  by_cases hx : c = id
  · subst hx; rw [h] at hd; cases hd; exact ⟨cl', by simp [Verif.Reactive.upd], h1, h2⟩
  · exact ⟨d, by simp only [Verif.Reactive.upd]; rw [if_neg hx]; exact hd, rfl, rfl⟩

theorem isConn_notSub {k : List (Ev V)} (h : ∀ e ∈ k, e.isConn = true) (c t a) :
    .subscribed c t a ∉ k := by
  intro hm; have := h _ hm; cases this

theorem stay_push {s s' : St V} {X N} (h : s.setParents X N = .ok s') : Stay s s' := by
  obtain ⟨k, l1, l2⟩ := setParents_log h
  refine .mk' l1 (isConn_notSub l2) ?_
  unfold St.setParents at h
  split at h <;> cases h
  rename_i conn info _
  intro c cl hc
  rw [applyInfo_clients]
  split
  · exact ⟨{ cl with ready := false }, by rw [show ({ s with conn := conn } : St V).clients c = some cl from hc]; rfl, rfl, rfl⟩
  · exact ⟨cl, hc, rfl, rfl⟩

theorem stay_dropOne {s s' : St V} {id} (hs : s.dropOne id = .ok s') : Stay s s' := by
  unfold St.dropOne at hs
  refine Stay.trans (b := { s with clients := upd s.clients id none }.emit (.dropped id)) ?_ (stay_push hs)
  refine ⟨⟨[_], rfl, by simp⟩, ?_⟩
  intro c cl h
  by_cases hx : c = id
  · subst hx; exact .inl (by simp [St.emit])
  · exact .inr ⟨cl, by simp only [St.emit, upd]; rw [if_neg hx]; exact h, rfl, rfl⟩

variable [DecidableEq V]

theorem stay_finishRun {s s' : St V} {id} (hs : s.finishRun id = .ok s') : Stay s s' := by
  obtain ⟨cl, s1, hcl, hrun, hsrc, h1, rfl⟩ := finishRun_cases hs
  have h := stay_push h1
  obtain ⟨k, l1, l2⟩ := setParents_log h1
  refine .mk' (k := k ++ [.ran id]) (by simp [St.emit, l1]) ?_ ?_
  · intro c t a hm
    rcases List.mem_append.mp hm with h | h
    · exact isConn_notSub l2 c t a h
    · simp at h
  · intro c d hd
    by_cases hx : c = id
    · subst hx
      rw [hcl] at hd; cases hd
      exact ⟨{ cl with ready := true, running := false }, by simp [upd, St.emit], rfl, rfl⟩
    · unfold St.setParents at h1
      split at h1 <;> cases h1
      rename_i conn info _
      simp only [St.emit, upd, if_neg hx]
      rw [applyInfo_clients]
      split
      · exact ⟨{ d with ready := false }, by rw [show ({ s with conn := conn } : St V).clients c = some d from hd]; rfl, rfl, rfl⟩
      · exact ⟨d, hd, rfl, rfl⟩

theorem stay_observe {s s' : St V} {lim id o} (hg : Good s) (hs : s.observe lim id = .ok (s', o)) :
    Stay s s' := by
  obtain ⟨cl, s1, v, cl1, h1, h2, h3, h4⟩ := observe_cases hs
  have hr := getNode_evalRel hg (stackOK_nil s) h2
  obtain ⟨k, l1, l2⟩ := hr.log
  refine Stay.trans (b := s1) (Stay.same l1 (isConn_notSub l2) hr.clients) ?_
  rcases h4 with ⟨_, _, rfl⟩ | ⟨_, _, _, rfl⟩
  · exact Stay.upd (k := [_]) rfl (by simp) h3 (cl' := { cl1 with prev := some v }) rfl rfl rfl
  · exact Stay.upd (k := []) (by simp) (by simp) h3 (cl' := { cl1 with prev := some v }) rfl rfl rfl

omit [DecidableEq V] in
theorem stay_startRun {s s' : St V} {id} (hs : s.startRun id = .ok s') : Stay s s' := by
  unfold St.startRun at hs
  split at hs <;> cases hs
  rename_i cl hcl
  exact Stay.upd (k := []) (by simp) (by simp) hcl rfl rfl rfl

theorem stay_mstep {lim} {s s' : St V} (hg : Good s) (hs : MStep lim s s') : Stay s s' := by
  cases hs with
  | newValue v b => exact Stay.same (k := []) (by simp [St.addValue]) (by simp) rfl
  | newComputed p => exact Stay.same (k := [_]) rfl (by simp) rfl
  | @subscribe s1 _ t a cb o h1 h2 =>
    have h0 : Stay s (s.addClient t a cb) := by
      refine ⟨⟨[_], rfl, ?_⟩, ?_⟩
      · intro c t' a' h
        simp only [List.mem_singleton, Ev.subscribed.injEq] at h
        obtain ⟨rfl, rfl, rfl⟩ := h
        exact .inr ⟨{ target := t', all := a', cb := cb }, by simp [St.addClient, St.emit, upd], rfl, rfl⟩
      · intro c cl h
        refine .inr ⟨cl, ?_, rfl, rfl⟩
        have := hg.base.ckind c (by rw [h]; simp)
        simp only [St.addClient, St.emit, upd]
        rw [if_neg]; exact h
        rintro rfl; simp at this
    exact (h0.trans (stay_startRun h1)).trans (stay_observe (good_startRun (good_addClient hg t a cb) h1) h2)
  | swapOwned hs =>
    unfold St.swapOwned at hs
    split at hs <;> cases hs
    rename_i cl hcl
    exact Stay.upd (k := []) (by simp) (by simp) hcl rfl rfl rfl
  | finishRun _ _ hs => exact stay_finishRun hs
  | finishDrop _ _ h1 h2 => exact (stay_finishRun h1).trans (stay_dropOne h2)
  | giveTo hs =>
    unfold St.giveTo at hs
    split at hs
    · split at hs <;> cases hs
      rename_i cl hcl
      exact Stay.upd (k := []) (by simp) (by simp) hcl rfl rfl rfl
    · cases hs; exact Stay.same (k := []) (by simp) (by simp) rfl
  | dropOne _ _ hs => exact stay_dropOne hs
  | dropReq h _ => exact Stay.upd (k := [_]) rfl (by simp) h rfl rfl rfl
  | dropComputed hs =>
    unfold St.dropComputed at hs
    split at hs
    · refine Stay.trans ?_ (stay_push hs)
      exact Stay.same (k := [_]) rfl (by simp) rfl
    · cases hs
  | begin_ _ => exact Stay.same (k := [_]) rfl (by simp) rfl
  | end_ _ => exact Stay.same (k := [_]) rfl (by simp) rfl
  | @write _ id v b hs =>
    obtain ⟨old, l, cs, hv, ht, ⟨_, _, rfl⟩ | ⟨_, W⟩⟩ := write_cases hs
    · exact Stay.same (k := []) (by simp) (by simp) rfl
    · obtain ⟨l, cs, deps, w1, w2, w3, w4, w5, w6⟩ := W.ex
      exact Stay.same w6 (by simp) W.clients
  | @get s1 id v hs =>
    have hr := getNode_evalRel hg (stackOK_nil s) hs
    obtain ⟨k, l1, l2⟩ := hr.log
    exact Stay.trans (Stay.same l1 (isConn_notSub l2) hr.clients) (Stay.same (k := [_]) rfl (by simp) rfl)

theorem stay_step {lim} {s s' : St V} (hg : Good s) (hs : Step lim s s') : Stay s s' := by
  cases hs with
  | micro hs => exact stay_mstep hg hs
  | @finish cs _ => exact Stay.same (k := [.end_, .finish cs]) (by simp [St.emit]) (by simp) rfl
  | skip _ _ _ _ => exact Stay.same (k := [_]) rfl (by simp) rfl
  | @refresh s1 _ c cs cl o htx ht hq hc hr h1 h2 =>
    have gg : Good ({ s with todo := cs }.emit (.refreshed c)) :=
      hg.congr rfl rfl rfl rfl rfl rfl (fun _ _ => rfl) (fun _ => Iff.rfl)
    refine Stay.trans (Stay.trans ?_ (stay_startRun h1)) (stay_observe (good_startRun gg h1) h2)
    exact Stay.same (k := [_]) rfl (by simp) rfl
  | idle _ _ _ => exact Stay.same (k := [_]) rfl (by simp) rfl

/-- Every subscription that was created and has not been destroyed exists. -/
def LiveI (s : St V) : Prop :=
  ∀ c t a, .subscribed c t a ∈ s.log →
    .dropped c ∈ s.log ∨ ∃ cl, s.clients c = some cl ∧ cl.target = t ∧ cl.all = a

theorem live_star {lim} {s : St V} (h : Star (Step lim) {} s) : LiveI s := by
  have := h.inv (P := fun s => All s ∧ LiveI s) ?_ ⟨all_empty, ?_⟩
  · exact this.2
  · intro a b ⟨ha, hl⟩ hs
    obtain ⟨hx, hv, hm⟩ := log_step ha hs
    refine ⟨⟨good_step ha.good hs, ci_step ha.good ha.ci hs, hx, hv, hm⟩, ?_⟩
    obtain ⟨⟨k, l1, r1⟩, p1⟩ := stay_step ha.good hs
    intro c t al hm
    rw [l1] at hm
    rcases List.mem_append.mp hm with h | h
    · rcases hl c t al h with h | ⟨cl, g1, g2, g3⟩
      · exact .inl (by rw [l1]; exact List.mem_append_left _ h)
      · rcases p1 c cl g1 with h | ⟨cl', e1, e2, e3⟩
        · exact .inl h
        · exact .inr ⟨cl', e1, e2.trans g2, e3.trans g3⟩
    · exact r1 c t al h
  · intro c t a h; cases h

/-! ## The first call of the callback -/

omit [DecidableEq V] in
/-- Every subscription in `k` is followed at once by a call of its callback (only external
connections may be opened or closed in between). -/
def SubsFollowed (k : List (Ev V)) : Prop :=
  ∀ pre c t a post, k = pre ++ .subscribed c t a :: post →
    ∃ mid v clean vals defs post', post = mid ++ .deliver c v clean vals defs :: post' ∧
      ∀ e ∈ mid, e.isConn = true

omit [DecidableEq V] in
theorem SubsFollowed.append {k l : List (Ev V)} (hk : SubsFollowed k) (hl : SubsFollowed l) :
    SubsFollowed (k ++ l) := by
  intro pre c t a post h
  rcases List.append_eq_append_iff.mp h with ⟨x, h1, h2⟩ | ⟨x, h1, h2⟩
  · exact hl x c t a post h2
  · cases x with
    | nil => exact hl [] c t a post (by simpa using h2.symm)
    | cons y x =>
      simp only [List.cons_append, List.cons.injEq] at h2
      obtain ⟨rfl, h2⟩ := h2
      obtain ⟨mid, v, clean, vals, defs, post', g1, g2⟩ := hk pre c t a x h1
      exact ⟨mid, v, clean, vals, defs, post' ++ l, by rw [h2, g1]; simp, g2⟩

def Foll (s s' : St V) : Prop := ∃ k, s'.log = s.log ++ k ∧ SubsFollowed k

omit [DecidableEq V] in
theorem Foll.trans {a b c : St V} (h1 : Foll a b) (h2 : Foll b c) : Foll a c := by
  obtain ⟨k, l1, p1⟩ := h1
  obtain ⟨l, l2, p2⟩ := h2
  exact ⟨k ++ l, by rw [l2, l1]; simp, p1.append p2⟩

omit [DecidableEq V] in
theorem Foll.ext {s s' : St V} {k} (hl : s'.log = s.log ++ k) (hk : ∀ c t a, .subscribed c t a ∉ k) :
    Foll s s' := by
  refine ⟨k, hl, ?_⟩
  intro pre c t a post h
  exact absurd (by rw [h]; simp) (hk c t a)

omit [DecidableEq V] in
theorem foll_push {s s' : St V} {X N} (h : s.setParents X N = .ok s') : Foll s s' := by
  obtain ⟨k, l1, l2⟩ := setParents_log h
  exact Foll.ext l1 (isConn_notSub l2)

omit [DecidableEq V] in
theorem foll_dropOne {s s' : St V} {id} (hs : s.dropOne id = .ok s') : Foll s s' := by
  unfold St.dropOne at hs
  refine Foll.trans ?_ (foll_push hs)
  exact Foll.ext (k := [_]) rfl (by simp)

theorem foll_finishRun {s s' : St V} {id} (hs : s.finishRun id = .ok s') : Foll s s' := by
  obtain ⟨cl, s1, hcl, hrun, hsrc, h1, rfl⟩ := finishRun_cases hs
  refine Foll.trans (foll_push h1) ?_
  exact Foll.ext (k := [_]) rfl (by simp)

theorem foll_observe {s s' : St V} {lim id o} (hg : Good s) (hs : s.observe lim id = .ok (s', o)) :
    Foll s s' := by
  obtain ⟨cl, s1, v, cl1, h1, h2, h3, h4⟩ := observe_cases hs
  have hr := getNode_evalRel hg (stackOK_nil s) h2
  obtain ⟨k, l1, l2⟩ := hr.log
  refine Foll.trans (b := s1) (Foll.ext l1 (isConn_notSub l2)) ?_
  rcases h4 with ⟨_, _, rfl⟩ | ⟨_, _, _, rfl⟩
  · exact Foll.ext (k := [_]) rfl (by simp)
  · exact Foll.ext (k := []) (by simp) (by simp)

theorem foll_subscribe {s s1 s' : St V} {lim t a cb o} (hg : Good s)
    (h1 : (s.addClient t a cb).startRun ⟨.client, s.next⟩ = .ok s1)
    (h2 : s1.observe lim ⟨.client, s.next⟩ = .ok (s', o)) : Foll s s' := by
  have hg1 := good_startRun (good_addClient hg t a cb) h1
  obtain ⟨cl, s2, v, cl1, g1, g2, g3, g4⟩ := observe_cases h2
  have hr := getNode_evalRel hg1 (stackOK_nil s1) g2
  obtain ⟨k, l1, l2⟩ := hr.log
  have hlog : s1.log = s.log ++ [.subscribed ⟨.client, s.next⟩ t a] ∧
      ∃ d, s1.clients ⟨.client, s.next⟩ = some d ∧ d.prev = none := by
    unfold St.startRun at h1
    split at h1 <;> cases h1
    rename_i d hd
    simp only [St.addClient, St.emit, upd_same, Option.some.injEq] at hd
    subst hd
    exact ⟨rfl, { target := t, all := a, cb := cb, running := true, fresh := [] }, by simp [upd], rfl⟩
  obtain ⟨hlog, d, hd, hp⟩ := hlog
  have hcl1 : cl1 = d := by rw [hr.clients, hd] at g3; exact (Option.some.inj g3).symm
  subst hcl1
  rcases g4 with ⟨_, _, rfl⟩ | ⟨_, g5, _, rfl⟩
  · refine ⟨.subscribed ⟨.client, s.next⟩ t a :: (k ++ [.deliver ⟨.client, s.next⟩ v (!s2.taint cl1.target) s2.vals s2.defs]),
      by simp [St.emit, l1, hlog], ?_⟩
    intro pre c t' a' post h
    cases pre with
    | nil =>
      simp only [List.nil_append, List.cons.injEq, Ev.subscribed.injEq] at h
      obtain ⟨⟨rfl, rfl, rfl⟩, rfl⟩ := h
      exact ⟨k, v, _, _, _, [], rfl, l2⟩
    | cons y pre =>
      simp only [List.cons_append, List.cons.injEq] at h
      have : .subscribed c t' a' ∈ k ++ [.deliver ⟨.client, s.next⟩ v (!s2.taint cl1.target) s2.vals s2.defs] := by
        rw [h.2]; simp
      rcases List.mem_append.mp this with h | h
      · exact absurd h (isConn_notSub l2 _ _ _)
      · simp at h
  · rw [hp] at g5; cases g5

theorem foll_mstep {lim} {s s' : St V} (hg : Good s) (hs : MStep lim s s') : Foll s s' := by
  cases hs with
  | newValue v b => exact Foll.ext (k := []) (by simp [St.addValue]) (by simp)
  | newComputed p => exact Foll.ext (k := [_]) rfl (by simp)
  | subscribe h1 h2 => exact foll_subscribe hg h1 h2
  | swapOwned hs =>
    unfold St.swapOwned at hs
    split at hs <;> cases hs
    exact Foll.ext (k := []) (by simp) (by simp)
  | finishRun _ _ hs => exact foll_finishRun hs
  | finishDrop _ _ h1 h2 => exact (foll_finishRun h1).trans (foll_dropOne h2)
  | giveTo hs =>
    unfold St.giveTo at hs
    split at hs
    · split at hs <;> cases hs
      exact Foll.ext (k := []) (by simp) (by simp)
    · cases hs; exact Foll.ext (k := []) (by simp) (by simp)
  | dropOne _ _ hs => exact foll_dropOne hs
  | dropReq h _ => exact Foll.ext (k := [_]) rfl (by simp)
  | dropComputed hs =>
    unfold St.dropComputed at hs
    split at hs
    · refine Foll.trans ?_ (foll_push hs)
      exact Foll.ext (k := [_]) rfl (by simp)
    · cases hs
  | begin_ _ => exact Foll.ext (k := [_]) rfl (by simp)
  | end_ _ => exact Foll.ext (k := [_]) rfl (by simp)
  | @write _ id v b hs =>
    obtain ⟨old, l, cs, hv, ht, ⟨_, _, rfl⟩ | ⟨_, W⟩⟩ := write_cases hs
    · exact Foll.ext (k := []) (by simp) (by simp)
    · obtain ⟨l, cs, deps, w1, w2, w3, w4, w5, w6⟩ := W.ex
      exact Foll.ext w6 (by simp)
  | @get s1 id v hs =>
    have hr := getNode_evalRel hg (stackOK_nil s) hs
    obtain ⟨k, l1, l2⟩ := hr.log
    exact Foll.trans (Foll.ext l1 (isConn_notSub l2)) (Foll.ext (k := [_]) rfl (by simp))

theorem foll_step {lim} {s s' : St V} (hg : Good s) (hs : Step lim s s') : Foll s s' := by
  cases hs with
  | micro hs => exact foll_mstep hg hs
  | @finish cs _ => exact Foll.ext (k := [.end_, .finish cs]) (by simp [St.emit]) (by simp)
  | skip _ _ _ _ => exact Foll.ext (k := [_]) rfl (by simp)
  | @refresh s1 _ c cs cl o htx ht hq hc hr h1 h2 =>
    have gg : Good ({ s with todo := cs }.emit (.refreshed c)) :=
      hg.congr rfl rfl rfl rfl rfl rfl (fun _ _ => rfl) (fun _ => Iff.rfl)
    refine Foll.trans (b := s1) ?_ (foll_observe (good_startRun gg h1) h2)
    unfold St.startRun at h1
    split at h1 <;> cases h1
    exact Foll.ext (k := [_]) rfl (by simp)
  | idle _ _ _ => exact Foll.ext (k := [_]) rfl (by simp)

theorem foll_star {lim} {s : St V} (h : Star (Step lim) {} s) : SubsFollowed s.log := by
  have := h.inv (P := fun s => All s ∧ SubsFollowed s.log) ?_ ⟨all_empty, ?_⟩
  · exact this.2
  · intro a b ⟨ha, hl⟩ hs
    obtain ⟨hx, hv, hm⟩ := log_step ha hs
    refine ⟨⟨good_step ha.good hs, ci_step ha.good ha.ci hs, hx, hv, hm⟩, ?_⟩
    obtain ⟨k, l1, p1⟩ := foll_step ha.good hs
    rw [l1]; exact hl.append p1
  · intro pre c t a post h; simp at h

end Verif.Reactive

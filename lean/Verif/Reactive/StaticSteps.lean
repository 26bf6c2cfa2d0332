import Verif.Reactive.Static
/-! # The invariant of static programs holds in every reachable state -/
namespace Verif.Reactive

variable {V : Type}

/-- Events that can invalidate what a subscription has just been given: a write, or the
destruction of a subscription or computed. -/
def Ev.disturbs : Ev V → Bool
  | .wrote _ _ => true
  | .dropped _ => true
  | _ => false

/-- From the creation of the subscription `c` to the end of the first run of its closure
nothing was written and no subscription or computed was destroyed (in particular, the
callback did no such thing when it was called for the first time). -/
def FirstRunQuiet (c : GraphId) (log : List (Ev V)) : Prop :=
  ∀ pre t a mid post, log = pre ++ .subscribed c t a :: (mid ++ post) → .ran c ∉ mid →
    ∀ e ∈ mid, e.disturbs = false

theorem FirstRunQuiet.prefix {c : GraphId} {log k : List (Ev V)} (h : FirstRunQuiet c (log ++ k)) :
    FirstRunQuiet c log := by
  intro pre t a mid post hl hr
  exact h pre t a mid (post ++ k) (by rw [hl]; simp) hr

theorem FirstRunQuiet.absurd {c : GraphId} {log k : List (Ev V)} (h : FirstRunQuiet c (log ++ k))
    {t a} (hs : .subscribed c t a ∈ log) (hr : .ran c ∉ log) (hrk : .ran c ∉ k) {e} (he : e ∈ k)
    (hd : e.disturbs = true) : False := by
  obtain ⟨pre, mid, rfl⟩ := List.append_of_mem hs
  have := h pre t a (mid ++ k) [] (by simp) (by
    intro hm
    rcases List.mem_append.mp hm with h | h
    · exact hr (by simp [h])
    · exact hrk h) e (List.mem_append_right _ he)
  rw [hd] at this; cases this

/-- Events that can make other nodes be computed: reads and new subscriptions. -/
def Ev.evaluates : Ev V → Bool
  | .read _ _ _ _ _ => true
  | .subscribed _ _ _ => true
  | .refreshed _ => true
  | _ => false

/-- From the creation of the subscription `c` to the end of the first run of its closure
nothing was read and no subscription was made or served (in particular, the callback did no
such thing when it was called for the first time). -/
def FirstRunSilent (c : GraphId) (log : List (Ev V)) : Prop :=
  ∀ pre t a mid post, log = pre ++ .subscribed c t a :: (mid ++ post) → .ran c ∉ mid →
    ∀ e ∈ mid, e.evaluates = false

theorem FirstRunSilent.prefix {c : GraphId} {log k : List (Ev V)} (h : FirstRunSilent c (log ++ k)) :
    FirstRunSilent c log := by
  intro pre t a mid post hl hr
  exact h pre t a mid (post ++ k) (by rw [hl]; simp) hr

theorem FirstRunSilent.absurd {c : GraphId} {log k : List (Ev V)} (h : FirstRunSilent c (log ++ k))
    {t a} (hs : .subscribed c t a ∈ log) (hr : .ran c ∉ log) (hrk : .ran c ∉ k) {e} (he : e ∈ k)
    (hd : e.evaluates = true) : False := by
  obtain ⟨pre, mid, rfl⟩ := List.append_of_mem hs
  have := h pre t a (mid ++ k) [] (by simp) (by
    intro hm
    rcases List.mem_append.mp hm with h | h
    · exact hr (by simp [h])
    · exact hrk h) e (List.mem_append_right _ he)
  rw [hd] at this; cases this

/-- The first run of the closure of `c` did not lose what it had been given: it was quiet,
and the observed node `t` is steady or the run was also silent. -/
def Undisturbed (D : GraphId → Prog V → Prop) (c t : GraphId) (log : List (Ev V)) : Prop :=
  FirstRunQuiet c log ∧ (Steady D t ∨ FirstRunSilent c log)

theorem Undisturbed.prefix {D : GraphId → Prog V → Prop} {c t : GraphId} {log k : List (Ev V)}
    (h : Undisturbed D c t (log ++ k)) : Undisturbed D c t log :=
  ⟨h.1.prefix, h.2.imp id FirstRunSilent.prefix⟩

variable {D : GraphId → Prog V → Prop}

/-- The condition on one subscription. -/
structure CS (D : GraphId → Prog V → Prop) (s : St V) (c : GraphId) (cl : Client V) : Prop where
  tgt : cl.target.num < c.num
  own : ∀ p, s.conn.E p c → p = cl.target
  edge : cl.ready = true → s.conn.E cl.target c
  run : cl.running = true → cl.ready = true → s.tx = .refreshing
  nr : cl.ready = false → .ran c ∉ s.log
  hold : cl.running = true → cl.ready = true ∨ Undisturbed D c cl.target s.log → cl.target.kind = .computed →
    s.cache cl.target = cl.prev
  clean : cl.ready = true → Undisturbed D c cl.target s.log → cl.target.kind = .computed → s.taint c = false

structure SAll (D : GraphId → Prog V → Prop) (s : St V) : Prop where
  si : SI D s
  cs : ∀ c cl, s.clients c = some cl → CS D s c cl

theorem CS.frame {s s' : St V} {c cl cl'} {k} (h : CS D s c cl) (d1 : cl'.target = cl.target)
    (d2 : cl'.ready = cl.ready) (d3 : cl'.running = cl.running) (d4 : cl'.prev = cl.prev)
    (hprev : cl.prev ≠ none)
    (he : ∀ p, s'.conn.E p c ↔ s.conn.E p c)
    (htx : s.tx = .refreshing → cl.running = true → cl.ready = true → s'.tx = .refreshing)
    (hl : s'.log = s.log ++ k) (hk : .ran c ∉ k) (ht : s'.taint c = s.taint c)
    (hc : (cl.ready = true ∧ s.conn.E cl.target c ∧ s.tx = .refreshing) ∨
        (cl.ready = false ∧ Undisturbed D c cl.target s'.log) →
      s.cache cl.target ≠ none → s'.cache cl.target = s.cache cl.target) : CS D s' c cl' := by
  refine ⟨by rw [d1]; exact h.tgt, fun p hE => ?_, fun hr => ?_, ?_, ?_, ?_, ?_⟩
  · rw [d1]; exact h.own p ((he p).mp hE)
  · rw [d1]; exact (he _).mpr (h.edge (by rw [← d2]; exact hr))
  · rw [d2, d3]; intro h1 h2; exact htx (h.run h1 h2) h1 h2
  · rw [d2, hl]; intro hr hm
    rcases List.mem_append.mp hm with h' | h'
    · exact h.nr hr h'
    · exact hk h'
  · rw [d1, d2, d3, d4]
    intro hr hq hkd
    have hq' : cl.ready = true ∨ Undisturbed D c cl.target s.log := by
      rcases hq with h' | h'
      · exact Or.inl h'
      · rw [hl] at h'; exact Or.inr h'.prefix
    have h0 := h.hold hr hq' hkd
    rw [← h0]
    refine hc ?_ (by rw [h0]; exact hprev)
    cases hrd : cl.ready with
    | true => exact Or.inl ⟨rfl, h.edge hrd, h.run hr hrd⟩
    | false =>
      rcases hq with h' | h'
      · rw [hrd] at h'; cases h'
      · exact Or.inr ⟨rfl, h'⟩
  · rw [d1, d2, ht]
    intro hr hq hkd
    rw [hl] at hq
    exact h.clean hr hq.prefix hkd

theorem isConn_ran {k : List (Ev V)} (h : ∀ e ∈ k, e.isConn = true) (c) : Ev.ran c ∉ k := by
  intro hm; have := h _ hm; cases this

theorem SI.addValue {s : St V} (h : SI D s) (v b) : SI D (s.addValue v b) :=
  h.congr (fun _ _ h => h) rfl (fun _ _ => rfl)

variable [DecidableEq V]

omit [DecidableEq V] in
/-- Steps that change nothing the conditions mention. -/
theorem SAll.congr {s s' : St V} {k} (h : SAll D s) (hci : CI (fun _ => False) s)
    (hd : s'.defs = s.defs) (hc : s'.conn = s.conn)
    (ht : s'.taint = s.taint) (hca : s'.cache = s.cache)
    (htx : s.tx = .refreshing → s'.tx = .refreshing ∨
      ∀ c cl, s.clients c = some cl → cl.ready = true → cl.running = false)
    (hl : s'.log = s.log ++ k) (hk : ∀ c, .ran c ∉ k)
    (hcl : ∀ c cl', s'.clients c = some cl' → ∃ cl, s.clients c = some cl ∧
      cl'.target = cl.target ∧ cl'.ready = cl.ready ∧ cl'.running = cl.running ∧ cl'.prev = cl.prev) :
    SAll D s' := by
  refine ⟨h.si.congr (fun id p hp => by rw [← hd]; exact hp) hc (fun x _ => by rw [ht]), ?_⟩
  intro c cl' hc'
  obtain ⟨cl, g, d1, d2, d3, d4⟩ := hcl c cl' hc'
  refine (h.cs c cl g).frame d1 d2 d3 d4 (hci.each c cl id g).prev (fun p => by rw [hc]) ?_ hl (hk c) (by rw [ht])
    (fun _ _ => by rw [hca])
  intro h1 h2 h3
  rcases htx h1 with g' | g'
  · exact g'
  · rw [g' c cl g h3] at h2; cases h2

omit [DecidableEq V] in
theorem upd_data {s : St V} {id cl cl'} (hc : s.clients id = some cl)
    (h : cl'.target = cl.target ∧ cl'.ready = cl.ready ∧ cl'.running = cl.running ∧ cl'.prev = cl.prev) :
    ∀ c d, upd s.clients id (some cl') c = some d → ∃ e, s.clients c = some e ∧
      d.target = e.target ∧ d.ready = e.ready ∧ d.running = e.running ∧ d.prev = e.prev := by
  intro c d hd
  simp only [upd] at hd
  split at hd
  · cases hd; rename_i e; subst e; exact ⟨cl, hc, h⟩
  · exact ⟨d, hd, rfl, rfl, rfl, rfl⟩

/-- Observing, by a subscription whose closure has just started. -/
theorem sall_observe {s s' : St V} {lim id o} (hD : Private D) (hg : Good s) (hsi : SI D s)
    (hcs : ∀ c cl, c ≠ id → s.clients c = some cl → CS D s c cl)
    (hsil : ∀ c cl, c ≠ id → s.clients c = some cl → cl.ready = false → ¬ FirstRunSilent c s.log)
    (hci : CI (· = id) s)
    (hid : ∀ cl, s.clients id = some cl → (s.Src cl.target → cl.target.num < id.num) ∧ cl.running = true ∧
      (∀ p, s.conn.E p id → p = cl.target) ∧ (cl.ready = true → s.conn.E cl.target id ∧ s.tx = .refreshing) ∧
      (cl.ready = false → .ran id ∉ s.log) ∧
      (cl.ready = true → Undisturbed D id cl.target s.log → cl.target.kind = .computed → s.taint id = false))
    (hs : s.observe lim id = .ok (s', o)) : SAll D s' := by
  obtain ⟨hsi', hkeep⟩ := si_observe hD hg hsi hs
  refine ⟨hsi', ?_⟩
  obtain ⟨cl, s1, v, cl1, h1, h2, h3, h4⟩ := observe_cases hs
  have hr := getNode_evalRel hg (stackOK_nil s) h2
  have hgot := good_get hg h2
  have hcl : cl = cl1 := by rw [hr.clients, h1] at h3; exact Option.some.inj h3
  subst hcl
  obtain ⟨k, l1, l2⟩ := hr.log
  have hid' := (hg.base.ckind id (by rw [h1]; simp)).1
  obtain ⟨i1, i2, i3, i4, i5, i6⟩ := hid cl h1
  have hh : ∀ k2, (∀ c, Ev.ran c ∉ k2) → s'.conn = s1.conn → s'.cache = s1.cache → s'.taint = s1.taint →
      s'.tx = s1.tx → s'.log = s.log ++ (k ++ k2) →
      s'.clients = upd s1.clients id (some { cl with prev := some v }) →
      ∀ c d, s'.clients c = some d → CS D s' c d := by
    intro k2 hk2 e2 e3 e4 e5 e6 e7 c d hd
    have hran : ∀ c, Ev.ran c ∉ k ++ k2 := by
      intro c hm
      rcases List.mem_append.mp hm with g | g
      · exact isConn_ran l2 c g
      · exact hk2 c g
    rw [e7] at hd
    simp only [upd] at hd
    split at hd
    · cases hd
      rename_i e; subst e
      refine ⟨i1 hgot.src, ?_, ?_, ?_, ?_, ?_, ?_⟩
      · intro p hE; rw [e2, hr.edges p c hid'] at hE; exact i3 p hE
      · intro h; rw [e2, hr.edges _ c hid']; exact (i4 h).1
      · intro _ h; rw [e5, hr.same.tx]; exact (i4 h).2
      · intro h hm
        rw [e6] at hm
        rcases List.mem_append.mp hm with g | g
        · exact i5 h g
        · exact hran c g
      · intro _ _ hk; rw [e3]; exact hgot.cached hk
      · intro h hq hk
        rw [e4, hr.taint c hid']
        rw [e6] at hq
        exact i6 h hq.prefix hk
    · rename_i hne
      rw [hr.clients] at hd
      have hck := (hg.base.ckind c (by rw [hd]; simp)).1
      refine (hcs c d hne hd).frame rfl rfl rfl rfl (hci.each c d hne hd).prev
        (fun p => by rw [e2]; exact hr.edges p c hck) (fun h _ _ => by rw [e5, hr.same.tx]; exact h) e6 (hran c)
        (by rw [e4]; exact hr.taint c hck) ?_
      intro hor hn
      cases hv : s.cache d.target with
      | none => exact absurd hv hn
      | some w =>
        rcases hor with ⟨_, hE, _⟩ | ⟨hnr, hu⟩
        · rw [e3]
          exact (hr.held _ _ _ hck hE hv (hsi.clean _ (hg.base.src _ _ hE).not_client)).1
        · rcases hu.2 with hu | hu
          · exact hkeep _ _ hu hv
          · exfalso
            rw [e6] at hu
            exact hsil c d hne hd hnr hu.prefix
  rcases h4 with ⟨_, _, rfl⟩ | ⟨_, _, _, rfl⟩
  · exact hh [.deliver id v (!s1.taint cl.target) s1.vals s1.defs] (by simp) rfl rfl rfl rfl (by simp [St.emit, l1]) rfl
  · exact hh [] (by simp) rfl rfl rfl rfl (by simp [l1]) rfl

theorem sall_subscribe {s s1 s' : St V} {lim t a cb o} (hD : Private D) (hg : Good s) (hl : LV s) (hci : CI (fun _ => False) s)
    (h : SAll D s) (hlr : ∀ c, .ran c ∈ s.log → c.num < s.next)
    (h1 : (s.addClient t a cb).startRun ⟨.client, s.next⟩ = .ok s1)
    (h2 : s1.observe lim ⟨.client, s.next⟩ = .ok (s', o)) : SAll D s' := by
  have g0 := good_addClient hg t a cb
  have hf : (s.addClient t a cb).clients ⟨.client, s.next⟩ = some { target := t, all := a, cb := cb } := by
    simp [St.addClient, St.emit, upd]
  have c0 : CI (· = ⟨.client, s.next⟩) (s.addClient t a cb) :=
    (hci.weaken (fun _ h => h.elim)).congr (Nat.le_succ _) rfl (fun _ _ h => h) rfl rfl hci.todo
      (fun c hc => upd_ne _ hc)
  have c1 := ci_startRun c0 rfl h1
  have gs := good_startRun g0 h1
  unfold St.startRun at h1
  rw [hf] at h1
  cases h1
  refine sall_observe hD gs (h.si.congr (fun _ _ h => h) rfl (fun _ _ => rfl)) ?_ ?_ c1 ?_ h2
  · intro c cl hne hcl
    simp only [upd_ne _ hne] at hcl
    have hcl' : s.clients c = some cl := by
      simp only [St.addClient, St.emit, upd_ne _ hne] at hcl; exact hcl
    exact (h.cs c cl hcl').frame rfl rfl rfl rfl (hci.each c cl id hcl').prev (fun _ => Iff.rfl) (fun h _ _ => h)
      (k := [.subscribed ⟨.client, s.next⟩ t a]) rfl (by simp) rfl (fun _ _ => rfl)
  · intro c cl hne hcl hnr hsil
    simp only [upd_ne _ hne] at hcl
    have hcl' : s.clients c = some cl := by
      simp only [St.addClient, St.emit, upd_ne _ hne] at hcl; exact hcl
    exact FirstRunSilent.absurd (log := s.log) (k := [.subscribed ⟨.client, s.next⟩ t a]) hsil (hl.subs c cl hcl')
      ((h.cs c cl hcl').nr hnr) (by simp) List.mem_cons_self rfl
  · intro cl hcl
    simp only [upd_same, Option.some.injEq] at hcl
    subst hcl
    refine ⟨?_, rfl, ?_, fun h => (by cases h), ?_, fun h => (by cases h)⟩
    · rintro (⟨_, g⟩ | ⟨_, g⟩)
      · exact (hg.base.vkind _ g).2
      · exact (hg.base.dkind _ g).2
    · intro p hE
      have hE' : s.conn.E p ⟨.client, s.next⟩ := hE
      rcases hg.base.dst _ _ hE' with ⟨k, _⟩ | ⟨_, k⟩
      · cases k
      · exact absurd (hg.base.ckind _ k).2 (Nat.lt_irrefl _)
    · intro _ hm
      have : .ran ⟨.client, s.next⟩ ∈ s.log := by simpa [St.addClient, St.emit] using hm
      exact absurd (hlr _ this) (Nat.lt_irrefl _)

theorem sall_finishRun {s s' : St V} {id} (hg : Good s) (hci : CI (fun _ => False) s)
    (h : SAll D s)
    (hs : s.finishRun id = .ok s') : SAll D s' := by
  obtain ⟨cl, s1, hcl, hrun, hsrc, h1, rfl⟩ := finishRun_cases hs
  have ht : s.Src cl.target := by
    rcases hsrc with g | g
    · exact Or.inl ⟨(hg.base.vkind _ g).1, g⟩
    · exact Or.inr ⟨(hg.base.dkind _ g).1, g⟩
  have hk := (hg.base.ckind id (by rw [hcl]; simp)).1
  obtain ⟨nodes, hp⟩ := setParents_push hg.base.wf h1
  have hN : ∀ p ∈ [cl.target], s.Src p := by simpa using ht
  have h0 := h.cs id cl hcl
  have hdn : s.defs id = none := by
    cases hd : s.defs id with
    | none => rfl
    | some p => have := (hg.base.dkind id (by rw [hd]; simp)).1; rw [hk] at this; cases this
  have hkeep := hp.keep hg.base h.si hN (by simpa using h0.tgt) (fun p hE => by
    simp only [List.mem_singleton]; exact h0.own p hE)
  have si1 : SI D s1 := h.si.push hp (by simpa using h0.tgt) (Or.inl hdn)
  obtain ⟨k, l1, l2⟩ := setParents_log h1
  have htk : cl.target ≠ id := by intro e; exact ht.not_client (by rw [e]; exact hk)
  have hca : ∀ x, x ≠ id → s1.cache x = s.cache x := fun x hx => hp.cache_keep hkeep hx
  refine ⟨si1.congr (fun _ _ h => h) rfl ?_, ?_⟩
  · intro x hx
    simp only [St.emit]; rw [upd_ne]; rintro rfl; exact hx hk
  · intro c d hd
    simp only [St.emit, upd] at hd
    split at hd
    · cases hd
      rename_i e; subst e
      refine ⟨h0.tgt, ?_, ?_, ?_, ?_, ?_, ?_⟩
      · intro p hE
        have := hp.spec.own p hE
        simpa using this
      · intro _; exact hkeep _ _ (Or.inr ⟨rfl, by simp⟩)
      · intro h; cases h
      · intro h; cases h
      · intro h; cases h
      · intro _ hq hkd
        simp only [St.emit, upd_same, Bool.or_eq_false_iff, decide_eq_false_iff_not, Decidable.not_not, ne_eq]
        refine ⟨⟨hkeep _ _ (Or.inr ⟨rfl, by simp⟩), si1.clean _ ht.not_client⟩, ?_⟩
        rw [hca _ htk]
        refine h0.hold hrun (Or.inr ?_) hkd
        have : Undisturbed D c cl.target (s.log ++ (k ++ [.ran c])) := by
          have := hq; simp only [St.emit, l1, List.append_assoc] at this; exact this
        exact this.prefix
    · rename_i hne
      rw [hp.clients_eq hg.base.toBase0 hN hne] at hd
      have hck := (hg.base.ckind c (by rw [hd]; simp)).1
      refine (h.cs c d hd).frame rfl rfl rfl rfl (hci.each c d (fun h => h) hd).prev
        (fun p => hp.client_edges hg hN hne hck) (fun h _ _ => ?_) (k := k ++ [.ran id])
        (by simp [St.emit, l1]) ?_ ?_ ?_
      · show s1.tx = _; rw [hp.same.tx]; exact h
      · intro hm
        rcases List.mem_append.mp hm with g | g
        · exact isConn_ran l2 c g
        · simp at g; exact hne g
      · simp only [St.emit]; rw [upd_ne _ hne, hp.taint]
      · intro _ hn
        have hs := hg.base.cached d.target hn
        have : d.target ≠ id := by intro e; rw [e, hdn] at hs; exact hs rfl
        show s1.cache _ = _
        exact hca _ this

omit [DecidableEq V] in
/-- Destruction of a node. -/
theorem sall_drop {s s0 s' : St V} {X} (hg : Good s) (hci : ∀ c cl, c ≠ X → s.clients c = some cl → cl.prev ≠ none) (hl : LV s)
    (h : SAll D s) (hs : s0.setParents X [] = .ok s')
    (e1 : s0.conn = s.conn) (e2 : s0.taint = s.taint) (e3 : s0.tx = s.tx) (e4 : s0.log = s.log ++ [.dropped X])
    (e5 : ∀ x, x ≠ X → s0.defs x = s.defs x ∧ s0.clients x = s.clients x ∧ s0.cache x = s.cache x)
    (e6 : s0.clients X = none ∧ s0.defs X = none)
    (hX : X.kind = .client ∨ ∀ c, ¬ s.conn.E X c) : SAll D s' := by
  have hw : s0.conn.WF := by rw [e1]; exact hg.base.wf
  obtain ⟨nodes, hp⟩ := setParents_push hw hs
  have si0 : SI D s0 := h.si.congr (fun id p hd => by
    by_cases hx : id = X
    · rw [hx, e6.2] at hd; cases hd
    · rw [(e5 id hx).1] at hd; exact hd) e1 (fun x _ => by rw [e2])
  refine ⟨si0.push hp (by simp) (Or.inr rfl), ?_⟩
  obtain ⟨k, l1, l2⟩ := setParents_log hs
  intro c cl hcl
  have hne : c ≠ X := by
    rintro rfl
    have := (hp.clients_none c).mpr e6.1
    rw [this] at hcl; cases hcl
  have hcn : s.clients c ≠ none := by
    intro h'; rw [← (e5 c hne).2.1] at h'
    have := (hp.clients_none c).mpr h'; rw [hcl] at this; cases this
  have hck := (hg.base.ckind c hcn).1
  have hc' : s.clients c = some cl := by
    rw [hp.clients] at hcl
    split at hcl
    · rename_i hx
      exfalso
      rcases (hp.spec.mem c).mp hx.2.1 with g | ⟨g, _⟩ | ⟨d, g | ⟨_, g⟩, _⟩
      · exact hne g
      · cases g
      · rw [e1] at g; exact (hg.base.src c d g).not_client hck
      · cases g
    · rw [(e5 c hne).2.1] at hcl; exact hcl
  have hedge : ∀ p, s'.conn.E p c ↔ s.conn.E p c := by
    intro p
    constructor
    · intro he
      rcases hp.spec.sub p c he with g | ⟨g, _⟩
      · rw [e1] at g; exact g
      · exact absurd g hne
    · intro he
      by_cases h' : s'.conn.E p c
      · exact h'
      exfalso
      rcases hp.spec.why p c (Or.inl (by rw [e1]; exact he)) h' with ⟨g, _⟩ | ⟨_, d, g | ⟨_, g⟩⟩
      · exact hne g
      · rw [e1] at g; exact (hg.base.src c d g).not_client hck
      · cases g
  have h0 := h.cs c cl hc'
  have hkr : ∀ c, Ev.ran c ∉ (.dropped X) :: k := by
    intro c hm
    rcases List.mem_cons.mp hm with g | g
    · cases g
    · exact isConn_ran l2 c g
  have hlog : s'.log = s.log ++ (.dropped X :: k) := by rw [l1, e4]; simp
  refine h0.frame rfl rfl rfl rfl (hci c cl hne hc') hedge
    (fun h _ _ => by rw [hp.same.tx, e3]; exact h) hlog (hkr c) (by rw [hp.taint, e2]) ?_
  rintro (⟨_, hE, _⟩ | ⟨hr, hq⟩) hn
  · have hTX : cl.target ≠ X := by
      intro e
      rcases hX with g | g
      · exact (hg.base.src _ _ hE).not_client (by rw [e]; exact g)
      · exact g c (by rw [← e]; exact hE)
    rw [hp.cache, if_neg, (e5 _ hTX).2.2]
    rintro ⟨_, _, hnil⟩
    have := (hedge _).mpr hE
    unfold Conn.E at this; rw [hnil] at this; cases this
  · exfalso
    rw [hlog] at hq
    exact hq.1.absurd (hl.subs c cl hc') (h0.nr hr) (hkr c) List.mem_cons_self rfl

omit [DecidableEq V] in
theorem sall_dropOne {s s' : St V} {id} (hg : Good s)
    (hci : ∀ c cl, c ≠ id → s.clients c = some cl → cl.prev ≠ none) (hl : LV s)
    (h : SAll D s) (hk : id.kind = .client) (hs : s.dropOne id = .ok s') : SAll D s' := by
  have hdn : s.defs id = none := by
    cases hd : s.defs id with
    | none => rfl
    | some p => have := (hg.base.dkind id (by rw [hd]; simp)).1; rw [hk] at this; cases this
  unfold St.dropOne at hs
  exact sall_drop hg hci hl h hs rfl rfl rfl rfl
    (fun x hx => ⟨rfl, by simp [St.emit, upd, hx], rfl⟩) ⟨by simp [St.emit, upd], hdn⟩ (Or.inl hk)

omit [DecidableEq V] in
theorem sall_dropComputed {s s' : St V} {id} (hg : Good s) (hci : CI (fun _ => False) s) (hl : LV s)
    (h : SAll D s) (hs : s.dropComputed id = .ok s') : SAll D s' := by
  unfold St.dropComputed at hs
  split at hs
  rotate_left
  · cases hs
  rename_i hcond
  have hcn : s.clients id = none := by
    cases hd : s.clients id with
    | none => rfl
    | some p => have := (hg.base.ckind id (by rw [hd]; simp)).1; rw [hcond.1] at this; cases this
  refine sall_drop hg (fun c cl _ hc => (hci.each c cl (fun h => h) hc).prev) hl h hs rfl rfl rfl rfl
    (fun x hx => ⟨by simp [St.emit, upd, hx], rfl, by simp [St.emit, upd, hx]⟩)
    ⟨hcn, by simp [St.emit, upd]⟩ (Or.inr ?_)
  intro c he; unfold Conn.E at he; rw [hcond.2] at he; cases he

/-! ## The log -/

omit [DecidableEq V] in
theorem getNode_log {n} {s s' : St V} {id v} (hg : Good s) (h : getNode n [] s id = .ok (s', v)) :
    ∃ k, s'.log = s.log ++ k ∧ ∀ e ∈ k, e.isConn = true :=
  (getNode_evalRel hg (stackOK_nil s) h).log

/-- What can be said of every step about computeds, their number and the log. -/
structure Grow (s s' : St V) : Prop where
  log : ∃ k, s'.log = s.log ++ k ∧ (∀ c, .ran c ∈ k → s.clients c ≠ none)
  next : s.next ≤ s'.next
  defs : ∀ id p, s'.defs id = some p → s.defs id = some p ∨ .defined id p ∈ s'.log

omit [DecidableEq V] in
theorem Grow.trans {a b c : St V} (h1 : Grow a b) (h2 : Grow b c)
    (hcl : ∀ x, a.clients x = none → b.clients x = none) : Grow a c := by
  obtain ⟨⟨k1, l1, r1⟩, n1, d1⟩ := h1
  obtain ⟨⟨k2, l2, r2⟩, n2, d2⟩ := h2
  refine ⟨⟨k1 ++ k2, by rw [l2, l1]; simp, ?_⟩, Nat.le_trans n1 n2, ?_⟩
  · intro x hx
    rcases List.mem_append.mp hx with h | h
    · exact r1 x h
    · exact fun h' => r2 x h (hcl x h')
  · intro id p hd
    rcases d2 id p hd with h | h
    · rcases d1 id p h with h | h
      · exact Or.inl h
      · right; rw [l2]; exact List.mem_append_left _ h
    · exact Or.inr h

omit [DecidableEq V] in
theorem Grow.same {s s' : St V} {k} (hn : s.next ≤ s'.next) (hd : s'.defs = s.defs) (hl : s'.log = s.log ++ k)
    (hk : ∀ c, Ev.ran c ∉ k) : Grow s s' :=
  ⟨⟨k, hl, fun c hc => absurd hc (hk c)⟩, hn, fun id p h => Or.inl (by rw [← hd]; exact h)⟩

omit [DecidableEq V] in
theorem grow_push {s s' : St V} {X N} (h : s.setParents X N = .ok s') : Grow s s' := by
  obtain ⟨k, l1, l2⟩ := setParents_log h
  have hs := same_setParents h
  exact Grow.same (Nat.le_of_eq hs.next.symm) hs.defs l1 (isConn_ran l2)

theorem grow_observe {s s' : St V} {lim id o} (hg : Good s) (hs : s.observe lim id = .ok (s', o)) :
    Grow s s' := by
  obtain ⟨cl, s1, v, cl1, h1, h2, h3, h4⟩ := observe_cases hs
  have hr := getNode_evalRel hg (stackOK_nil s) h2
  obtain ⟨k, l1, l2⟩ := hr.log
  rcases h4 with ⟨_, _, rfl⟩ | ⟨_, _, _, rfl⟩
  · refine Grow.same (k := k ++ [.deliver id v (!s1.taint cl1.target) s1.vals s1.defs])
      (Nat.le_of_eq hr.same.next.symm) hr.same.defs (by simp [St.emit, l1]) ?_
    intro c hm
    rcases List.mem_append.mp hm with g | g
    · exact isConn_ran l2 c g
    · simp at g
  · exact Grow.same (k := k) (Nat.le_of_eq hr.same.next.symm) hr.same.defs (by simp [l1]) (isConn_ran l2)

omit [DecidableEq V] in
theorem grow_startRun {s s' : St V} {id} (hs : s.startRun id = .ok s') : Grow s s' ∧
    ∀ x, s.clients x = none → s'.clients x = none := by
  unfold St.startRun at hs
  split at hs <;> cases hs
  rename_i cl hcl
  exact ⟨Grow.same (k := []) (Nat.le_refl _) rfl (by simp) (by simp), fun x h => (upd_none_iff hcl x).mpr h⟩

theorem grow_finishRun {s s' : St V} {id} (hs : s.finishRun id = .ok s') : Grow s s' := by
  obtain ⟨cl, s1, hcl, hrun, hsrc, h1, rfl⟩ := finishRun_cases hs
  obtain ⟨k, l1, l2⟩ := setParents_log h1
  have hS := same_setParents h1
  refine ⟨⟨k ++ [.ran id], by simp [St.emit, l1], ?_⟩, Nat.le_of_eq hS.next.symm, fun x p h => Or.inl ?_⟩
  · intro c hm
    rcases List.mem_append.mp hm with g | g
    · exact absurd g (isConn_ran l2 c)
    · simp at g; subst g; rw [hcl]; simp
  · have : s1.defs x = some p := h
    rw [hS.defs] at this; exact this

omit [DecidableEq V] in
theorem grow_dropOne {s s' : St V} {id} (hs : s.dropOne id = .ok s') : Grow s s' := by
  unfold St.dropOne at hs
  obtain ⟨k, l1, l2⟩ := setParents_log hs
  have hS := same_setParents hs
  refine Grow.same (k := .dropped id :: k) (Nat.le_of_eq hS.next.symm) hS.defs (by rw [l1]; simp [St.emit]) ?_
  intro c hm
  rcases List.mem_cons.mp hm with g | g
  · cases g
  · exact isConn_ran l2 c g

theorem grow_subscribe {s s1 s' : St V} {lim t a cb o} (hg : Good s)
    (h1 : (s.addClient t a cb).startRun ⟨.client, s.next⟩ = .ok s1)
    (h2 : s1.observe lim ⟨.client, s.next⟩ = .ok (s', o)) : Grow s s' := by
  have g1 := good_startRun (good_addClient hg t a cb) h1
  obtain ⟨k, l1, r1⟩ := (grow_observe g1 h2).log
  have o1 := grow_observe g1 h2
  obtain ⟨cl, s2, v, cl1, q1, q2, q3, q4⟩ := observe_cases h2
  obtain ⟨e1, e2, e3⟩ : s1.log = s.log ++ [.subscribed ⟨.client, s.next⟩ t a] ∧ s1.defs = s.defs ∧
      s1.next = s.next + 1 := by
    unfold St.startRun at h1
    split at h1 <;> cases h1
    exact ⟨rfl, rfl, rfl⟩
  have hr := getNode_evalRel g1 (stackOK_nil s1) q2
  obtain ⟨k', l1', l2'⟩ := hr.log
  rcases q4 with ⟨_, _, rfl⟩ | ⟨_, _, _, rfl⟩
  · refine Grow.same (k := .subscribed ⟨.client, s.next⟩ t a :: k' ++
        [.deliver ⟨.client, s.next⟩ v (!s2.taint cl1.target) s2.vals s2.defs])
      ?_ (hr.same.defs.trans e2) (by simp [St.emit, l1', e1]) ?_
    · show s.next ≤ s2.next; rw [hr.same.next, e3]; exact Nat.le_succ _
    · intro c hm
      simp at hm
      exact isConn_ran l2' c hm
  · refine Grow.same (k := .subscribed ⟨.client, s.next⟩ t a :: k')
      ?_ (hr.same.defs.trans e2) (by simp [l1', e1]) ?_
    · show s.next ≤ s2.next; rw [hr.same.next, e3]; exact Nat.le_succ _
    · intro c hm
      simp at hm
      exact isConn_ran l2' c hm

theorem grow_mstep {lim} {s s' : St V} (hg : Good s) (h : MStep lim s s') : Grow s s' := by
  cases h with
  | newValue v b => exact Grow.same (k := []) (Nat.le_succ _) rfl (by simp [St.addValue]) (by simp)
  | newComputed p =>
    refine ⟨⟨[.defined ⟨.computed, s.next⟩ p], rfl, by simp⟩, Nat.le_succ _, ?_⟩
    intro id q hd
    simp only [St.addComputed, St.emit, upd] at hd ⊢
    split at hd
    · cases hd; rename_i e; subst e; right; simp
    · exact Or.inl hd
  | subscribe h1 h2 => exact grow_subscribe hg h1 h2
  | swapOwned hs =>
    unfold St.swapOwned at hs
    split at hs <;> cases hs
    exact Grow.same (k := []) (Nat.le_refl _) rfl (by simp) (by simp)
  | finishRun _ _ hs => exact grow_finishRun hs
  | finishDrop _ _ h1 h2 =>
    refine (grow_finishRun h1).trans (grow_dropOne h2) ?_
    intro x hx
    obtain ⟨cl, s1, hcl, -, hsrc, h1', rfl⟩ := finishRun_cases h1
    obtain ⟨nodes, hp⟩ := setParents_push hg.base.wf h1'
    simp only [St.emit, upd]
    split
    · rename_i e; subst e; rw [hcl] at hx; cases hx
    · exact (hp.clients_none x).mpr hx
  | giveTo hs =>
    unfold St.giveTo at hs
    split at hs
    · split at hs <;> cases hs
      exact Grow.same (k := []) (Nat.le_refl _) rfl (by simp) (by simp)
    · cases hs; exact Grow.same (k := []) (Nat.le_refl _) rfl (by simp) (by simp)
  | dropOne _ _ hs => exact grow_dropOne hs
  | dropReq _ _ => exact Grow.same (k := [_]) (Nat.le_refl _) rfl rfl (by simp)
  | @dropComputed _ id hs =>
    unfold St.dropComputed at hs
    split at hs
    · obtain ⟨k, l1, l2⟩ := setParents_log hs
      have hS := same_setParents hs
      refine ⟨⟨.dropped id :: k, by rw [l1]; simp [St.emit], ?_⟩, Nat.le_of_eq hS.next.symm, ?_⟩
      · intro c hm
        rcases List.mem_cons.mp hm with g | g
        · cases g
        · exact absurd g (isConn_ran l2 c)
      · intro x p hx
        rw [hS.defs] at hx
        simp only [St.emit, upd] at hx
        split at hx
        · cases hx
        · exact Or.inl hx
    · cases hs
  | begin_ _ => exact Grow.same (k := [_]) (Nat.le_refl _) rfl rfl (by simp)
  | end_ _ => exact Grow.same (k := [_]) (Nat.le_refl _) rfl rfl (by simp)
  | @write _ id v b hs =>
    obtain ⟨old, l, cs, hv, ht, ⟨_, _, rfl⟩ | ⟨_, W⟩⟩ := write_cases hs
    · exact Grow.same (k := []) (Nat.le_refl _) rfl (by simp) (by simp)
    · obtain ⟨l, cs, deps, w1, w2, w3, w4, w5, w6⟩ := W.ex
      exact Grow.same (Nat.le_of_eq W.next.symm) W.defs w6 (by simp)
  | @get s1 id v hs =>
    have hr := getNode_evalRel hg (stackOK_nil s) hs
    obtain ⟨k, l1, l2⟩ := hr.log
    refine Grow.same (k := k ++ [.read id v (!s1.taint id) s1.vals s1.defs])
      (Nat.le_of_eq hr.same.next.symm) hr.same.defs (by simp [St.emit, l1]) ?_
    intro c hm
    rcases List.mem_append.mp hm with g | g
    · exact isConn_ran l2 c g
    · simp at g

theorem grow_step {lim} {s s' : St V} (hg : Good s) (h : Step lim s s') : Grow s s' := by
  cases h with
  | micro h => exact grow_mstep hg h
  | finish _ => exact Grow.same (k := [.end_, .finish _]) (Nat.le_refl _) rfl (by simp [St.emit]; rfl) (by simp)
  | skip _ _ _ _ => exact Grow.same (k := [_]) (Nat.le_refl _) rfl rfl (by simp)
  | @refresh s1 _ c cs cl o htx ht hq hc hr h1 h2 =>
    have gg : Good ({ s with todo := cs }.emit (.refreshed c)) :=
      hg.congr rfl rfl rfl rfl rfl rfl (fun _ _ => rfl) (fun _ => Iff.rfl)
    have o1 := grow_observe (good_startRun gg h1) h2
    have g0 : Grow s ({ s with todo := cs }.emit (.refreshed c)) :=
      Grow.same (k := [_]) (Nat.le_refl _) rfl rfl (by simp)
    obtain ⟨g1, g2⟩ := grow_startRun h1
    exact g0.trans (g1.trans o1 g2) (fun _ h => h)
  | idle _ _ _ => exact Grow.same (k := [_]) (Nat.le_refl _) rfl rfl (by simp)

end Verif.Reactive

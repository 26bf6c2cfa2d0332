import Verif.Reactive.InvSteps
import Verif.Reactive.LogSpec
/-! # Subscriptions are in sync with what they observe -/
namespace Verif.Reactive

variable {V : Type}

/-! ## Link updates and subscriptions -/

theorem Push.client_edges {s s' : St V} {X N nodes} (h : Good s) (hp : Push s X N s' nodes)
    (hN : ∀ p ∈ N, s.Src p) {p c} (hc : c ≠ X) (hk : c.kind = .client) :
    s'.conn.E p c ↔ s.conn.E p c := by
  constructor
  · intro he
    rcases hp.spec.sub p c he with h1 | ⟨h1, _⟩
    · exact h1
    · exact absurd h1 hc
  · intro he
    by_cases h' : s'.conn.E p c
    · exact h'
    exfalso
    rcases hp.spec.why p c (Or.inl he) h' with ⟨h1, _⟩ | ⟨_, d, h1 | ⟨_, h1⟩⟩
    · exact hc h1
    · exact (h.base.src c d h1).not_client hk
    · exact (hN c h1).not_client hk

theorem Push.held {s s' : St V} {X N nodes} (h : Good s) (hp : Push s X N s' nodes)
    (hN : ∀ p ∈ N, s.Src p) {x c} (hc : c ≠ X) (hk : c.kind = .client) (he : s.conn.E x c) :
    s'.cache x = s.cache x := by
  rw [hp.cache, if_neg]
  rintro ⟨_, _, h1⟩
  have := (hp.client_edges h hN hc hk).mpr he
  unfold Conn.E at this; rw [h1] at this; cases this

theorem setConnection_log (s : St V) (id b) :
    ∃ l, (s.setConnection id b).log = s.log ++ l ∧ ∀ e ∈ l, e.isConn = true := by
  unfold St.setConnection
  repeat' split
  all_goals first
    | exact ⟨[_], rfl, by simp [Ev.isConn]⟩
    | exact ⟨[], (List.append_nil _).symm, by simp⟩

theorem applyInfo_log (s : St V) (l) :
    ∃ k, (s.applyInfo l).log = s.log ++ k ∧ ∀ e ∈ k, e.isConn = true := by
  induction l generalizing s with
  | nil => exact ⟨[], by simp [St.applyInfo], by simp⟩
  | cons e l ih =>
    obtain ⟨id, b⟩ := e
    rw [applyInfo_cons]
    obtain ⟨k1, h1, h2⟩ := ih (s.applyOne id b)
    have : ∃ k0, (s.applyOne id b).log = s.log ++ k0 ∧ ∀ e ∈ k0, e.isConn = true := by
      unfold St.applyOne
      split
      · exact setConnection_log s id b
      · split
        · exact ⟨[], by simp, by simp⟩
        · exact ⟨[], by simp [(clearCache_rest s id).2.2.2], by simp⟩
    obtain ⟨k0, g1, g2⟩ := this
    refine ⟨k0 ++ k1, by rw [h1, g1, List.append_assoc], ?_⟩
    intro e he
    rcases List.mem_append.mp he with he | he
    · exact g2 e he
    · exact h2 e he

theorem setParents_log {s s' : St V} {X N} (h : s.setParents X N = .ok s') :
    ∃ k, s'.log = s.log ++ k ∧ ∀ e ∈ k, e.isConn = true := by
  unfold St.setParents at h
  split at h <;> cases h
  exact applyInfo_log _ _

/-- What reading a node can change. -/
structure EvalRel (s s' : St V) : Prop where
  same : Same s s'
  clients : s'.clients = s.clients
  edges : ∀ p c, c.kind = .client → (s'.conn.E p c ↔ s.conn.E p c)
  held : ∀ x c v, c.kind = .client → s.conn.E x c → s.cache x = some v → s.taint x = false →
    s'.cache x = some v ∧ s'.taint x = false
  taint : ∀ x, x.kind = .client → s'.taint x = s.taint x
  log : ∃ k, s'.log = s.log ++ k ∧ ∀ e ∈ k, e.isConn = true

theorem EvalRel.refl (s : St V) : EvalRel s s :=
  ⟨.refl _, rfl, fun _ _ _ => Iff.rfl, fun _ _ _ _ _ h1 h2 => ⟨h1, h2⟩, fun _ _ => rfl, [], by simp, by simp⟩

theorem EvalRel.trans {a b c : St V} (h1 : EvalRel a b) (h2 : EvalRel b c) : EvalRel a c := by
  refine ⟨h1.same.trans h2.same, h2.clients.trans h1.clients,
    fun p x hk => (h2.edges p x hk).trans (h1.edges p x hk), ?_,
    fun x hk => (h2.taint x hk).trans (h1.taint x hk), ?_⟩
  · intro x y v hk he hc ht
    obtain ⟨g1, g2⟩ := h1.held x y v hk he hc ht
    exact h2.held x y v hk ((h1.edges x y hk).mpr he) g1 g2
  · obtain ⟨k1, e1, f1⟩ := h1.log
    obtain ⟨k2, e2, f2⟩ := h2.log
    refine ⟨k1 ++ k2, by rw [e2, e1, List.append_assoc], fun e he => ?_⟩
    rcases List.mem_append.mp he with he | he
    · exact f1 e he
    · exact f2 e he

theorem getNode_evalRel {n K} {s s' : St V} {id v} (hg : Good s) (hK : StackOK s K)
    (h : getNode n K s id = .ok (s', v)) : EvalRel s s' := by
  refine getNode_rel EvalRel.refl (fun _ _ _ => .trans) ?_ ?_ n K s id s' v hg hK h
  · intro s X N s' nodes hg hk hd hX hN hs hp
    have hne : ∀ c : GraphId, c.kind = .client → c ≠ X := by
      rintro c hc rfl; rw [hk] at hc; cases hc
    refine ⟨hp.same, ?_, fun p c hc => hp.client_edges hg hN (hne c hc) hc, ?_,
      fun x _ => by rw [hp.taint], setParents_log hs⟩
    · funext x
      by_cases hx : x = X
      · subst hx
        rw [hp.clients, if_neg]
        rintro ⟨h1, _⟩; rw [hk] at h1; cases h1
      · exact hp.clients_eq hg.base.toBase0 hN hx
    · intro x c v hc he hca ht
      exact ⟨by rw [hp.held hg hN (hne c hc) hc he]; exact hca, by rw [hp.taint]; exact ht⟩
  · intro s K id ctx v hg hk hX
    refine ⟨⟨rfl, rfl, rfl, rfl, rfl, rfl⟩, rfl, fun _ _ _ => Iff.rfl, ?_, ?_, [], by simp [St.mark], by simp⟩
    · intro x c w hc he hca ht
      have hne : x ≠ id := by
        rintro rfl
        rcases hX with h | h
        · rw [h] at hca; cases hca
        · rw [h] at ht; cases ht
      refine ⟨?_, ?_⟩
      · show upd s.cache id (some v) x = _
        rw [upd_ne _ hne]; exact hca
      · simp only [St.mark]; rw [upd_ne _ hne]; exact ht
    · intro x hx
      have hne : x ≠ id := by rintro rfl; rw [hk] at hx; cases hx
      simp only [St.mark]; rw [upd_ne _ hne]

/-! ## The invariant -/

/-- The subscribers that will be refreshed. -/
def St.pending (s : St V) : List GraphId :=
  (match s.tx with
   | .modification _ cs => cs
   | _ => []) ++ s.todo

/-- The condition on one subscription. -/
structure CC (s : St V) (c : GraphId) (cl : Client V) : Prop where
  notReady : cl.ready = false → cl.running = true
  edge : ∀ p, s.conn.E p c → cl.ready = true
  pend : c ∈ s.pending → cl.ready = true
  drop : cl.dropReq = true → cl.running = true
  prev : cl.prev ≠ none
  sync : cl.running = false → c ∉ s.pending → s.taint c = false →
    s.conn.E cl.target c ∧ s.cache cl.target = cl.prev ∧ s.taint cl.target = false

structure CI (P : GraphId → Prop) (s : St V) : Prop where
  pend : ∀ c ∈ s.pending, c.kind = .client ∧ c.num < s.next
  todo : s.tx ≠ .refreshing → s.todo = []
  each : ∀ c cl, ¬ P c → s.clients c = some cl → CC s c cl

/-- Transfer of the condition on one subscription. -/
theorem CC.frame {s s' : St V} {c cl} (h : CC s c cl)
    (he : ∀ p, s'.conn.E p c ↔ s.conn.E p c)
    (hp : c ∈ s'.pending ↔ c ∈ s.pending) (ht : s'.taint c = s.taint c)
    (hh : ∀ x v, s.conn.E x c → s.cache x = some v → s.taint x = false →
      s'.cache x = some v ∧ s'.taint x = false) : CC s' c cl := by
  refine ⟨h.notReady, fun p hE => h.edge p ((he p).mp hE), fun h' => h.pend (hp.mp h'), h.drop, h.prev, ?_⟩
  intro h1 h2 h3
  obtain ⟨g1, g2, g3⟩ := h.sync h1 (fun h' => h2 (hp.mpr h')) (by rw [← ht]; exact h3)
  cases hv : cl.prev with
  | none => exact absurd hv h.prev
  | some v =>
    rw [hv] at g2
    obtain ⟨k1, k2⟩ := hh _ v g1 g2 g3
    exact ⟨(he _).mpr g1, k1, k2⟩

/-- Changing data of a subscription the invariant does not mention. -/
theorem CC.data {s : St V} {c cl cl'} (h : CC s c cl) (h1 : cl'.ready = cl.ready)
    (h2 : cl'.running = cl.running) (h3 : cl'.dropReq = true → cl'.running = true)
    (h4 : cl'.prev = cl.prev) (h5 : cl'.target = cl.target) : CC s c cl' := by
  refine ⟨?_, ?_, ?_, h3, ?_, ?_⟩
  · rw [h1, h2]; exact h.notReady
  · rw [h1]; exact h.edge
  · rw [h1]; exact h.pend
  · rw [h4]; exact h.prev
  · rw [h2, h4, h5]; exact h.sync

theorem pending_same {s s' : St V} (h : Same s s') : s'.pending = s.pending := by
  unfold St.pending; rw [h.tx, h.todo]

theorem CI.upd1 {P : GraphId → Prop} {s : St V} (h : CI P s) {id cl cl'}
    (hc : s.clients id = some cl)
    (h1 : cl'.ready = cl.ready) (h2 : cl'.running = cl.running)
    (h3 : cl.dropReq = true ∧ cl.running = true ∨ cl'.dropReq = cl.dropReq ∨ cl'.running = true)
    (h4 : cl'.prev = cl.prev)
    (h5 : cl'.target = cl.target) : CI P { s with clients := upd s.clients id (some cl') } := by
  refine ⟨h.pend, h.todo, ?_⟩
  intro c d hP hd
  simp only [upd] at hd
  have key : ∀ e, CC s c e → CC { s with clients := upd s.clients id (some cl') } c e :=
    fun e he => ⟨he.notReady, he.edge, he.pend, he.drop, he.prev, he.sync⟩
  split at hd
  · cases hd
    rename_i e; subst e
    have h0 := h.each c cl hP hc
    refine key _ (h0.data h1 h2 ?_ h4 h5)
    intro hd
    rcases h3 with h3 | h3 | h3
    · rw [h2]; exact h3.2
    · rw [h2]; exact h0.drop (by rw [← h3]; exact hd)
    · exact h3
  · exact key _ (h.each c d hP hd)

theorem CI.evalRel {P : GraphId → Prop} {s s' : St V} (h : CI P s) (hg : Good s) (hr : EvalRel s s') :
    CI P s' := by
  have hp := pending_same hr.same
  refine ⟨?_, ?_, ?_⟩
  · intro c hc; rw [hp] at hc; rw [hr.same.next]; exact h.pend c hc
  · rw [hr.same.tx, hr.same.todo]; exact h.todo
  · intro c cl hP hc
    rw [hr.clients] at hc
    have hk := (hg.base.ckind c (by rw [hc]; simp)).1
    exact (h.each c cl hP hc).frame (fun p => hr.edges p c hk) (by rw [hp]) (hr.taint c hk)
      (fun x v => hr.held x c v hk)

/-- Link updates of the exempt subscription. -/
theorem CI.push {P : GraphId → Prop} {s s' : St V} {X N nodes} (h : CI P s) (hg : Good s)
    (hp : Push s X N s' nodes) (hN : ∀ p ∈ N, s.Src p) (hX : P X ∨ X.kind ≠ .client) : CI P s' := by
  have hpd := pending_same hp.same
  refine ⟨?_, ?_, ?_⟩
  · intro c hc; rw [hpd] at hc; rw [hp.same.next]; exact h.pend c hc
  · rw [hp.same.tx, hp.same.todo]; exact h.todo
  · intro c cl hP hc
    have hne : c ≠ X := by
      rintro rfl
      rcases hX with h1 | h1
      · exact hP h1
      · apply h1
        have : s.clients c ≠ none := fun h' => by
          have := (hp.clients_none c).mpr h'; rw [hc] at this; cases this
        exact (hg.base.ckind c this).1
    rw [hp.clients_eq hg.base.toBase0 hN hne] at hc
    have hk := (hg.base.ckind c (by rw [hc]; simp)).1
    exact (h.each c cl hP hc).frame (fun p => hp.client_edges hg hN hne hk) (by rw [hpd])
      (by rw [hp.taint]) (fun x v he hca ht => ⟨by rw [hp.held hg hN hne hk he]; exact hca,
        by rw [hp.taint]; exact ht⟩)

theorem CI.weaken {P Q : GraphId → Prop} {s : St V} (h : CI P s) (hPQ : ∀ c, P c → Q c) : CI Q s :=
  ⟨h.pend, h.todo, fun c cl hQ => h.each c cl (fun hP => hQ (hPQ c hP))⟩

theorem CI.strengthen {P Q : GraphId → Prop} {s : St V} (h : CI P s)
    (hQ : ∀ c cl, P c → ¬ Q c → s.clients c = some cl → CC s c cl) : CI Q s := by
  refine ⟨h.pend, h.todo, fun c cl hq hc => ?_⟩
  by_cases hP : P c
  · exact hQ c cl hP hq hc
  · exact h.each c cl hP hc

/-- Changes outside of what the invariant mentions. -/
theorem CI.congr {P : GraphId → Prop} {s s' : St V} (h : CI P s) (hn : s.next ≤ s'.next)
    (hco : s'.conn = s.conn) (hca : ∀ x v, s.cache x = some v → s'.cache x = some v)
    (ht : s'.taint = s.taint)
    (hp : s'.pending = s.pending) (htd : s'.tx ≠ .refreshing → s'.todo = [])
    (hcl : ∀ c, ¬ P c → s'.clients c = s.clients c) : CI P s' := by
  refine ⟨?_, htd, ?_⟩
  · intro c hc; rw [hp] at hc; have := h.pend c hc; exact ⟨this.1, Nat.lt_of_lt_of_le this.2 hn⟩
  · intro c cl hP hc
    rw [hcl c hP] at hc
    have h0 := h.each c cl hP hc
    refine ⟨h0.notReady, fun p hE => h0.edge p (by rw [← hco]; exact hE), fun h' => h0.pend (by rw [← hp]; exact h'),
      h0.drop, h0.prev, ?_⟩
    intro h1 h2 h3
    obtain ⟨g1, g2, g3⟩ := h0.sync h1 (by rw [← hp]; exact h2) (by rw [← ht]; exact h3)
    refine ⟨by rw [hco]; exact g1, ?_, by rw [ht]; exact g3⟩
    cases hv : cl.prev with
    | none => exact absurd hv h0.prev
    | some v => rw [hv] at g2; exact hca _ _ g2

variable [DecidableEq V]

omit [DecidableEq V] in
theorem ci_startRun {P : GraphId → Prop} {s s' : St V} {id} (h : CI P s) (hP : P id)
    (hs : s.startRun id = .ok s') : CI P s' := by
  unfold St.startRun at hs
  split at hs <;> cases hs
  exact h.congr (Nat.le_refl _) rfl (fun _ _ h => h) rfl rfl h.todo
    (fun c hc => upd_ne _ (fun e => hc (by rw [e]; exact hP)))

/-- Observing: all conditions hold afterwards, provided the closure is running. -/
theorem ci_observe {s s' : St V} {lim id o} (h : CI (· = id) s) (hg : Good s)
    (hs : s.observe lim id = .ok (s', o))
    (hrun : ∀ cl, s.clients id = some cl → cl.running = true ∧ (cl.ready = true ∨
      ((∀ p, ¬ s.conn.E p id) ∧ id ∉ s.pending))) :
    CI (fun _ => False) s' := by
  obtain ⟨cl, s1, v, cl1, h1, h2, h3, h4⟩ := observe_cases hs
  have hr := getNode_evalRel hg (stackOK_nil s) h2
  have c1 : CI (· = id) s1 := h.evalRel hg hr
  have hcl : cl = cl1 := by rw [hr.clients, h1] at h3; exact Option.some.inj h3
  subst hcl
  have hk := (hg.base.ckind id (by rw [h1]; simp)).1
  have hh : ∀ t : St V, t.next = s1.next → t.conn = s1.conn → t.cache = s1.cache → t.taint = s1.taint →
      t.tx = s1.tx → t.todo = s1.todo →
      t.clients = upd s1.clients id (some { cl with prev := some v }) → CI (fun _ => False) t := by
    intro t e1 e2 e3 e4 e5 e6 e7
    have hp : t.pending = s1.pending := by unfold St.pending; rw [e5, e6]
    refine CI.strengthen (P := (· = id)) ?_ ?_
    · refine c1.congr (Nat.le_of_eq e1.symm) e2 (fun x v h => by rw [e3]; exact h) e4 hp
        (by rw [e5, e6]; exact c1.todo) (fun c hc => by rw [e7]; exact upd_ne _ hc)
    · rintro c d rfl _ hd
      rw [e7, upd_same] at hd
      cases hd
      obtain ⟨r1, r2⟩ := hrun cl h1
      refine ⟨fun _ => r1, ?_, ?_, fun _ => r1, by simp, fun h => by simp [r1] at h⟩
      · intro p hE
        rw [e2, hr.edges p c hk] at hE
        rcases r2 with r2 | r2
        · exact r2
        · exact absurd hE (r2.1 p)
      · intro hpd
        rw [hp, pending_same hr.same] at hpd
        rcases r2 with r2 | r2
        · exact r2
        · exact absurd hpd r2.2
  rcases h4 with ⟨_, _, rfl⟩ | ⟨_, _, _, rfl⟩
  · exact hh _ rfl rfl rfl rfl rfl rfl rfl
  · exact hh _ rfl rfl rfl rfl rfl rfl rfl

theorem ci_finishRun {s s' : St V} {id} (h : CI (fun _ => False) s) (hg : Good s)
    (hs : s.finishRun id = .ok s') :
    CI (fun c => c = id ∧ ∃ cl, s.clients id = some cl ∧ cl.dropReq = true) s' := by
  obtain ⟨cl, s1, hcl, hrun, hsrc, h1, rfl⟩ := finishRun_cases hs
  have ht : s.Src cl.target := by
    rcases hsrc with g | g
    · exact Or.inl ⟨(hg.base.vkind _ g).1, g⟩
    · exact Or.inr ⟨(hg.base.dkind _ g).1, g⟩
  have hk := (hg.base.ckind id (by rw [hcl]; simp)).1
  obtain ⟨nodes, hp⟩ := setParents_push hg.base.wf h1
  have hN : ∀ p ∈ [cl.target], s.Src p := by simpa using ht
  have c1 : CI (· = id) s1 := (h.weaken (fun _ h => h.elim)).push hg hp hN (Or.inl rfl)
  have htk : cl.target ≠ id := by
    intro e; exact ht.not_client (by rw [e]; exact hk)
  refine CI.strengthen (P := (· = id)) ?_ ?_
  · refine ⟨c1.pend, c1.todo, ?_⟩
    intro c d hP hd
    simp only [St.emit, upd_ne _ hP] at hd
    have hck : c.kind = .client := by
      have : s.clients c ≠ none := fun h' => by
        have := (hp.clients_none c).mpr h'; rw [hd] at this; cases this
      exact (hg.base.ckind c this).1
    have h0 := c1.each c d hP hd
    refine h0.frame (fun _ => Iff.rfl) Iff.rfl (by simp only [St.emit]; rw [upd_ne _ hP]) ?_
    intro x v hE hca htt
    refine ⟨hca, ?_⟩
    simp only [St.emit]; rw [upd_ne]
    · exact htt
    · rintro rfl
      have hb : s1.Src x := by
        rcases hp.spec.sub x c hE with g | ⟨g, _⟩
        · exact (St.Src.same hp.same).mpr (hg.base.src x c g)
        · exact absurd g hP
      exact hb.not_client hk
  · rintro c d rfl hQ hd
    simp only [St.emit, upd_same, Option.some.injEq] at hd
    subst hd
    have h0 := h.each c cl id hcl
    refine ⟨fun h => (by cases h), fun _ _ => rfl, fun _ => rfl, ?_, h0.prev, ?_⟩
    · intro hd; exact absurd ⟨rfl, cl, hcl, hd⟩ hQ
    · intro _ _ htt
      simp only [St.emit, upd_same, Bool.or_eq_false_iff, decide_eq_false_iff_not, Decidable.not_not,
        ne_eq] at htt
      refine ⟨htt.1.1, htt.2, ?_⟩
      simp only [St.emit]; rw [upd_ne _ htk]; exact htt.1.2

omit [DecidableEq V] in
theorem ci_dropOne {P : GraphId → Prop} {s s' : St V} {id} (h : CI (fun c => P c ∨ c = id) s) (hg : Good s)
    (hk : id.kind = .client) (hs : s.dropOne id = .ok s') : CI P s' := by
  unfold St.dropOne at hs
  have hw : ({ s with clients := upd s.clients id none }.emit (.dropped id)).conn.WF := hg.base.wf
  obtain ⟨nodes, hp⟩ := setParents_push hw hs
  have hb : Base0 ({ s with clients := upd s.clients id none }.emit (.dropped id)) :=
    ⟨hg.base.wf, hg.base.src, hg.base.vkind, hg.base.dkind, fun x hx => by
      simp only [St.emit, upd] at hx
      split at hx
      · simp at hx
      · exact hg.base.ckind x hx, hg.base.cached, hg.base.con⟩
  have hpd := pending_same hp.same
  refine ⟨?_, ?_, ?_⟩
  · intro c hc; rw [hpd] at hc; rw [hp.same.next]; exact h.pend c hc
  · rw [hp.same.tx, hp.same.todo]; exact h.todo
  · intro c cl hP hc
    have hne : c ≠ id := by
      rintro rfl
      have : s'.clients c = none := by
        rw [hp.clients_none]; simp [St.emit, upd]
      rw [this] at hc; cases hc
    rw [hp.clients_eq hb (by simp) hne] at hc
    simp only [St.emit, upd_ne _ hne] at hc
    have hck := (hg.base.ckind c (by rw [hc]; simp)).1
    have hedge : ∀ p, s'.conn.E p c ↔ s.conn.E p c := by
      intro p
      constructor
      · intro he
        rcases hp.spec.sub p c he with g | ⟨g, _⟩
        · exact g
        · exact absurd g hne
      · intro he
        by_cases h' : s'.conn.E p c
        · exact h'
        exfalso
        rcases hp.spec.why p c (Or.inl he) h' with ⟨g, _⟩ | ⟨_, d, g | ⟨_, g⟩⟩
        · exact hne g
        · exact (hg.base.src c d g).not_client hck
        · cases g
    refine (h.each c cl (fun h' => h'.elim hP hne) hc).frame hedge (by rw [hpd]; rfl)
      (by rw [hp.taint]; rfl) ?_
    intro x v he hca ht
    refine ⟨?_, by rw [hp.taint]; exact ht⟩
    rw [hp.cache, if_neg]
    · exact hca
    · rintro ⟨_, _, hn⟩
      have := (hedge x).mpr he
      unfold Conn.E at this; rw [hn] at this; cases this

omit [DecidableEq V] in
theorem ci_dropComputed {P : GraphId → Prop} {s s' : St V} {id} (h : CI P s) (hg : Good s)
    (hs : s.dropComputed id = .ok s') : CI P s' := by
  unfold St.dropComputed at hs
  split at hs
  rotate_left
  · cases hs
  rename_i hcond
  have hno : ∀ c, ¬ s.conn.E id c := by
    intro c he; unfold Conn.E at he; rw [hcond.2] at he; cases he
  generalize h1 : ({ s with defs := upd s.defs id none, cache := upd s.cache id none }.emit
    (.dropped id)) = s1 at hs
  have e1 : s1.conn = s.conn := by subst h1; rfl
  have e2 : s1.clients = s.clients := by subst h1; rfl
  have e3 : s1.pending = s.pending := by subst h1; rfl
  have e4 : s1.taint = s.taint := by subst h1; rfl
  have e5 : s1.cache = upd s.cache id none := by subst h1; rfl
  have hw : s1.conn.WF := by rw [e1]; exact hg.base.wf
  obtain ⟨nodes, hp⟩ := setParents_push hw hs
  have hpd : s'.pending = s.pending := (pending_same hp.same).trans e3
  refine ⟨?_, ?_, ?_⟩
  · intro c hc; rw [hpd] at hc; rw [hp.same.next]; subst h1; exact h.pend c hc
  · rw [hp.same.tx, hp.same.todo]; subst h1; exact h.todo
  · intro c cl hP hc
    have hcn : s.clients c ≠ none := by
      intro h'; rw [← e2] at h'
      have := (hp.clients_none c).mpr h'; rw [hc] at this; cases this
    have hck := (hg.base.ckind c hcn).1
    have hne : c ≠ id := by rintro rfl; rw [hcond.1] at hck; cases hck
    have hc' : s.clients c = some cl := by
      rw [hp.clients, e2] at hc
      split at hc
      · rename_i hx
        exfalso
        rcases (hp.spec.mem c).mp hx.2.1 with g | ⟨g, _⟩ | ⟨d, g | ⟨_, g⟩, _⟩
        · exact hne g
        · cases g
        · rw [e1] at g; exact (hg.base.src c d g).not_client hck
        · cases g
      · exact hc
    have hedge : ∀ p, s'.conn.E p c ↔ s.conn.E p c := by
      intro p
      constructor
      · intro he
        rcases hp.spec.sub p c he with g | ⟨g, _⟩
        · rw [e1] at g; exact g
        · exact absurd g hne
      · intro he
        by_cases h' : s'.conn.E p c
        · exact h'
        exfalso
        rcases hp.spec.why p c (Or.inl (by rw [e1]; exact he)) h' with ⟨g, _⟩ | ⟨_, d, g | ⟨_, g⟩⟩
        · exact hne g
        · rw [e1] at g; exact (hg.base.src c d g).not_client hck
        · cases g
    refine (h.each c cl hP hc').frame hedge (by rw [hpd])
      (by rw [hp.taint, e4]) ?_
    intro x v he hca ht
    refine ⟨?_, by rw [hp.taint, e4]; exact ht⟩
    have hx : x ≠ id := by rintro rfl; exact hno c he
    rw [hp.cache, if_neg]
    · rw [e5, upd_ne _ hx]; exact hca
    · rintro ⟨_, _, hn⟩
      have := (hedge x).mpr he
      unfold Conn.E at this; rw [hn] at this; cases this

theorem ci_write {P : GraphId → Prop} {s s' : St V} {id v b} (h : CI P s) (hg : Good s)
    (hs : s.write id v b = .ok s') (hPe : ∀ c, P c → ∀ p, ¬ s.conn.E p c) : CI P s' := by
  obtain ⟨old, l, cs, hv, ht, ⟨_, _, rfl⟩ | ⟨_, W⟩⟩ := write_cases hs
  · exact h
  obtain ⟨l, cs, deps, w1, w2, w3, w4, w5, w6⟩ := W.ex
  have hpd : ∀ c, c ∈ s'.pending ↔ c ∈ s.pending ∨ (c ∈ deps ∧ c.kind = .client) := by
    intro c
    unfold St.pending
    rw [w5, w1, W.todo]
    simp only [List.mem_append, mem_sExtend, List.mem_filter, decide_eq_true_eq]
    constructor
    · rintro ((h | h) | h)
      · exact Or.inl (Or.inl h)
      · exact Or.inr h
      · exact Or.inl (Or.inr h)
    · rintro ((h | h) | h)
      · exact Or.inl (Or.inl h)
      · exact Or.inr h
      · exact Or.inl (Or.inr h)
  have hin : ∀ c, c ∈ deps → ∃ p, s.conn.E p c := by
    intro c hc
    have := (w2 c).mp hc
    cases this with
    | single h => exact ⟨_, h⟩
    | tail _ h => exact ⟨_, h⟩
  refine ⟨?_, ?_, ?_⟩
  · intro c hc
    rw [W.next]
    rcases (hpd c).mp hc with g | ⟨g1, g2⟩
    · exact h.pend c g
    · obtain ⟨p, he⟩ := hin c g1
      rcases hg.base.dst p c he with ⟨k, _⟩ | ⟨k, g⟩
      · rw [k] at g2; cases g2
      · exact hg.base.ckind c g
  · intro _; rw [W.todo]; exact h.todo (by rw [w1]; simp)
  · intro c cl hP hc
    rw [W.clients] at hc
    have hk := (hg.base.ckind c (by rw [hc]; simp)).1
    have h0 := h.each c cl hP hc
    refine ⟨h0.notReady, fun p hE => h0.edge p (by rw [← W.conn]; exact hE), ?_, h0.drop, h0.prev, ?_⟩
    · intro hp
      rcases (hpd c).mp hp with g | ⟨g1, _⟩
      · exact h0.pend g
      · obtain ⟨p, he⟩ := hin c g1; exact h0.edge p he
    · intro h1 h2 h3
      rw [hpd, not_or] at h2
      obtain ⟨g1, g2, g3⟩ := h0.sync h1 h2.1 (by rw [← W.taint]; exact h3)
      refine ⟨by rw [W.conn]; exact g1, ?_, by rw [W.taint]; exact g3⟩
      rw [w4, if_neg]
      · exact g2
      · rintro ⟨_, hd⟩
        exact h2.2 ⟨(w2 c).mpr (((w2 _).mp hd).tail g1), hk⟩

theorem ci_subscribe {s s1 s' : St V} {lim t a cb o} (h : CI (fun _ => False) s) (hg : Good s)
    (h1 : (s.addClient t a cb).startRun ⟨.client, s.next⟩ = .ok s1)
    (h2 : s1.observe lim ⟨.client, s.next⟩ = .ok (s', o)) : CI (fun _ => False) s' := by
  have c0 : CI (· = ⟨.client, s.next⟩) (s.addClient t a cb) :=
    (h.weaken (fun _ h => h.elim)).congr (Nat.le_succ _) rfl (fun _ _ h => h) rfl rfl h.todo
      (fun c hc => upd_ne _ hc)
  have c1 := ci_startRun c0 rfl h1
  refine ci_observe c1 (good_startRun (good_addClient hg _ _ _) h1) h2 ?_
  intro cl hcl
  have hf : (s.addClient t a cb).clients ⟨.client, s.next⟩ = some { target := t, all := a, cb := cb } := by
    simp [St.addClient, St.emit, upd]
  unfold St.startRun at h1
  rw [hf] at h1
  cases h1
  simp only [upd_same, Option.some.injEq] at hcl
  subst hcl
  refine ⟨rfl, Or.inr ⟨?_, ?_⟩⟩
  · intro p hE
    have : s.conn.E p ⟨.client, s.next⟩ := hE
    rcases hg.base.dst _ _ this with ⟨k, _⟩ | ⟨_, k⟩
    · cases k
    · exact absurd (hg.base.ckind _ k).2 (Nat.lt_irrefl _)
  · intro hp
    exact absurd (h.pend _ hp).2 (Nat.lt_irrefl _)

theorem ci_mstep {lim} {s s' : St V} (hg : Good s) (h : CI (fun _ => False) s) (hs : MStep lim s s') :
    CI (fun _ => False) s' := by
  cases hs with
  | newValue v b => exact h.congr (Nat.le_succ _) rfl (fun _ _ h => h) rfl rfl h.todo (fun _ _ => rfl)
  | newComputed p => exact h.congr (Nat.le_succ _) rfl (fun _ _ h => h) rfl rfl h.todo (fun _ _ => rfl)
  | subscribe h1 h2 => exact ci_subscribe h hg h1 h2
  | swapOwned hs =>
    unfold St.swapOwned at hs
    split at hs <;> cases hs
    rename_i cl hcl
    exact h.upd1 (cl := cl) hcl rfl rfl (Or.inr (Or.inl rfl)) rfl rfl
  | finishRun hc hd hs =>
    refine (ci_finishRun h hg hs).strengthen ?_
    rintro c cl ⟨rfl, cl', g1, g2⟩
    rw [hc] at g1; cases g1; rw [hd] at g2; cases g2
  | finishDrop hc hd h1 h2 =>
    refine ci_dropOne ?_ (good_finishRun hg h1) (hg.base.ckind _ (by rw [hc]; simp)).1 h2
    exact (ci_finishRun h hg h1).weaken (fun c hc => Or.inr hc.1)
  | giveTo hs =>
    unfold St.giveTo at hs
    split at hs
    · split at hs <;> cases hs
      rename_i cl hcl
      exact h.upd1 (cl := cl) hcl rfl rfl (Or.inr (Or.inl rfl)) rfl rfl
    · cases hs; exact h
  | dropOne hc hr hs =>
    exact ci_dropOne (h.weaken (fun c hc => hc.elim)) hg (hg.base.ckind _ (by rw [hc]; simp)).1 hs
  | dropReq h1 h2 =>
    have := h.upd1 (cl' := { (_ : Client V) with dropReq := true }) h1 rfl rfl (Or.inr (Or.inr h2)) rfl rfl
    exact this.congr (Nat.le_refl _) rfl (fun _ _ h => h) rfl rfl this.todo (fun _ _ => rfl)
  | dropComputed hs => exact ci_dropComputed h hg hs
  | @begin_ tx hu =>
    unfold TxState.up at hu
    refine h.congr (Nat.le_refl _) rfl (fun _ _ h => h) rfl ?_ ?_ (fun _ _ => rfl)
    · unfold St.pending
      simp only [St.emit]
      split at hu
      · cases hu; rename_i e; rw [e]
      · split at hu <;> cases hu; rename_i e _; rw [e]
      · cases hu
    · intro _
      apply h.todo
      intro e; rw [e] at hu; cases hu
  | @end_ tx hd =>
    refine h.congr (Nat.le_refl _) rfl (fun _ _ h => h) rfl ?_ ?_ (fun _ _ => rfl)
    · unfold St.pending
      simp only [St.emit]
      unfold TxState.down at hd
      split at hd
      · cases hd; rename_i e; rw [e]
      · split at hd <;> cases hd; rename_i e _; rw [e]
      · cases hd; rename_i e; rw [e]
    · intro hne
      apply h.todo
      intro e; rw [e] at hd; cases hd; exact hne rfl
  | write hs => exact ci_write h hg hs (fun _ h => h.elim)
  | get hs =>
    have := h.evalRel hg (getNode_evalRel hg (stackOK_nil s) hs)
    exact this.congr (Nat.le_refl _) rfl (fun _ _ h => h) rfl rfl this.todo (fun _ _ => rfl)

theorem ci_step {lim} {s s' : St V} (hg : Good s) (h : CI (fun _ => False) s) (hs : Step lim s s') :
    CI (fun _ => False) s' := by
  cases hs with
  | micro hs => exact ci_mstep hg h hs
  | @finish cs hd =>
    have : ∃ l, s.tx = .modification l cs := by
      unfold TxState.down at hd
      split at hd
      · cases hd
      · split at hd <;> cases hd; exact ⟨_, by assumption⟩
      · cases hd
    obtain ⟨l, hl⟩ := this
    have ht := h.todo (by rw [hl]; simp)
    refine h.congr (Nat.le_refl _) rfl (fun _ _ h => h) rfl ?_ (fun h => absurd rfl h) (fun _ _ => rfl)
    unfold St.pending
    simp [St.emit, hl, ht]
  | @skip c cs htx ht hq hsk =>
    have hpd : s.pending = c :: cs := by unfold St.pending; rw [htx, ht]; rfl
    have hpd' : ({ s with todo := cs }.emit (.skipped c)).pending = cs := by
      unfold St.pending; simp [St.emit, htx]
    refine ⟨?_, ?_, ?_⟩
    · intro x hx; rw [hpd'] at hx
      exact h.pend x (by rw [hpd]; exact List.mem_cons_of_mem _ hx)
    · intro hn; exact absurd htx hn
    · intro x cl hP hx
      have h0 := h.each x cl hP hx
      refine ⟨h0.notReady, h0.edge, ?_, h0.drop, h0.prev, ?_⟩
      · intro hp; rw [hpd'] at hp
        exact h0.pend (by rw [hpd]; exact List.mem_cons_of_mem _ hp)
      · intro h1 h2 h3
        rw [hpd'] at h2
        refine h0.sync h1 ?_ h3
        rw [hpd]
        intro hm
        rcases List.mem_cons.mp hm with rfl | hm
        · have hr := h0.pend (by rw [hpd]; exact List.mem_cons_self)
          rcases hsk with g | ⟨d, g1, g2⟩
          · rw [show s.clients x = some cl from hx] at g; cases g
          · rw [show s.clients x = some cl from hx] at g1; cases g1; rw [hr] at g2; cases g2
        · exact h2 hm
  | @refresh s1 _ c cs cl o htx ht hq hc hr h1 h2 =>
    have hpd : s.pending = c :: cs := by unfold St.pending; rw [htx, ht]; rfl
    have hpd' : ({ s with todo := cs }.emit (.refreshed c)).pending = cs := by
      unfold St.pending; simp [St.emit, htx]
    have c0 : CI (· = c) ({ s with todo := cs }.emit (.refreshed c)) := by
      refine ⟨?_, ?_, ?_⟩
      · intro x hx; rw [hpd'] at hx
        exact h.pend x (by rw [hpd]; exact List.mem_cons_of_mem _ hx)
      · intro hn; exact absurd htx hn
      · intro x d hP hx
        have h0 := h.each x d id hx
        refine ⟨h0.notReady, h0.edge, ?_, h0.drop, h0.prev, ?_⟩
        · intro hp; rw [hpd'] at hp
          exact h0.pend (by rw [hpd]; exact List.mem_cons_of_mem _ hp)
        · intro g1 g2 g3
          rw [hpd'] at g2
          refine h0.sync g1 ?_ g3
          rw [hpd]
          intro hm
          rcases List.mem_cons.mp hm with rfl | hm
          · exact hP rfl
          · exact g2 hm
    have gg : Good ({ s with todo := cs }.emit (.refreshed c)) :=
      hg.congr rfl rfl rfl rfl rfl rfl (fun _ _ => rfl) (fun _ => Iff.rfl)
    refine ci_observe (ci_startRun c0 rfl h1) (good_startRun gg h1) h2 ?_
    intro d hd
    unfold St.startRun at h1
    have hc' : (St.emit { s with todo := cs } (.refreshed c)).clients c = some cl := hc
    rw [hc'] at h1
    cases h1
    simp only [upd_same, Option.some.injEq] at hd
    subst hd
    exact ⟨rfl, Or.inl hr⟩
  | idle htx ht hq =>
    refine h.congr (Nat.le_refl _) rfl (fun _ _ h => h) rfl ?_ (fun _ => ht) (fun _ _ => rfl)
    unfold St.pending
    simp [St.emit, htx, ht, TxState.moveToIdle]

omit [DecidableEq V] in
theorem ci_empty : CI (fun _ => False) ({} : St V) := by
  refine ⟨?_, fun _ => rfl, ?_⟩
  · intro c hc; simp [St.pending] at hc
  · intro c cl _ hc; cases hc

theorem ci_star {lim} {s : St V} (h : Star (Step lim) {} s) : Good s ∧ CI (fun _ => False) s :=
  h.inv (P := fun s => Good s ∧ CI (fun _ => False) s)
    (fun _ _ g h => ⟨good_step g.1 h, ci_step g.1 g.2 h⟩) ⟨good_empty, ci_empty⟩

end Verif.Reactive

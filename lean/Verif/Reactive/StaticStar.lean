import Verif.Reactive.StaticSteps
/-! # Static programs: all reachable states -/
namespace Verif.Reactive

variable {V : Type} {D : GraphId → Prog V → Prop} [DecidableEq V]

/-- Bookkeeping about the log that holds for all programs. -/
structure LogBase (s : St V) : Prop where
  defs : ∀ id p, s.defs id = some p → .defined id p ∈ s.log
  ran : ∀ c, .ran c ∈ s.log → c.num < s.next

omit [DecidableEq V] in
theorem LogBase.grow {s s' : St V} (h : LogBase s) (hg : Good s) (g : Grow s s') : LogBase s' := by
  obtain ⟨⟨k, l1, l2⟩, n, d⟩ := g
  refine ⟨?_, ?_⟩
  · intro id p hd
    rcases d id p hd with h' | h'
    · rw [l1]; exact List.mem_append_left _ (h.defs id p h')
    · exact h'
  · intro c hc
    rw [l1] at hc
    rcases List.mem_append.mp hc with h' | h'
    · exact Nat.lt_of_lt_of_le (h.ran c h') n
    · exact Nat.lt_of_lt_of_le (hg.base.ckind c (l2 c h')).2 n

theorem sall_mstep {lim} {s s' : St V} (hD : Private D) (ha : All s) (hb : LogBase s) (h : SAll D s)
    (hst : ∀ id p, .defined id p ∈ s'.log → D id p) (hs : MStep lim s s') : SAll D s' := by
  obtain ⟨hg, hci, hx, hl, hm⟩ := ha
  have idc : ∀ c cl', s.clients c = some cl' → ∃ cl, s.clients c = some cl ∧
      cl'.target = cl.target ∧ cl'.ready = cl.ready ∧ cl'.running = cl.running ∧ cl'.prev = cl.prev :=
    fun c cl hc => ⟨cl, hc, rfl, rfl, rfl, rfl⟩
  cases hs with
  | newValue v b =>
    exact h.congr (k := []) hci rfl rfl rfl rfl (fun h => Or.inl h) (by simp [St.addValue]) (by simp) idc
  | newComputed p =>
    refine ⟨⟨?_, h.si.num, ?_, h.si.clean⟩, ?_⟩
    · intro id q hd
      simp only [St.addComputed, St.emit, upd] at hd
      split at hd
      · cases hd; rename_i e; subst e
        exact hst _ _ (by simp [St.addComputed, St.emit])
      · exact h.si.defs id q hd
    · intro c q r hd hE
      have hE' : s.conn.E r c := hE
      simp only [St.addComputed, St.emit, upd] at hd
      split at hd
      · rename_i e; subst e
        rcases hg.base.dst _ _ hE' with ⟨_, k⟩ | ⟨k, _⟩
        · exact absurd (hg.base.dkind _ k).2 (Nat.lt_irrefl _)
        · cases k
      · exact h.si.par c q r hd hE'
    · intro c cl hc
      exact (h.cs c cl hc).frame rfl rfl rfl rfl (hci.each c cl id hc).prev (fun _ => Iff.rfl) (fun h _ _ => h)
        (k := [_]) rfl (by simp) rfl (fun _ _ => rfl)
  | subscribe h1 h2 => exact sall_subscribe hD hg hl hci h hb.ran h1 h2
  | swapOwned hs =>
    unfold St.swapOwned at hs
    split at hs <;> cases hs
    rename_i cl hcl
    exact h.congr (k := []) hci rfl rfl rfl rfl (fun h => Or.inl h) (by simp) (by simp)
      (upd_data hcl ⟨rfl, rfl, rfl, rfl⟩)
  | finishRun _ _ hs => exact sall_finishRun hg hci h hs
  | @finishDrop s1 _ id cl hc hd h1 h2 =>
    have hk := (hg.base.ckind _ (by rw [hc]; simp)).1
    have c1 := ci_finishRun hci hg h1
    obtain ⟨_, l1, _⟩ := log_finishRun hg hx hl hm h1
    exact sall_dropOne (good_finishRun hg h1) (fun c d hne hd => (c1.each c d (fun h => hne h.1) hd).prev) l1
      (sall_finishRun hg hci h h1) hk h2
  | giveTo hs =>
    unfold St.giveTo at hs
    split at hs
    · split at hs <;> cases hs
      rename_i cl hcl
      exact h.congr (k := []) hci rfl rfl rfl rfl (fun h => Or.inl h) (by simp) (by simp)
        (upd_data hcl ⟨rfl, rfl, rfl, rfl⟩)
    · cases hs; exact h
  | dropOne hc hr hs =>
    exact sall_dropOne hg (fun c d _ hd => (hci.each c d (fun h => h) hd).prev) hl h
      (hg.base.ckind _ (by rw [hc]; simp)).1 hs
  | dropReq h1 h2 =>
    exact h.congr (k := [_]) hci rfl rfl rfl rfl (fun h => Or.inl h) rfl (by simp)
      (upd_data h1 ⟨rfl, rfl, rfl, rfl⟩)
  | dropComputed hs => exact sall_dropComputed hg hci hl h hs
  | @begin_ tx hu =>
    refine h.congr (k := [_]) hci rfl rfl rfl rfl (fun h => ?_) rfl (by simp) idc
    rw [h] at hu; cases hu
  | @end_ tx hd =>
    refine h.congr (k := [_]) hci rfl rfl rfl rfl (fun h => Or.inl ?_) rfl (by simp) idc
    rw [h] at hd; cases hd; rfl
  | @write _ id v b hs =>
    obtain ⟨old, l, cs, hv, ht, ⟨_, _, rfl⟩ | ⟨_, W⟩⟩ := write_cases hs
    · exact h
    obtain ⟨l, cs, deps, w1, w2, w3, w4, w5, w6⟩ := W.ex
    refine ⟨h.si.congr (fun id p hp => by rw [← W.defs]; exact hp) W.conn (fun x _ => by rw [W.taint]), ?_⟩
    intro c cl hc
    rw [W.clients] at hc
    have h0 := h.cs c cl hc
    refine h0.frame rfl rfl rfl rfl (hci.each c cl (fun h => h) hc).prev (fun p => by rw [W.conn])
      (fun h => by rw [w1] at h; cases h) w6 (by simp) (by rw [W.taint]) ?_
    rintro (⟨_, _, h'⟩ | ⟨hr, hq⟩) _
    · rw [w1] at h'; cases h'
    · exfalso
      rw [w6] at hq
      exact hq.1.absurd (hl.subs c cl hc) (h0.nr hr) (by simp) List.mem_cons_self rfl
  | @get s1 id v hs =>
    have hr := getNode_evalRel hg (stackOK_nil s) hs
    have k := getNode_kept hD _ _ _ _ _ _ hg (stackOK_nil s) h.si (fun x hx => by cases hx) hs
    obtain ⟨kl, l1, l2⟩ := hr.log
    refine ⟨k.si.congr (fun _ _ h => h) rfl (fun _ _ => rfl), ?_⟩
    intro c cl hc
    have hc' : s.clients c = some cl := by rw [← hr.clients]; exact hc
    have hck := (hg.base.ckind c (by rw [hc']; simp)).1
    refine (h.cs c cl hc').frame rfl rfl rfl rfl (hci.each c cl (fun h => h) hc').prev (fun p => hr.edges p c hck)
      (fun h _ _ => by show s1.tx = _; rw [hr.same.tx]; exact h)
      (k := kl ++ [.read id v (!s1.taint id) s1.vals s1.defs]) (by simp [St.emit, l1]) ?_
      (hr.taint c hck) ?_
    · intro hm
      rcases List.mem_append.mp hm with g | g
      · exact isConn_ran l2 c g
      · simp at g
    · intro hor hn
      cases hv : s.cache cl.target with
      | none => exact absurd hv hn
      | some w =>
        rcases hor with ⟨_, hE, _⟩ | ⟨hnr, hu⟩
        · exact (hr.held _ _ _ hck hE hv (h.si.clean _ (hg.base.src _ _ hE).not_client)).1
        · rcases hu.2 with hu | hu
          · exact k.cache _ _ (Or.inr hu) hv
          · exfalso
            refine FirstRunSilent.absurd (log := s.log) (k := kl ++ [.read id v (!s1.taint id) s1.vals s1.defs])
              (e := .read id v (!s1.taint id) s1.vals s1.defs) ?_ (hl.subs c cl hc') ((h.cs c cl hc').nr hnr) ?_ (by simp) rfl
            · have := hu; simp only [St.emit, l1, List.append_assoc] at this; exact this
            · intro hm
              rcases List.mem_append.mp hm with g | g
              · exact isConn_ran l2 c g
              · simp at g

theorem sall_step {lim} {s s' : St V} (hD : Private D) (ha : All s) (hb : LogBase s) (h : SAll D s)
    (hst : ∀ id p, .defined id p ∈ s'.log → D id p) (hs : Step lim s s') : SAll D s' := by
  have idc : ∀ c cl', s.clients c = some cl' → ∃ cl, s.clients c = some cl ∧
      cl'.target = cl.target ∧ cl'.ready = cl.ready ∧ cl'.running = cl.running ∧ cl'.prev = cl.prev :=
    fun c cl hc => ⟨cl, hc, rfl, rfl, rfl, rfl⟩
  cases hs with
  | micro hs => exact sall_mstep hD ha hb h hst hs
  | @finish cs hd =>
    exact h.congr (k := [.end_, .finish cs]) ha.ci rfl rfl rfl rfl (fun h => Or.inl rfl) (by simp [St.emit])
      (by simp) idc
  | skip htx ht hq hsk =>
    exact h.congr (k := [_]) ha.ci rfl rfl rfl rfl (fun h => Or.inl h) rfl (by simp) idc
  | @refresh s1 _ c cs cl o htx ht hq hc hr h1 h2 =>
    have hpd : s.pending = c :: cs := by unfold St.pending; rw [htx, ht]; rfl
    have h0 : SAll D ({ s with todo := cs }.emit (.refreshed c)) :=
      h.congr (k := [_]) ha.ci rfl rfl rfl rfl (fun h => Or.inl h) rfl (by simp) idc
    have gg : Good ({ s with todo := cs }.emit (.refreshed c)) :=
      ha.good.congr rfl rfl rfl rfl rfl rfl (fun _ _ => rfl) (fun _ => Iff.rfl)
    have g1 := good_startRun gg h1
    have hpd' : ({ s with todo := cs }.emit (.refreshed c)).pending = cs := by
      unfold St.pending; simp [St.emit, htx]
    have c0 : CI (· = c) ({ s with todo := cs }.emit (.refreshed c)) := by
      refine ⟨?_, ?_, ?_⟩
      · intro x hx; rw [hpd'] at hx
        exact ha.ci.pend x (by rw [hpd]; exact List.mem_cons_of_mem _ hx)
      · intro hn; exact absurd htx hn
      · intro x d hP hx
        have h0 := ha.ci.each x d id hx
        refine ⟨h0.notReady, h0.edge, ?_, h0.drop, h0.prev, ?_⟩
        · intro hp; rw [hpd'] at hp
          exact h0.pend (by rw [hpd]; exact List.mem_cons_of_mem _ hp)
        · intro g1 g2 g3
          rw [hpd'] at g2
          refine h0.sync g1 ?_ g3
          rw [hpd]
          intro hm
          rcases List.mem_cons.mp hm with rfl | hm
          · exact hP rfl
          · exact g2 hm
    have c1 := ci_startRun c0 rfl h1
    unfold St.startRun at h1
    have hc' : (St.emit { s with todo := cs } (.refreshed c)).clients c = some cl := hc
    rw [hc'] at h1
    cases h1
    have k0 := h0.cs c cl hc'
    refine sall_observe hD g1 (h0.si.congr (fun _ _ h => h) rfl (fun _ _ => rfl)) ?_ ?_ c1 ?_ h2
    · intro x d hne hd
      simp only [upd_ne _ hne] at hd
      exact (h0.cs x d hd).frame rfl rfl rfl rfl (ha.ci.each x d id hd).prev (fun _ => Iff.rfl) (fun h _ _ => h)
        (k := []) (by simp) (by simp) rfl (fun _ _ => rfl)
    · intro x d hne hd hnr hsil
      simp only [upd_ne _ hne] at hd
      have hd' : s.clients x = some d := hd
      exact FirstRunSilent.absurd (log := s.log) (k := [.refreshed c]) hsil (ha.lv.subs x d hd')
        ((h.cs x d hd').nr hnr) (by simp) List.mem_cons_self rfl
    · intro d hd
      simp only [upd_same, Option.some.injEq] at hd
      subst hd
      exact ⟨fun _ => k0.tgt, rfl, k0.own, fun h => ⟨k0.edge h, htx⟩, k0.nr, k0.clean⟩
  | idle htx ht hq =>
    refine h.congr (k := [_]) ha.ci rfl rfl rfl rfl (fun h => Or.inr hq) rfl (by simp) idc

/-! ## Marked reads -/

/-- A read or delivery marked as possibly stale. -/
def Ev.marked : Ev V → Bool
  | .read _ _ clean _ _ => !clean
  | .deliver _ _ clean _ _ => !clean
  | _ => false

omit [DecidableEq V] in
theorem isConn_marked {e : Ev V} (h : e.isConn = true) : e.marked = false := by
  cases e <;> simp [Ev.isConn] at h <;> rfl

/-- No marked events are added. -/
def Neutral (s s' : St V) : Prop := ∀ e ∈ s'.log, e.marked = true → e ∈ s.log

omit [DecidableEq V] in
theorem Neutral.ext {s s' : St V} {k} (hl : s'.log = s.log ++ k) (hk : ∀ e ∈ k, e.marked = false) :
    Neutral s s' := by
  intro e he hm
  rw [hl] at he
  rcases List.mem_append.mp he with h | h
  · exact h
  · rw [hk e h] at hm; cases hm

omit [DecidableEq V] in
theorem Neutral.trans {a b c : St V} (h1 : Neutral a b) (h2 : Neutral b c) : Neutral a c :=
  fun e he hm => h1 e (h2 e he hm) hm

omit [DecidableEq V] in
theorem neutral_push {s s' : St V} {X N} (h : s.setParents X N = .ok s') : Neutral s s' := by
  obtain ⟨k, l1, l2⟩ := setParents_log h
  exact Neutral.ext l1 (fun e he => isConn_marked (l2 e he))

theorem neutral_finishRun {s s' : St V} {id} (hs : s.finishRun id = .ok s') : Neutral s s' := by
  obtain ⟨cl, s1, hcl, hrun, hsrc, h1, rfl⟩ := finishRun_cases hs
  exact (neutral_push h1).trans (Neutral.ext (k := [.ran id]) rfl (by simp [Ev.marked]))

omit [DecidableEq V] in
theorem neutral_dropOne {s s' : St V} {id} (hs : s.dropOne id = .ok s') : Neutral s s' := by
  unfold St.dropOne at hs
  exact Neutral.trans (Neutral.ext (k := [.dropped id]) rfl (by simp [Ev.marked])) (neutral_push hs)

theorem marks_observe {s s' : St V} {lim id o} (hD : Private D) (hg : Good s) (hsi : SI D s)
    (hs : s.observe lim id = .ok (s', o)) : Neutral s s' := by
  obtain ⟨cl, s1, v, cl1, h1, h2, h3, h4⟩ := observe_cases hs
  have hr := getNode_evalRel hg (stackOK_nil s) h2
  obtain ⟨k, l1, l2⟩ := hr.log
  have k1 := getNode_kept hD _ _ _ _ _ _ hg (stackOK_nil s) hsi (fun x hx => by cases hx) h2
  have hn : Neutral s s1 := Neutral.ext l1 (fun e he => isConn_marked (l2 e he))
  have hcl : cl = cl1 := by rw [hr.clients, h1] at h3; exact Option.some.inj h3
  subst hcl
  have hsrc := (good_get hg h2).src
  rcases h4 with ⟨_, _, rfl⟩ | ⟨_, _, _, rfl⟩
  · refine hn.trans (Neutral.ext (k := [_]) rfl ?_)
    intro e he
    simp only [List.mem_singleton] at he
    subst he
    simp only [Ev.marked, k1.si.clean _ hsrc.not_client]; rfl
  · exact hn.trans (Neutral.ext (k := []) (by simp) (by simp))

omit [DecidableEq V] in
theorem neutral_startRun {s s' : St V} {id} (hs : s.startRun id = .ok s') : Neutral s s' := by
  unfold St.startRun at hs
  split at hs <;> cases hs
  exact Neutral.ext (k := []) (by simp) (by simp)

theorem marks_mstep {lim} {s s' : St V} (hD : Private D) (hg : Good s) (h : SAll D s) (hs : MStep lim s s') : Neutral s s' := by
  cases hs with
  | newValue v b => exact Neutral.ext (k := []) (by simp [St.addValue]) (by simp)
  | newComputed p => exact Neutral.ext (k := [_]) rfl (by simp [Ev.marked])
  | @subscribe s1 _ t a cb o h1 h2 =>
    refine Neutral.trans (Neutral.trans (Neutral.ext (k := [_]) rfl (by simp [Ev.marked])) (neutral_startRun h1))
      (marks_observe hD (good_startRun (good_addClient hg t a cb) h1) ?_ h2)
    exact si_startRun (s := s.addClient t a cb) (h.si.congr (fun _ _ h => h) rfl (fun _ _ => rfl)) h1
  | swapOwned hs =>
    unfold St.swapOwned at hs
    split at hs <;> cases hs
    exact Neutral.ext (k := []) (by simp) (by simp)
  | finishRun _ _ hs => exact neutral_finishRun hs
  | finishDrop _ _ h1 h2 => exact (neutral_finishRun h1).trans (neutral_dropOne h2)
  | giveTo hs =>
    unfold St.giveTo at hs
    split at hs
    · split at hs <;> cases hs
      exact Neutral.ext (k := []) (by simp) (by simp)
    · cases hs; exact Neutral.ext (k := []) (by simp) (by simp)
  | dropOne _ _ hs => exact neutral_dropOne hs
  | dropReq _ _ => exact Neutral.ext (k := [_]) rfl (by simp [Ev.marked])
  | dropComputed hs =>
    unfold St.dropComputed at hs
    split at hs
    · exact Neutral.trans (Neutral.ext (k := [_]) rfl (by simp [Ev.marked])) (neutral_push hs)
    · cases hs
  | begin_ _ => exact Neutral.ext (k := [_]) rfl (by simp [Ev.marked])
  | end_ _ => exact Neutral.ext (k := [_]) rfl (by simp [Ev.marked])
  | @write _ id v b hs =>
    obtain ⟨old, l, cs, hv, ht, ⟨_, _, rfl⟩ | ⟨_, W⟩⟩ := write_cases hs
    · exact Neutral.ext (k := []) (by simp) (by simp)
    · obtain ⟨l, cs, deps, w1, w2, w3, w4, w5, w6⟩ := W.ex
      exact Neutral.ext w6 (by simp [Ev.marked])
  | @get s1 id v hs =>
    have hr := getNode_evalRel hg (stackOK_nil s) hs
    have k1 := getNode_kept hD _ _ _ _ _ _ hg (stackOK_nil s) h.si (fun x hx => by cases hx) hs
    obtain ⟨k, l1, l2⟩ := hr.log
    refine Neutral.trans (Neutral.ext l1 (fun e he => isConn_marked (l2 e he))) (Neutral.ext (k := [_]) rfl ?_)
    intro e he
    simp only [List.mem_singleton] at he
    subst he
    simp only [Ev.marked, k1.si.clean _ (good_get hg hs).src.not_client]; rfl

theorem marks_step {lim} {s s' : St V} (hD : Private D) (hg : Good s) (h : SAll D s) (hs : Step lim s s') : Neutral s s' := by
  cases hs with
  | micro hs => exact marks_mstep hD hg h hs
  | @finish cs _ => exact Neutral.ext (k := [.end_, .finish cs]) (by simp [St.emit]) (by simp [Ev.marked])
  | skip _ _ _ _ => exact Neutral.ext (k := [_]) rfl (by simp [Ev.marked])
  | @refresh s1 _ c cs cl o htx ht hq hc hr h1 h2 =>
    have gg : Good ({ s with todo := cs }.emit (.refreshed c)) :=
      hg.congr rfl rfl rfl rfl rfl rfl (fun _ _ => rfl) (fun _ => Iff.rfl)
    refine Neutral.trans (Neutral.trans (Neutral.ext (k := [_]) rfl (by simp [Ev.marked])) (neutral_startRun h1))
      (marks_observe hD (good_startRun gg h1) ?_ h2)
    exact si_startRun (s := { s with todo := cs }.emit (.refreshed c)) (h.si.congr (fun _ _ h => h) rfl (fun _ _ => rfl)) h1
  | idle _ _ _ => exact Neutral.ext (k := [_]) rfl (by simp [Ev.marked])

/-- Everything that holds in a reachable state, if the closures of all computeds are
mentioned by `D`. -/
theorem private_star {lim} {s : St V} (hD : Private D) (h : Star (Step lim) {} s) :
    All s ∧ LogBase s ∧ ((∀ id p, .defined id p ∈ s.log → D id p) → SAll D s ∧ ∀ e ∈ s.log, e.marked = false) := by
  refine h.inv (P := fun s => All s ∧ LogBase s ∧
    ((∀ id p, .defined id p ∈ s.log → D id p) → SAll D s ∧ ∀ e ∈ s.log, e.marked = false))
    ?_ ⟨all_empty, ⟨?_, ?_⟩, ?_⟩
  · rintro a b ⟨ha, hb, hs⟩ hstep
    have gr := grow_step ha.good hstep
    obtain ⟨x, l, m⟩ := log_step ha hstep
    refine ⟨⟨good_step ha.good hstep, ci_step ha.good ha.ci hstep, x, l, m⟩, hb.grow ha.good gr, ?_⟩
    intro hst
    obtain ⟨k, l1, _⟩ := gr.log
    obtain ⟨hs1, hs2⟩ := hs fun id p hd => hst id p (by rw [l1]; exact List.mem_append_left _ hd)
    refine ⟨sall_step hD ha hb hs1 hst hstep, fun e he => ?_⟩
    cases hm : e.marked with
    | false => rfl
    | true =>
      have := hs2 e (marks_step hD ha.good hs1 hstep e he hm)
      rw [this] at hm; cases hm
  · intro id p h; cases h
  · intro c h; cases h
  · intro _
    refine ⟨⟨⟨?_, ?_, ?_, fun x _ => rfl⟩, ?_⟩, ?_⟩
    · intro id p h; cases h
    · intro p c he; simp [Conn.E, Conn.empty, Rel.get] at he
    · intro c p q h; cases h
    · intro c cl h; cases h
    · intro e h; cases h

/-- The same for the computeds in the log. -/
theorem static_star {lim} {s : St V} (h : Star (Step lim) {} s) :
    All s ∧ LogBase s ∧ (Private (defsOf s.log) → SAll (defsOf s.log) s ∧ ∀ e ∈ s.log, e.marked = false) := by
  have h0 : Private (fun (_ : GraphId) (_ : Prog V) => False) :=
    ⟨fun x y ⟨_, _, h, _⟩ => h.elim, fun _ _ _ h => h.elim⟩
  obtain ⟨a, b, _⟩ := private_star h0 h
  exact ⟨a, b, fun hD => (private_star hD h).2.2 fun _ _ h => h⟩

end Verif.Reactive

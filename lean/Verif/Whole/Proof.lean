import Verif.Whole.Open
import Verif.View.Props
/-!
# C70: the page and the core agree
-/
namespace Verif.Whole
open Verif.Reactive Verif.View
open Verif.Dom (Browser)

variable {V : Type} [DecidableEq V]

/-- What holds between two moves. -/
structure Inv (D : GraphId → Prog (Val V) → Prop) (lim : Nat) (views : List (View (State V) V)) (z : Sys V) : Prop where
  core : OI D lim (fun _ => False) z.st z.links
  page : ∃ b, Browser.init.run z.sent = .ok b ∧ Agree views b z.app
  subs : ∀ p ∈ z.links, p.1 ∈ (factsAll z.app.body).map (·.sub)
  all : ∀ e ∈ factsAll z.app.body, Linked D z.st z.links e ∨ Const e

theorem OI.ready {D} {lim} {s : St (Val V)} {l : Links} (h : OI D lim (fun _ => False) s l) {c cl} (hc : s.clients c = some cl) :
    cl.running = false ∧ cl.ready = true := by
  have hr : cl.running = false := by
    cases hr : cl.running with
    | false => rfl
    | true => exact ((h.flags c cl hc).2 hr).elim
  refine ⟨hr, ?_⟩
  cases h1 : cl.ready with
  | true => rfl
  | false =>
    have := ((static_star h.star).1.ci.each c cl id hc).notReady h1
    rw [hr] at this; cases this

theorem OI.calm {D} {lim} {s : St (Val V)} {l : Links} (h : OI D lim (fun _ => False) s l) : Calm s := fun _ _ hc _ => (h.ready hc).1

/-- A step that leaves the subscriptions alone. -/
theorem OI.step {D lim P} {s s' : St (Val V)} {l : Links} (h : OI D lim P s l) (hs : Reactive.Step lim s s') {k} (hl : s'.log = s.log ++ k)
    (hk : ∀ c t a, .subscribed c t a ∉ k) (hst : Within D s'.log) (hc : s'.clients = s.clients) : OI D lim P s' l :=
  ⟨h.star.tail hs, hst, by rw [hl]; exact h.quiet.done h.done hk, by rw [hl]; exact h.done.ext hk, by rw [hc]; exact h.flags, h.n1, h.n2,
    by rw [hc]; exact h.live, by rw [hc]; exact h.owned⟩

theorem Inv.step {D} {lim} {views : List (View (State V) V)} {s s' : St (Val V)} {a l o} (h : Inv D lim views ⟨s, a, l, o⟩) (hs : Reactive.Step lim s s') {k}
    (hl : s'.log = s.log ++ k) (hk : ∀ c t a, .subscribed c t a ∉ k) (hst : ∀ id p, .defined id p ∉ k) (hc : s'.clients = s.clients)
    (hd : s'.defs = s.defs) : Inv D lim views ⟨s', a, l, o⟩ :=
  ⟨h.core.step hs hl hk (by rw [hl]; exact static_ext h.core.static hst) hc, h.page, h.subs,
    fun e he => (h.all e he).imp (fun hL => hL.mono (fun c cl h1 h2 => ⟨h1, cl, by rw [hc]; exact h2, rfl, rfl⟩) fun x p h => by rw [hd]; exact h) id⟩

/-- What `Code` does. -/
theorem code_facts {D} {lim} {s s' : St (Val V)} (hg : Reactive.Good s) (h : Code D lim s s') : Reactive.Step lim s s' ∧ s'.clients = s.clients ∧
    (∀ x p, s.defs x = some p → s'.defs x = some p) ∧ (∃ k, s'.log = s.log ++ k ∧ ∀ c t a, .subscribed c t a ∉ k) ∧
    (Within D s.log → Within D s'.log) := by
  cases h with
  | value v b => exact ⟨.micro (.newValue s v b), rfl, fun _ _ h => h, ⟨[], by simp [St.addValue], by simp⟩, fun h => h⟩
  | @computed p hp =>
    refine ⟨.micro (.newComputed s p), rfl, fun x q hx => ?_, ⟨[_], rfl, by simp⟩, fun h id q hm => ?_⟩
    · have := hg.base.dkind x (by rw [hx]; simp)
      simp only [St.addComputed, St.emit]
      rw [upd_ne _ (by rintro rfl; exact absurd this.2 (Nat.lt_irrefl _))]
      exact hx
    · rcases List.mem_append.mp hm with hm | hm
      · exact h id q hm
      · simp only [List.mem_singleton, Ev.defined.injEq] at hm
        obtain ⟨rfl, rfl⟩ := hm
        exact hp
  | begin_ h => exact ⟨.micro (.begin_ h), rfl, fun _ _ h => h, ⟨[_], rfl, by simp⟩, fun hs => static_ext (k := [_]) hs (by simp)⟩
  | end_ h => exact ⟨.micro (.end_ h), rfl, fun _ _ h => h, ⟨[_], rfl, by simp⟩, fun hs => static_ext (k := [_]) hs (by simp)⟩
  | write h =>
    obtain ⟨old, l, cs, hv, ht, ⟨_, _, rfl⟩ | ⟨_, W⟩⟩ := write_cases h
    · exact ⟨.micro (.write h), rfl, fun _ _ h => h, ⟨[], by simp, by simp⟩, fun h => h⟩
    · obtain ⟨l, cs, deps, w1, w2, w3, w4, w5, w6⟩ := W.ex
      exact ⟨.micro (.write h), W.clients, fun x p h => by rw [W.defs]; exact h, ⟨_, w6, by simp⟩, fun hs => by rw [w6]; exact static_ext hs (by simp)⟩
  | get h =>
    have hr := getNode_evalRel hg (stackOK_nil s) h
    have hG := good_get hg h
    obtain ⟨k, l1, l2⟩ := hr.log
    refine ⟨.micro (.get h), hr.clients, fun x p h => by simp only [St.emit]; rw [hG.same.defs]; exact h, ⟨k ++ [_], by simp only [St.emit]; rw [l1, List.append_assoc], ?_⟩, fun hs => ?_⟩
    · intro c t a hm
      rcases List.mem_append.mp hm with hm | hm
      · exact isConn_subscribed l2 _ _ _ hm
      · simp at hm
    · simp only [St.emit]
      rw [l1, List.append_assoc]
      refine static_ext hs fun id p hm => ?_
      rcases List.mem_append.mp hm with hm | hm
      · exact isConn_defined l2 _ _ hm
      · simp at hm

/-- No subscriptions yet. -/
theorem code_star {D} {lim} {s : St (Val V)} (h : Star (Code D lim) {} s) : Star (Reactive.Step lim) {} s ∧ Within D s.log ∧ s.clients = (fun _ => none) ∧
    ∀ c t a, .subscribed c t a ∉ s.log := by
  refine h.inv (P := fun s => Star (Reactive.Step lim) {} s ∧ Within D s.log ∧ s.clients = (fun _ => none) ∧ ∀ c t a, .subscribed c t a ∉ s.log) ?_
    ⟨.refl _, by intro id p hm; simp at hm, rfl, by simp⟩
  rintro a b ⟨h1, h2, h3, h4⟩ hs
  obtain ⟨g1, g2, -, ⟨k, g3, g4⟩, g5⟩ := code_facts (static_star h1).1.good hs
  refine ⟨h1.tail g1, g5 h2, by rw [g2, h3], fun c t x hm => ?_⟩
  rw [g3] at hm
  exact (List.mem_append.mp hm).elim (h4 c t x) (g4 c t x)

/-- A subscription is refreshed: what holds after its first half. -/
theorem refresh_facts {D} {lim} (hD : Private D) {s s1 s2 : St (Val V)} {l : Links} {c cs o} (h : OI D lim (fun _ => False) s l) (htx : s.tx = .refreshing) (ht : s.todo = c :: cs)
    (h1 : ({ s with todo := cs }.emit (.refreshed c)).startRun c = .ok s1) (h2 : s1.observe lim c = .ok (s2, o)) :
    OI D lim (· = c) s2 l ∧ s2.vals = s.vals ∧ s2.defs = s.defs ∧ (∀ x, x ≠ c → s2.clients x = s.clients x) ∧
      ∃ cl cl2 v, s.clients c = some cl ∧ s2.clients c = some cl2 ∧ cl2.target = cl.target ∧ cl2.prev = some v ∧ Scratch s.vals s.defs cl.target v ∧
        (o = some v ∨ o = none ∧ cl.prev = some v) := by
  obtain ⟨ha, -, hS⟩ := private_star hD h.star
  have hs := (hS h.static).1
  have gg : Reactive.Good ({ s with todo := cs }.emit (.refreshed c)) :=
    ha.good.congr rfl rfl rfl rfl rfl rfl (fun _ _ => rfl) (fun _ => Iff.rfl)
  have hg1 := good_startRun gg h1
  have hsi1 := si_startRun (s := { s with todo := cs }.emit (.refreshed c)) (hs.si.congr (fun _ _ h => h) rfl (fun _ _ => rfl)) h1
  obtain ⟨cl0, v, k, g1, g2, g3, g4, g5, g6, g7, g8, g9, g10⟩ := observe_facts hD hg1 hsi1 h2
  obtain ⟨cl, hcl, e1⟩ : ∃ cl, s.clients c = some cl ∧ s1 = { ({ s with todo := cs }.emit (.refreshed c)) with
      clients := upd s.clients c (some { cl with running := true, fresh := [] }) } := by
    unfold St.startRun at h1
    split at h1 <;> cases h1
    rename_i cl hcl
    exact ⟨cl, hcl, rfl⟩
  have hv1 : s1.vals = s.vals := by rw [e1]; rfl
  have hd1 : s1.defs = s.defs := by rw [e1]; rfl
  have hl1 : s1.log = s.log ++ [.refreshed c] := by rw [e1]; rfl
  have hc1 : s1.clients = upd s.clients c (some { cl with running := true, fresh := [] }) := by rw [e1]
  have hcl0 : cl0 = { cl with running := true, fresh := [] } := by
    rw [hc1, upd_same] at g1; exact (Option.some.inj g1).symm
  have hfwd : ∀ x, x ≠ c → s2.clients x = s.clients x := fun x hx => by rw [g2, upd_ne _ hx, hc1, upd_ne _ hx]
  have hat : s2.clients c = some { cl0 with prev := some v } := by rw [g2, upd_same]
  have hlog : s2.log = s.log ++ (.refreshed c :: k) := by rw [g5, hl1]; simp
  have hrd := h.ready hcl
  have hsub : ∀ c' t a, .subscribed c' t a ∉ (.refreshed c :: k : List (Ev (Val V))) := by
    intro c' t a hm
    rcases List.mem_cons.mp hm with hm | hm
    · cases hm
    · exact g7 _ _ _ hm
  have hdone : Done s2.log := by rw [hlog]; exact h.done.ext hsub
  refine ⟨⟨h.star.tail (.refresh htx ht h.calm hcl hrd.2 h1 h2), ?_, ?_, hdone, ?_, h.n1, h.n2, ?_, ?_⟩,
    by rw [g3, hv1], by rw [g4, hd1], hfwd, cl, _, v, hcl, hat, ?_, rfl, ?_, ?_⟩
  · rw [hlog]; exact static_ext h.static fun id p hm => by
      rcases List.mem_cons.mp hm with hm | hm
      · cases hm
      · exact g8 id p hm
  · rw [hlog]; exact h.quiet.done h.done hsub
  · intro x cx hx
    by_cases hxc : x = c
    · subst hxc; rw [hat] at hx; cases hx; rw [hcl0]
      exact ⟨(h.flags x cl hcl).1, fun _ => rfl⟩
    · rw [hfwd x hxc] at hx
      exact ⟨(h.flags x cx hx).1, fun hr => ((h.flags x cx hx).2 hr).elim⟩
  · intro p hp
    obtain ⟨cx, hx⟩ := h.live p hp
    by_cases hxc : p.2 = c
    · exact ⟨_, by rw [hxc]; exact hat⟩
    · exact ⟨cx, by rw [hfwd _ hxc, hx]⟩
  · intro x cx hx
    by_cases hxc : x = c
    · subst hxc; exact h.owned x cl hcl
    · rw [hfwd x hxc] at hx; exact h.owned x cx hx
  · rw [hcl0]
  · rw [hv1, hd1, hcl0] at g9; exact g9
  · rw [hcl0] at g10; exact g10

/-- The end of the run of the subscription that is refreshed. -/
theorem end_run {D} {lim} {s s' : St (Val V)} {l : Links} {c} (h : OI D lim (· = c) s l) (hf : s.finishRun c = .ok s') :
    OI D lim (fun _ => False) s' l ∧ (∀ e : Fact (State V) V, Linked D s l e → Linked D s' l e) := by
  obtain ⟨cl, -, -, hc, -⟩ := finishRun_facts hf
  obtain ⟨a1, a2, a3, a4, a5⟩ := fill_over h.fi hc hf
  obtain ⟨cl', s1, k, h1, h2, h3, -, -, h6, h7⟩ := finishRun_facts hf
  refine ⟨⟨a1.star, a1.static, a1.quiet, ?_, ?_, a1.n1, a1.n2, a1.live, a1.owned⟩, fun e hL => hL.mono (fun c cl h1 h2 => ⟨h1, a4 c cl h2⟩) fun x p h => by rw [a3]; exact h⟩
  · rw [h6]
    refine h.done.ext fun c' t a hm => ?_
    rcases List.mem_append.mp hm with hm | hm
    · exact isConn_subscribed h7 _ _ _ hm
    · simp at hm
  · intro x cx hx
    refine ⟨(a1.flags x cx hx).1, fun hr => ?_⟩
    by_cases hxc : x = c
    · subst hxc; rw [a5 cx hx] at hr; cases hr
    · rw [h3, upd_ne _ hxc] at hx
      obtain ⟨cx', g1, g2, -⟩ := h2.bwd hx
      exact hxc ((h.flags x cx' g1).2 (by rw [← g2]; exact hr))

/-- The page after one subscription has run. -/
theorem run_agrees {views : List (View S V)} (hok : ∀ v ∈ views, v.Fine) {order : List (Inst S V) → List (Inst S V)}
    (hord : ∀ l, (order l).Perm l) {σ : S} {t : Sub} {b : Browser} {a : App S V} (h : Agree views b a) :
    ∃ b', Runs b (runAll σ order t a.body a.next).2.1 b' ∧
      Agree views b' ⟨(runAll σ order t a.body a.next).1, (runAll σ order t a.body a.next).2.2⟩ := by
  have hne : 3 ∉ idsAll a.body := fun h3 => absurd (h.ids 3 h3) (by decide)
  obtain ⟨b1, hb1, he1, -⟩ := runAll_ok (σ := σ) hord (s := t) a.body (L := []) (R := []) hok h.good h.usable h.holds h.fits h.nodup hne
    (by rw [h.body]; simp)
  have h1 : SameAt b b1 1 := he1.same 1 (by have := h.good.four; omega) (fun h1 => absurd (h.ids 1 h1) (by decide)) (by decide)
  exact ⟨b1, hb1, he1.good, h.usable.same he1.but, by rw [h1.children, h.html], by rw [he1.children]; simp, he1.holds, he1.fits, he1.nodup,
    fun x hx => (he1.ids x hx).elim (h.ids x) (Nat.le_trans h.good.four)⟩

theorem mount_inv {D} {lim} (hD : Private D) {views : List (View (State V) V)} (hok : ∀ v ∈ views, v.Fine) {s s' : St (Val V)} {l : Links} (h : Star (Code D lim) {} s)
    (hf : Star (Fill D lim (factsAll (App.start (contents s) views).1.body)) (s, []) (s', l))
    (hF : Filled (factsAll (App.start (contents s) views).1.body) (s', l)) :
    Inv D lim views ⟨s', (App.start (contents s) views).1, l, (App.start (contents s) views).2⟩ := by
  obtain ⟨c1, c2, c3, c4⟩ := code_star h
  obtain ⟨b1, cs, b2, b, e1, e2, e3, e4, hA, -⟩ := start_agrees hok (contents s)
  have hrun : Browser.init.run (App.start (contents s) views).2 = .ok b := by
    rw [e1]
    simp only [List.append_assoc, Verif.Dom.run_append, e2, e3.run, Browser.run, e4]
  have hnew := (createChildren_new (contents s) 3 views 4).1
  have hFI : FI D lim (fun _ => False) s [] := ⟨c1, c2, fun c pre t a mid post he => absurd (by rw [he]; simp) (c4 c t a),
    fun pre c t a post he => absurd (by rw [he]; simp) (c4 c t a), fun c cl hc => (by rw [c3] at hc; cases hc), by simp, by simp, by simp,
    fun c cl hc => (by rw [c3] at hc; cases hc)⟩
  have hu : Uniq (factsAll (App.start (contents s) views).1.body) := uniqAll _ hok hA.fits hA.nodup
  obtain ⟨a1, -, a3, a4⟩ := fill_star hD hu hf (σ := contents s) hFI rfl fun e he => Or.inr (Or.inr ⟨by simp, (hnew e he).1⟩)
  obtain ⟨f1, f2⟩ := filled a1 hF a3
  exact ⟨f1, ⟨b, hrun, hA⟩, fun p hp => (a4 p hp).resolve_left (by simp), f2⟩

theorem move_inv {D} {lim} (hD : Private D) {views : List (View (State V) V)} (hok : ∀ v ∈ views, v.Fine) {order : List (Inst (State V) V) → List (Inst (State V) V)}
    (hord : ∀ l, (order l).Perm l) {z z' : Sys V} (h : Inv D lim views z) (hm : Move D lim order z z') : Inv D lim views z' := by
  cases hm with
  | code hc =>
    obtain ⟨g1, g2, g3, ⟨k, g4, g5⟩, g6⟩ := code_facts (static_star h.core.star).1.good hc
    exact ⟨h.core.step g1 g4 g5 (g6 h.core.static) g2, h.page, h.subs,
      fun e he => (h.all e he).imp (fun hL => hL.mono (fun c cl h1 h2 => ⟨h1, cl, by simp only [g2]; exact h2, rfl, rfl⟩) g3) id⟩
  | @finish s a l o cs hd =>
    exact h.step (k := [.end_, .finish cs]) (.finish hd) (by simp [St.emit]) (by simp) (by simp) rfl rfl
  | @skip s a l o c cs htx ht hn =>
    exact h.step (k := [_]) (.skip htx ht h.core.calm (Or.inl hn)) rfl (by simp) (by simp) rfl rfl
  | idle htx ht => exact h.step (k := [_]) (.idle htx ht h.core.calm) rfl (by simp) (by simp) rfl rfl
  | @same s s1 s2 s' a l o c cs htx ht h1 h2 h3 =>
    obtain ⟨r1, r2, r3, r4, cl, cl2, v, r5, r6, r7, r8, r9, r10⟩ := refresh_facts hD h.core htx ht h1 h2
    obtain ⟨-, hp⟩ := r10.resolve_left (by simp)
    obtain ⟨f1, f2⟩ := end_run r1 h3
    refine ⟨f1, h.page, h.subs, fun e he => (h.all e he).imp (fun hL => f2 e (hL.mono (fun x cx hx1 hx2 => ⟨hx1, ?_⟩) fun x p h => by rw [r3]; exact h)) id⟩
    by_cases hxc : x = c
    · subst hxc; have hx2 := Option.some.inj (r5.symm.trans hx2); subst hx2
      exact ⟨cl2, r6, r7, by rw [r8, hp]⟩
    · exact ⟨cx, by rw [r4 x hxc]; exact hx2, rfl, rfl⟩
  | @update s s1 s2 s3 s4 s' a l l1 l2 o c cs t v htx ht h1 h2 hl hf hF hr hR h3 =>
    obtain ⟨r1, r2, r3, r4, cl, cl2, w, r5, r6, r7, r8, r9, r10⟩ := refresh_facts hD h.core htx ht h1 h2
    obtain ⟨b, hb, hA⟩ := h.page
    obtain ⟨b', hb', hA'⟩ := run_agrees hok hord (σ := contents s) (t := t) hA
    have hnext := (runAll_next (σ := contents s) (order := order) (s := t) a.body a.next hok hA.fits hA.nodup).1
    have hu : Uniq (factsAll (runAll (contents s) order t a.body a.next).1) := uniqAll _ hok hA'.fits hA'.nodup
    have hσ : contents s2 = contents s := by unfold contents; rw [r2]
    have hready : ∀ e ∈ factsAll (runAll (contents s) order t a.body a.next).1, Ready D (contents s) s2 l e := by
      intro e he
      rcases hnext e he with ⟨h4, h5⟩ | ⟨h4, h5, e0, h6, h7, h8⟩ | ⟨h4, h5⟩
      · refine (h.all e h4).imp (fun hL => hL.mono (fun x cx hx1 hx2 => ⟨hx1, ?_⟩) fun x p h => by rw [r3]; exact h) Or.inl
        have hxc : x ≠ c := by
          rintro rfl
          exact h5 (congrArg Prod.fst (inj_of_nodup h.core.n2 hx1 hl rfl))
        exact ⟨cx, by rw [r4 x hxc]; exact hx2, rfl, rfl⟩
      · rcases h.all e0 h6 with ⟨x, cx, hx1, hx2, hx3, hx4, hx5⟩ | hK
        · have hxc : x = c := by
            have := inj_of_nodup h.core.n1 hx1 hl h7
            exact congrArg Prod.snd this
          subst hxc
          have hx2 := Option.some.inj (r5.symm.trans hx2)
          subst hx2
          refine Or.inl ⟨x, cl2, by rw [h4]; exact hl, r6, by rw [r7, r3, ← h8]; exact hx3, ?_, by rw [r7]; exact hx5⟩
          rw [r8, hx3.value r9, h8, h5]
        · exact Or.inr (Or.inl fun τ => by rw [← h8, hK τ, ← h5, ← h8, hK])
      · refine Or.inr (Or.inr ⟨fun hm => ?_, h4⟩)
        obtain ⟨p, hp, hpe⟩ := List.mem_map.mp hm
        obtain ⟨e1, he1, hs1⟩ := List.mem_map.mp (h.subs p hp)
        have hlt := ids_lt hA.good hA.holds (factsAll_ids _ he1)
        rw [hs1, hpe] at hlt
        exact absurd h5 (Nat.not_le.mpr hlt)
    obtain ⟨a1, a2, a3, a4⟩ := fill_star hD hu hf (σ := contents s) r1.fi hσ hready
    obtain ⟨f1, f2⟩ := filled a1 hF a3
    obtain ⟨cl4, -, -, hc4, -⟩ := finishRun_facts h3
    obtain ⟨q1, q2, q3, q4⟩ := release_star hr f1 ⟨cl4, hc4⟩ f2
    obtain ⟨g1, g2⟩ := end_run q1 h3
    exact ⟨g1, ⟨b', (by simp only [Verif.Dom.run_append, hb, hb'.run]), hA'⟩, hR, fun e he => (q3 e he).imp (g2 e) id⟩

end Verif.Whole

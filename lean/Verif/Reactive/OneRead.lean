import Verif.Reactive.WorkProps
/-!
# C83: one read, conditional dependencies

If the conditional dependencies of the computeds are private (`Private`), then one read runs each closure at
most once. What has been run in a read is held: links lead from it to a node that a running closure has read,
and none of the nodes on the way can be released before the read ends.
-/
namespace Verif.Reactive

variable {V : Type} {D : GraphId → Prog V → Prop}

/-! ## Specification -/

/-- The computeds whose closures have been run, in this order. -/
def runsOf (work : List Work) : List GraphId :=
  work.filterMap fun w => match w with
    | .run id _ => some id
    | _ => none

/-! ## What is held -/

/-- Links lead from `x` to a node in `U`, and all nodes on the way have a cached value. -/
inductive Held (U : GraphId → Prop) (s : St V) : GraphId → Prop where
  | base {x} (hc : s.cache x ≠ none) (hu : U x) : Held U s x
  | link {x c} (hc : s.cache x ≠ none) (he : s.conn.E x c) (h : Held U s c) : Held U s x

theorem Held.cached {U : GraphId → Prop} {s : St V} {x} (h : Held U s x) : s.cache x ≠ none := by
  cases h <;> assumption

theorem Held.mono {U U' : GraphId → Prop} {s : St V} {x} (h : Held U s x) (hu : ∀ x, U x → U' x) : Held U' s x := by
  induction h with
  | base hc h => exact .base hc (hu _ h)
  | link hc he _ ih => exact .link hc he ih

/-- A link update keeps what is held by nodes that stay linked. -/
theorem Push.keeps {U : GraphId → Prop} {s s' : St V} {X N nodes} (hp : Push s X N s' nodes) (hX : s.cache X = none)
    (hown : ∀ q ∈ N, s'.conn.E q X)
    (hlink : ∀ u d, U u → s.cache u ≠ none → (s.conn.E u d ∨ (d = X ∧ u ∈ N)) → ¬ s'.conn.E u d →
      (∀ d, ¬ s'.conn.E u d) → False) {x} (h : Held U s x) :
    Held U s' x ∧ s'.cache x = s.cache x := by
  induction h with
  | @base x hc hu =>
    have : s'.cache x = s.cache x := by
      rw [hp.cache, if_neg]
      rintro ⟨_, hm, hn⟩
      have hno : ∀ c, ¬ s'.conn.E x c := by intro c h; unfold Conn.E at h; rw [hn] at h; cases h
      rcases (hp.spec.mem x).mp hm with h | ⟨h, _⟩ | ⟨c, h, h'⟩
      · exact hc (h ▸ hX)
      · exact hno X (hown x h)
      · exact hlink x c hu hc h h' hno
    exact ⟨.base (by rw [this]; exact hc) hu, this⟩
  | @link x c hc he hh ih =>
    have hE : s'.conn.E x c := by
      refine Classical.byContradiction fun hno => ?_
      rcases hp.spec.why x c (Or.inl he) hno with ⟨rfl, _⟩ | ⟨h1, d, h2⟩
      · exact hh.cached hX
      · cases ih.1 with
        | base hc' hu => exact hlink c d hu hh.cached h2 (h1 d) h1
        | link _ he' _ => exact h1 _ he'
    have : s'.cache x = s.cache x := by
      rw [hp.cache, if_neg]
      rintro ⟨_, _, hn⟩
      unfold Conn.E at hE; rw [hn] at hE; cases hE
    exact ⟨.link (by rw [this]; exact hc) hE ih.1, this⟩

/-- A link update runs nothing. -/
theorem applyInfo_runs (s : St V) (l) : ∃ seg, (s.applyInfo l).work = s.work ++ seg ∧ runsOf seg = [] := by
  induction l generalizing s with
  | nil => exact ⟨[], by simp [St.applyInfo], rfl⟩
  | cons e l ih =>
    obtain ⟨id, b⟩ := e
    rw [applyInfo_cons]
    have key : ∃ seg, (s.applyOne id b).work = s.work ++ seg ∧ runsOf seg = [] := by
      unfold St.applyOne
      split
      · exact ⟨[], by rw [(setConnection_work s id b).1]; simp, rfl⟩
      · split
        · exact ⟨[], by simp, rfl⟩
        · show ∃ seg, s.forgot id _ = _ ∧ _
          unfold St.forgot
          split
          · exact ⟨_, rfl, rfl⟩
          · exact ⟨[], by simp, rfl⟩
    obtain ⟨a, a1, a2⟩ := key
    obtain ⟨b, b1, b2⟩ := ih (s.applyOne id b)
    exact ⟨a ++ b, by rw [b1, a1]; simp, by unfold runsOf at *; rw [List.filterMap_append, a2, b2]; rfl⟩

theorem setParents_runs {s s' : St V} {X N} (h : s.setParents X N = .ok s') :
    ∃ seg, s'.work = s.work ++ seg ∧ runsOf seg = [] := by
  unfold St.setParents at h
  split at h
  · cases h
  · rename_i conn info hc
    cases h
    exact applyInfo_runs _ _

theorem runsOf_append (a b : List Work) : runsOf (a ++ b) = runsOf a ++ runsOf b := by
  simp [runsOf, List.filterMap_append]

/-- The result of reading `id` while the computeds `K` run. -/
structure Once (D : GraphId → Prog V → Prop) (K : List GraphId) (A : GraphId → Prop) (b : Nat) (s s' : St V) : Prop where
  work : ∃ seg, s'.work = s.work ++ seg ∧ (runsOf seg).Nodup ∧ (∀ w ∈ runsOf seg, Held A s' w) ∧
    ∀ U : GraphId → Prop, (∀ u, U u → ∃ y ∈ K, Reads D y u) → ∀ x, Held U s x → Held U s' x ∧ x ∉ runsOf seg
  fresh : ∀ x, b < x.num → s.cache x = none → s'.cache x = none

theorem Once.refl (K A b) (s : St V) : Once D K A b s s :=
  ⟨⟨[], by simp, by simp [runsOf], by simp [runsOf], fun _ _ _ h => ⟨h, by simp [runsOf]⟩⟩, fun _ _ h => h⟩

theorem Once.trans {K : List GraphId} {A A' A'' : GraphId → Prop} {b b' b''} {s1 s2 s3 : St V}
    (h1 : Once D K A b s1 s2) (h2 : Once D K A' b' s2 s3)
    (hr : ∀ u, A u → ∃ y ∈ K, Reads D y u) (hA : ∀ x, A x → A'' x) (hA' : ∀ x, A' x → A'' x)
    (hb : b ≤ b'') (hb' : b' ≤ b'') : Once D K A'' b'' s1 s3 := by
  obtain ⟨⟨g1, w1, n1, r1, p1⟩, f1⟩ := h1
  obtain ⟨⟨g2, w2, n2, r2, p2⟩, f2⟩ := h2
  refine ⟨⟨g1 ++ g2, by rw [w2, w1]; simp, ?_, ?_, ?_⟩, fun x hx hc => f2 x (by omega) (f1 x (by omega) hc)⟩
  · rw [runsOf_append, List.nodup_append]
    refine ⟨n1, n2, ?_⟩
    intro a ha c hc hac
    subst hac
    exact (p2 A hr a (r1 a ha)).2 hc
  · intro w hw
    rw [runsOf_append, List.mem_append] at hw
    rcases hw with hw | hw
    · exact (p2 A hr w (r1 w hw)).1.mono hA
    · exact (r2 w hw).mono hA'
  · intro U hU x hx
    obtain ⟨a1, a2⟩ := p1 U hU x hx
    obtain ⟨b1, b2⟩ := p2 U hU x a1
    refine ⟨b1, ?_⟩
    rw [runsOf_append, List.mem_append]
    rintro (h | h)
    · exact a2 h
    · exact b2 h

theorem getNode_once (hD : Private D) (n) : ∀ K (s : St V) id s' v, Good s → StackOK s K → SI D s → Above D K id →
    getNode n K s id = .ok (s', v) → Once D K (· = id) id.num s s' := by
  induction n with
  | zero => intro K s id s' v _ _ _ _ h; simp [getNode] at h
  | succ n ih =>
    intro K s id s' v hg hK hs hA h
    simp only [getNode] at h
    split at h
    · split at h <;> cases h; exact .refl _ _ _ _
    · rename_i hkind
      split at h
      · cases h
      rename_i p hp
      split at h
      · cases h; exact .refl _ _ _ _
      rename_i hnone
      split at h
      · cases h
      rename_i s1 w ctx hev
      split at h
      · cases h
      rename_i s2 hset
      cases h
      have hK1 : StackOK s (id :: K) := by
        intro x hx
        rcases List.mem_cons.mp hx with rfl | hx
        · exact Or.inl hnone
        · exact hK x hx
      have hDp := hs.defs id p hp
      have hrd : ∀ l, p.Path l → ∀ x ∈ l, Reads D id x := fun l hl x hx => ⟨p, l, hDp, hl, hx⟩
      have hab : ∀ l, p.Path l → ∀ x ∈ l, Above D (id :: K) x ∧ ∃ y ∈ id :: K, Reads D y x := by
        intro l hl x hx
        refine ⟨fun y hy => ?_, id, List.mem_cons_self, hrd l hl x hx⟩
        rcases List.mem_cons.mp hy with rfl | hy
        · exact .single (hrd l hl x hx)
        · exact (hA y hy).tail (hrd l hl x hx)
      -- the closure
      have evk : ∀ (q : Prog V) {s ctx s' v ctx'}, Good s → StackOK s (id :: K) → SI D s →
          (∀ l, q.Path l → ∀ x ∈ l, (Above D (id :: K) x ∧ Reads D id x) ∧ x.num < id.num) →
          q.eval (getNode n (id :: K)) s ctx = .ok (s', v, ctx') →
          ∃ l, ctx' = ctx ++ l ∧ Once D (id :: K) (· ∈ l.map (·.1)) (id.num - 1) s s' ∧
            (0 < id.num ∨ s' = s) := by
        intro q
        induction q with
        | ret w =>
          intro s ctx s' v ctx' _ _ _ _ h
          simp only [Prog.eval, Except.ok.injEq, Prod.mk.injEq] at h
          obtain ⟨rfl, rfl, rfl⟩ := h
          exact ⟨[], by simp, .refl _ _ _ _, Or.inr rfl⟩
        | read r k ihk =>
          intro s ctx s' v ctx' hg hK hs hab h
          simp only [Prog.eval] at h
          split at h
          · cases h
          · rename_i s1 w h1
            have hpath : ∀ q : Prog V, ∃ l, q.Path l := by
              intro q
              induction q with
              | ret v => exact ⟨[], .ret v⟩
              | read r kk ihq => obtain ⟨l, hl⟩ := ihq w; exact ⟨_, .read hl⟩
            obtain ⟨l0, hl0⟩ := hpath (k w)
            obtain ⟨⟨a1, a2⟩, a3⟩ := hab _ (.read hl0) r List.mem_cons_self
            have G := getNode_good n _ _ _ _ _ hg hK h1
            have G2 := getNode_kept hD n _ _ _ _ _ hg hK hs a1 h1
            have i1 := ih _ _ _ _ _ hg hK hs a1 h1
            obtain ⟨l, j0, j1, _⟩ := ihk w G.good G.stack G2.si
              (fun l hl x hx => hab _ (.read hl) x (List.mem_cons_of_mem _ hx)) h
            refine ⟨(r, s1.taint r) :: l, by rw [j0]; simp, ?_, Or.inl (by omega)⟩
            refine Once.trans i1 j1 ?_ ?_ ?_ (by omega) (Nat.le_refl _)
            · rintro u rfl; exact ⟨id, List.mem_cons_self, a2⟩
            · rintro x rfl; simp
            · intro x hx; simp only [List.map_cons, List.mem_cons]; exact Or.inr hx
      obtain ⟨k1, l, hl, hctx, -⟩ :=
        eval_kept (getNode_good n (id :: K)) (getNode_kept hD n (id :: K)) p hg hK1 hs hab hev
      simp only [List.nil_append] at hctx
      subst hctx
      obtain ⟨l', hl', hon, hz⟩ := evk p hg hK1 hs (fun l hl x hx =>
        ⟨⟨(hab l hl x hx).1, hrd l hl x hx⟩, hD.older _ _ (hrd l hl x hx)⟩) hev
      simp only [List.nil_append] at hl'
      subst hl'
      obtain ⟨g1, f1, st1, _, ts, e1, e2, e3⟩ := eval_good (getNode_good n (id :: K)) p hg hK1 hev
      simp only [List.nil_append] at e1
      obtain ⟨nodes, hp2⟩ := setParents_push g1.base.wf hset
      have hNl : ∀ q, q ∈ sOfList (ctx.map (·.1)) ↔ q ∈ ctx.map (·.1) := by
        intro q; rw [mem_sOfList]
      have hN : ∀ q ∈ sOfList (ctx.map (·.1)), q.num < id.num := fun q hq =>
        hD.older _ _ (hrd _ hl q ((hNl q).mp hq))
      have hsrc : ∀ q ∈ sOfList (ctx.map (·.1)), s1.Src q := by
        intro q hq
        rw [hNl, e1, List.map_map] at hq
        obtain ⟨t, ht, rfl⟩ := List.mem_map.mp hq
        exact (e3 t ht).1
      have hdef1 : s1.defs id = some p := by rw [f1.defs]; exact hp
      have hown : ∀ q ∈ sOfList (ctx.map (·.1)), s2.conn.E q id := by
        intro q hq
        refine Classical.byContradiction fun hno => ?_
        rcases hp2.spec.why q id (Or.inr ⟨rfl, hq⟩) hno with ⟨_, h1⟩ | ⟨h1, d, h2⟩
        · exact h1 hq
        · obtain ⟨z, j1, _, j3, _⟩ := hp2.lost g1.base k1.si hsrc hN h2 (h1 d)
          have a1 := hD.le j3
          have a2 := k1.si.num _ _ j1
          omega
      have hid : ∀ x, id.num ≤ x.num → s.cache x = none → s1.cache x = none := by
        intro x hx hc
        rcases hz with hz | rfl
        · exact hon.fresh x (by omega) hc
        · exact hc
      have hid1 := hid id (Nat.le_refl _) hnone
      have hkd : ∀ x, s1.cache x ≠ none → x.kind = .computed := fun x hx =>
        (g1.base.dkind x (g1.base.cached x hx)).1
      -- nodes that running closures read stay linked
      have hpush : ∀ U : GraphId → Prop, (∀ u, U u → u ∈ ctx.map (·.1) ∨ ∃ y ∈ K, Reads D y u) →
          ∀ x, Held U s1 x → Held U s2 x ∧ s2.cache x = s1.cache x := by
        intro U hU x hx
        refine hp2.keeps hid1 hown ?_ hx
        intro u d hu huc hud hno hno'
        rcases hU u hu with hin | ⟨y, hy, hyr⟩
        · exact hno' id (hown u ((hNl u).mpr hin))
        · obtain ⟨z, j1, j2, j3, j4⟩ := hp2.lost g1.base k1.si hsrc hN hud hno
          have huk := hkd u huc
          have hzk : z.kind = .computed := by
            rcases j4 with rfl | j4
            · exact huk
            · exact j4
          have hz : p.Sometimes z :=
            ⟨k1.si.par id p z hdef1 j1, _, hl, fun h => j2 ((hNl z).mpr h)⟩
          exact hD.priv id p z hDp hz hzk y u (hA y hy) j3 huk hyr
      -- the value of the node itself is stored
      have hfin : ∀ (U : GraphId → Prop) x, Held U s2 x →
          Held U ({ s2.mark K id ctx with
            cache := upd s2.cache id (some v), work := s2.work ++ [.run id (ctx.map (·.1))] } : St V) x := by
        have hc : ∀ y, s2.cache y ≠ none → upd s2.cache id (some v) y ≠ none := by
          intro y hy
          by_cases h : y = id
          · subst h; rw [upd_same]; simp
          · rw [upd_ne _ h]; exact hy
        intro U x hx
        induction hx with
        | base h hu => exact .base (hc _ h) hu
        | link h he _ ih => exact .link (hc _ h) he ih
      obtain ⟨⟨g, w1, n1, r1, p1⟩, _⟩ := hon
      obtain ⟨rel, w2, n2⟩ := setParents_runs hset
      have hroot : Held (· = id) ({ s2.mark K id ctx with
            cache := upd s2.cache id (some v), work := s2.work ++ [.run id (ctx.map (·.1))] } : St V) id :=
        .base (by show upd s2.cache id (some v) id ≠ none; rw [upd_same]; simp) rfl
      have hup : ∀ x, Held (· ∈ ctx.map (·.1)) s2 x → Held (· = id) ({ s2.mark K id ctx with
            cache := upd s2.cache id (some v), work := s2.work ++ [.run id (ctx.map (·.1))] } : St V) x := by
        intro x hx
        have := hfin _ _ hx
        clear hx
        induction this with
        | base hc hu => exact .link hc (hown _ ((hNl _).mpr hu)) hroot
        | link hc he _ ih => exact .link hc he ih
      have hruns : runsOf (g ++ rel ++ [.run id (ctx.map (·.1))]) = runsOf g ++ [id] := by
        rw [runsOf_append, runsOf_append, n2]; simp [runsOf]
      have hgid : id ∉ runsOf g := fun h => (r1 id h).cached hid1
      refine ⟨⟨g ++ rel ++ [.run id (ctx.map (·.1))], ?_, ?_, ?_, ?_⟩, ?_⟩
      · show s2.work ++ _ = _
        rw [w2, w1]; simp
      · rw [hruns, List.nodup_append]
        refine ⟨n1, by simp, ?_⟩
        intro a ha b hb heq
        simp only [List.mem_singleton] at hb
        rw [heq, hb] at ha; exact hgid ha
      · intro x hx
        rw [hruns, List.mem_append, List.mem_singleton] at hx
        rcases hx with hx | rfl
        · exact hup x (hpush _ (fun u hu => Or.inl hu) x (r1 x hx)).1
        · exact hroot
      · intro U hU x hx
        obtain ⟨a1, a2⟩ := p1 U (fun u hu => by
          obtain ⟨y, hy, h⟩ := hU u hu; exact ⟨y, List.mem_cons_of_mem _ hy, h⟩) x hx
        refine ⟨hfin U x (hpush U (fun u hu => Or.inr (hU u hu)) x a1).1, ?_⟩
        rw [hruns, List.mem_append, List.mem_singleton]
        rintro (h | rfl)
        · exact a2 h
        · exact hx.cached hnone
      · intro x hx hc
        show upd s2.cache id (some v) x = none
        rw [upd_ne]
        · rw [hp2.cache]; split
          · rfl
          · exact hid x (Nat.le_of_lt hx) hc
        · rintro rfl; exact Nat.lt_irrefl _ hx
    · cases h

variable [DecidableEq V]

/-- **C83 (part: one read, conditional dependencies).** If the conditional dependencies of the computeds are
private, then reading a node, at any moment of an execution, runs each closure at most once, and every
computed whose closure has been run has a cached value when the read ends. (Values that were cached before the
read may be released by it, and are then computed again at most once.) -/
theorem C83_one_read_private_partial {lim} {s s' : St V} {id v} (h : Star (Step lim) {} s)
    (hst : Private (defsOf s.log)) (hr : getNode lim [] s id = .ok (s', v)) :
    ∃ seg, s'.work = s.work ++ seg ∧ (runsOf seg).Nodup ∧ ∀ x ∈ runsOf seg, s'.cache x ≠ none := by
  obtain ⟨ha, _, hp⟩ := static_star h
  obtain ⟨hs, _⟩ := hp hst
  obtain ⟨⟨g, w, n1, r1, _⟩, _⟩ :=
    getNode_once hst _ _ _ _ _ _ ha.good (stackOK_nil s) hs.si (fun x hx => by cases hx) hr
  exact ⟨g, w, n1, fun x hx => (r1 x hx).cached⟩

/-- `y` reads `ca` or `cb` depending on `flag`; `z` reads `y` twice and `cc`, which reads `d`. -/
def choiceProgram : Act (Fin 16) :=
  .newValue 1 false fun flag => .newValue 1 false fun a =>
  .newComputed (.read a .ret) fun ca =>
  .newComputed (.read a fun u => .ret (u + 1)) fun cb =>
  .newComputed (.read a fun u => .ret (u + 2)) fun cc =>
  .newComputed (.read flag fun f => if f = 1 then .read ca .ret else .read cb .ret) fun y =>
  .newComputed (.read y fun u => .read cc fun v => .read y fun w => .ret (u + v + w)) fun z =>
  .subscribe z false false (fun _ => .done) fun _ =>
  .txBegin <| .write flag 2 false .done

/-- In the transaction, reading `z` runs `y`, which releases `ca` and runs `cb`, and `z`; `cc` is kept. -/
example : ∃ s s' v, choiceProgram.exec 20 = .ok s ∧ Private (defsOf s.log) ∧ ¬ StaticLog s.log ∧
    getNode 20 [] s ⟨.computed, 7⟩ = .ok (s', v) ∧
    s'.work = s.work ++ [.run ⟨.computed, 4⟩ [⟨.value, 2⟩], .released ⟨.computed, 3⟩ [],
      .run ⟨.computed, 6⟩ [⟨.value, 1⟩, ⟨.computed, 4⟩],
      .run ⟨.computed, 7⟩ [⟨.computed, 6⟩, ⟨.computed, 5⟩, ⟨.computed, 6⟩]] := by
  have hb : (match getNode 20 [] (final (choiceProgram.exec 20)) ⟨.computed, 7⟩ with
      | .ok (s', _) => decide (s'.work = (final (choiceProgram.exec 20)).work ++
          [.run ⟨.computed, 4⟩ [⟨.value, 2⟩], .released ⟨.computed, 3⟩ [],
            .run ⟨.computed, 6⟩ [⟨.value, 1⟩, ⟨.computed, 4⟩],
            .run ⟨.computed, 7⟩ [⟨.computed, 6⟩, ⟨.computed, 5⟩, ⟨.computed, 6⟩]])
      | .error _ => false) = true := by decide +kernel
  cases hg : getNode 20 [] (final (choiceProgram.exec 20)) ⟨.computed, 7⟩ with
  | error e => rw [hg] at hb; cases hb
  | ok r =>
    obtain ⟨s', v⟩ := r
    rw [hg] at hb
    exact ⟨_, s', v, final_of_isOk (by decide +kernel), private_of_check (by decide +kernel),
      not_static_of_check (z := ⟨.computed, 3⟩) (by decide +kernel), hg, of_decide_eq_true hb⟩

end Verif.Reactive

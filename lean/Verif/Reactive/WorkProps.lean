import Verif.Reactive.Work
import Verif.Reactive.Check
/-!
# C83: closures of computeds are run only when they have to be
-/
namespace Verif.Reactive

variable {V : Type}

/-! ## Static programs: one read -/

/-- An update that clears no cached value records nothing. -/
theorem applyInfo_nothing (s : St V) (l) (h : ∀ id, (id, false) ∈ l → s.cache id = none) :
    (s.applyInfo l).work = s.work := by
  induction l generalizing s with
  | nil => rfl
  | cons e l ih =>
    obtain ⟨id, b⟩ := e
    rw [applyInfo_cons]
    have key : (s.applyOne id b).work = s.work ∧ ∀ x, s.cache x = none → (s.applyOne id b).cache x = none := by
      unfold St.applyOne
      split
      · obtain ⟨e1, e2, _⟩ := setConnection_work s id b
        exact ⟨e1, fun x hx => by rw [e2]; exact hx⟩
      · split
        · exact ⟨rfl, fun _ h => h⟩
        · rename_i hb
          have hn := h id (by cases b with | false => exact List.mem_cons_self | true => exact absurd rfl hb)
          refine ⟨by simp [St.forgot, hn], fun x hx => ?_⟩
          show (s.clearCache id).cache x = none
          rw [clearCache_cache]; split
          · rfl
          · exact hx
    rw [ih _ (fun x hx => key.2 x (h x (List.mem_cons_of_mem _ hx))), key.1]

/-- Reading in a static program: nothing is thrown away. -/
structure Kept1 (s s' : St V) : Prop where
  cache : ∀ x v, s.cache x = some v → s'.cache x = some v
  work : ∃ l : List (GraphId × List GraphId), s'.work = s.work ++ l.map (fun e => .run e.1 e.2) ∧
    (l.map (·.1)).Nodup ∧ ∀ e ∈ l, s.cache e.1 = none ∧ s'.cache e.1 ≠ none

theorem Kept1.refl (s : St V) : Kept1 s s := ⟨fun _ _ h => h, [], by simp, by simp, by simp⟩

theorem Kept1.trans {a b c : St V} (h1 : Kept1 a b) (h2 : Kept1 b c) : Kept1 a c := by
  obtain ⟨c1, l1, e1, n1, m1⟩ := h1
  obtain ⟨c2, l2, e2, n2, m2⟩ := h2
  have keep : ∀ x, b.cache x ≠ none → c.cache x ≠ none := by
    intro x hx
    cases hv : b.cache x with
    | none => exact absurd hv hx
    | some v => rw [c2 x v hv]; simp
  refine ⟨fun x v h => c2 x v (c1 x v h), l1 ++ l2, by rw [e2, e1]; simp, ?_, ?_⟩
  · rw [List.map_append, List.nodup_append]
    refine ⟨n1, n2, fun a ha b' hb => ?_⟩
    obtain ⟨x, hx, rfl⟩ := List.mem_map.mp ha
    obtain ⟨y, hy, rfl⟩ := List.mem_map.mp hb
    intro he
    have := (m1 x hx).2
    rw [he] at this; exact this (m2 y hy).1
  · intro e he
    rcases List.mem_append.mp he with g | g
    · exact ⟨(m1 e g).1, keep _ (m1 e g).2⟩
    · refine ⟨?_, (m2 e g).2⟩
      cases hv : a.cache e.1 with
      | none => rfl
      | some v => have := c1 _ v hv; rw [(m2 e g).1] at this; cases this

variable {D : GraphId → Prog V → Prop}

theorem getNode_kept1 (hD : Private D) (hF : ∀ id p, D id p → ∃ R, p.Fixed R) (n) :
    ∀ K (s : St V) id s' v, Good s → StackOK s K → SI D s → Above D K id →
    getNode n K s id = .ok (s', v) →
    Kept1 s s' ∧ ∀ x, id.num < x.num → s.cache x = none → s'.cache x = none := by
  induction n with
  | zero => intro K s id s' v _ _ _ _ h; simp [getNode] at h
  | succ n ih =>
    intro K s id s' v hg hK hs hA h
    simp only [getNode] at h
    split at h
    · split at h <;> cases h; exact ⟨.refl _, fun _ _ h => h⟩
    · rename_i hkind
      split at h
      · cases h
      rename_i p hp
      split at h
      · cases h; exact ⟨.refl _, fun _ _ h => h⟩
      rename_i hnone
      split at h
      · cases h
      rename_i s1 w ctx hev
      split at h
      · cases h
      rename_i s2 hset
      cases h
      have hK1 : StackOK s (id :: K) := by
        intro x hx
        rcases List.mem_cons.mp hx with rfl | hx
        · exact Or.inl hnone
        · exact hK x hx
      have hDp := hs.defs id p hp
      have hrd : ∀ l, p.Path l → ∀ x ∈ l, Reads D id x := fun l hl x hx => ⟨p, l, hDp, hl, hx⟩
      have hab : ∀ l, p.Path l → ∀ x ∈ l, Above D (id :: K) x ∧ ∃ y ∈ id :: K, Reads D y x := by
        intro l hl x hx
        refine ⟨fun y hy => ?_, id, List.mem_cons_self, hrd l hl x hx⟩
        rcases List.mem_cons.mp hy with rfl | hy
        · exact .single (hrd l hl x hx)
        · exact (hA y hy).tail (hrd l hl x hx)
      have evk : ∀ (q : Prog V) {s ctx s' v ctx'}, Good s → StackOK s (id :: K) → SI D s →
          (∀ l, q.Path l → ∀ x ∈ l, Above D (id :: K) x ∧ x.num < id.num) →
          q.eval (getNode n (id :: K)) s ctx = .ok (s', v, ctx') →
          Kept1 s s' ∧ ∀ x, id.num ≤ x.num → s.cache x = none → s'.cache x = none := by
        intro q
        induction q with
        | ret w =>
          intro s ctx s' v ctx' _ _ _ _ h
          simp only [Prog.eval, Except.ok.injEq, Prod.mk.injEq] at h
          obtain ⟨rfl, rfl, rfl⟩ := h
          exact ⟨.refl _, fun _ _ h => h⟩
        | read r k ihk =>
          intro s ctx s' v ctx' hg hK hs hab h
          simp only [Prog.eval] at h
          split at h
          · cases h
          · rename_i s1 w h1
            have hpath : ∀ q : Prog V, ∃ l, q.Path l := by
              intro q
              induction q with
              | ret v => exact ⟨[], .ret v⟩
              | read r kk ihq => obtain ⟨l, hl⟩ := ihq w; exact ⟨_, .read hl⟩
            obtain ⟨l0, hl0⟩ := hpath (k w)
            obtain ⟨a1, a2⟩ := hab _ (.read hl0) r List.mem_cons_self
            have G := getNode_good n _ _ _ _ _ hg hK h1
            have G2 := getNode_kept hD n _ _ _ _ _ hg hK hs a1 h1
            obtain ⟨i1, i2⟩ := ih _ _ _ _ _ hg hK hs a1 h1
            obtain ⟨j1, j2⟩ := ihk w G.good G.stack G2.si
              (fun l hl x hx => hab _ (.read hl) x (List.mem_cons_of_mem _ hx)) h
            exact ⟨i1.trans j1, fun x hx hc => j2 x hx (i2 x (by omega) hc)⟩
      obtain ⟨k1, l, hl, hctx, -⟩ :=
        eval_kept (getNode_good n (id :: K)) (getNode_kept hD n (id :: K)) p hg hK1 hs hab hev
      simp only [List.nil_append] at hctx
      subst hctx
      obtain ⟨q1, q2⟩ := evk p hg hK1 hs (fun l hl x hx =>
        ⟨(hab l hl x hx).1, hD.older _ _ (hrd l hl x hx)⟩) hev
      obtain ⟨g1, f1, st1, _, ts, e1, e2, e3⟩ := eval_good (getNode_good n (id :: K)) p hg hK1 hev
      simp only [List.nil_append] at e1
      obtain ⟨nodes, hp2⟩ := setParents_push g1.base.wf hset
      have hNl : ∀ q, q ∈ sOfList (ctx.map (·.1)) ↔ q ∈ ctx.map (·.1) := by
        intro q; rw [mem_sOfList]
      have hN : ∀ q ∈ sOfList (ctx.map (·.1)), q.num < id.num := fun q hq =>
        hD.older _ _ (hrd _ hl q ((hNl q).mp hq))
      have hsrc : ∀ q ∈ sOfList (ctx.map (·.1)), s1.Src q := by
        intro q hq
        rw [hNl, e1, List.map_map] at hq
        obtain ⟨t, ht, rfl⟩ := List.mem_map.mp hq
        exact (e3 t ht).1
      have hdef1 : s1.defs id = some p := by rw [f1.defs]; exact hp
      obtain ⟨R, hR⟩ := hF id p hDp
      have hold : ∀ q, s1.conn.E q id → q ∈ sOfList (ctx.map (·.1)) := by
        intro q hq
        obtain ⟨l', a1, a2⟩ := k1.si.par id p q hdef1 hq
        rw [hNl]
        exact (hR _ hl q).mpr ((hR _ a1 q).mp a2)
      have hkeep := hp2.keep g1.base k1.si hsrc hN hold
      have hid : s1.cache id = none := q2 id (Nat.le_refl _) hnone
      have hca : ∀ x, s2.cache x = s1.cache x := by
        intro x
        by_cases hx : x = id
        · subst hx
          rw [hp2.cache]; split
          · exact hid.symm
          · rfl
        · exact hp2.cache_keep hkeep hx
      have hwork : s2.work = s1.work := by
        unfold St.setParents at hset
        split at hset
        · cases hset
        rename_i conn info hc
        cases hset
        refine applyInfo_nothing _ _ fun x hx => ?_
        have := hca x
        rw [applyInfo_cache] at this
        cases hkx : s1.cache x with
        | none => rfl
        | some u =>
          have hxk : x.kind = .computed := (g1.base.dkind x (g1.base.cached x (by rw [hkx]; simp))).1
          rw [if_pos ⟨hxk, hx⟩, hkx] at this
          cases this
      have last : Kept1 s1 ({ s2.mark K id ctx with
          cache := upd s2.cache id (some v), work := s2.work ++ [.run id (ctx.map (·.1))] } : St V) := by
        refine ⟨fun x u hx => ?_, [(id, ctx.map (·.1))], ?_, by simp, ?_⟩
        · show upd s2.cache id (some v) x = some u
          rw [upd_ne, hca]
          · exact hx
          · rintro rfl; rw [hid] at hx; cases hx
        · show s2.work ++ _ = _
          rw [hwork]; rfl
        · intro e he
          simp at he; subst he
          exact ⟨hid, by show upd s2.cache id (some v) id ≠ none; rw [upd_same]; simp⟩
      refine ⟨q1.trans last, fun x hx hc => ?_⟩
      show upd s2.cache id (some v) x = none
      rw [upd_ne, hca]
      · exact q2 x (Nat.le_of_lt hx) hc
      · rintro rfl; exact Nat.lt_irrefl _ hx
    · cases h

/-! ## C83 -/

theorem held_lost {id : GraphId} : ∀ (b a : List Work), held id a = true → held id (a ++ b) = false →
    ∃ b1 w b2, b = b1 ++ w :: b2 ∧ ((∃ x, w = .stale x id) ∨ ∃ r, w = .released id r) := by
  intro b
  induction b with
  | nil => intro a h1 h2; rw [List.append_nil, h1] at h2; cases h2
  | cons w b ih =>
    intro a h1 h2
    cases hw : held id (a ++ [w]) with
    | true =>
      obtain ⟨b1, w', b2, rfl, h⟩ := ih (a ++ [w]) hw (by simpa using h2)
      exact ⟨w :: b1, w', b2, rfl, h⟩
    | false =>
      refine ⟨[], w, b, rfl, ?_⟩
      rw [held_snoc] at hw
      cases w with
      | run x r => simp only at hw; split at hw <;> simp_all
      | stale y x =>
        simp only at hw; split at hw
        · rename_i e; subst e; exact Or.inl ⟨y, rfl⟩
        · rw [h1] at hw; cases hw
      | released x r =>
        simp only at hw; split at hw
        · rename_i e; subst e; exact Or.inr ⟨r, rfl⟩
        · rw [h1] at hw; cases hw

variable [DecidableEq V]

/-- **C83 (part: closures run only when they are needed).** In every execution of a program
whose computeds read nodes created before them:
* a closure is run only if user code has read or subscribed to a node that is, or can read
  through other computeds, the computed in question;
* between two runs of the same closure its value was discarded, and for a reason: a value
  was set that, going by what the closures had read in their last runs, the computed depends
  on; or at that moment nobody read the computed.
What is missing: that a computed is not released while a running closure has read it. -/
theorem C83_runs_needed_partial {lim} {a : Act V} {s : St V} (h : a.exec lim = .ok s)
    (ho : OlderLog s.log) :
    (∀ id reads, .run id reads ∈ s.work →
      ∃ t, Watched s.log t ∧ Relation.ReflTransGen (Reads (defsOf s.log)) t id) ∧
    (∀ id before r1 between r2 after,
      s.work = before ++ .run id r1 :: (between ++ .run id r2 :: after) →
      ∃ b1 w b2, between = b1 ++ w :: b2 ∧
        ((∃ x clients, w = .stale x id ∧ x.kind = .value ∧ .wrote x clients ∈ s.log ∧
            DependsOn (before ++ .run id r1 :: b1) id x) ∨
          w = .released id [])) := by
  obtain ⟨_, _, hw⟩ := work_star (exec_steps h)
  obtain ⟨w1, w2, w3⟩ := hw ho
  refine ⟨w2, ?_⟩
  intro id before r1 between r2 after heq
  have e2 : s.work = (before ++ .run id r1 :: between) ++ .run id r2 :: after := by rw [heq]; simp
  have hf : held id (before ++ .run id r1 :: between) = false := w1.ok _ _ _ e2
  have ht : held id (before ++ [.run id r1]) = true := by rw [held_snoc]; simp
  obtain ⟨b1, w, b2, rfl, hwq⟩ := held_lost between _ ht (by simpa using hf)
  refine ⟨b1, w, b2, rfl, ?_⟩
  have e3 : s.work = (before ++ .run id r1 :: b1) ++ w :: (b2 ++ .run id r2 :: after) := by rw [heq]; simp
  have hok := w1.ok _ _ _ e3
  rcases hwq with ⟨x, rfl⟩ | ⟨r, rfl⟩
  · obtain ⟨l, hl⟩ := w3 x id (by rw [e3]; simp)
    exact Or.inl ⟨x, l, rfl, hok.1, hl, hok.2⟩
  · have : r = [] := hok
    subst this; exact Or.inr rfl

/-- **C83 (part: one read).** If every computed always reads the same nodes, then reading a
node, at any moment of an execution, discards no cached value and runs each closure at most
once, and only closures of computeds without a cached value. -/
theorem C83_one_read_partial {lim} {s s' : St V} {id v} (h : Star (Step lim) {} s)
    (hst : StaticLog s.log) (hr : getNode lim [] s id = .ok (s', v)) :
    ∃ runs : List (GraphId × List GraphId),
      s'.work = s.work ++ runs.map (fun e => .run e.1 e.2) ∧ (runs.map (·.1)).Nodup ∧
      (∀ e ∈ runs, s.cache e.1 = none) ∧ ∀ x w, s.cache x = some w → s'.cache x = some w := by
  obtain ⟨ha, _, hp⟩ := static_star h
  obtain ⟨hs, _⟩ := hp hst.priv
  obtain ⟨⟨k1, l, k2, k3, k4⟩, _⟩ := getNode_kept1 hst.priv
    (fun id p hd => by obtain ⟨R, hR, _⟩ := hst id p hd; exact ⟨R, hR⟩)
    _ _ _ _ _ _ ha.good (stackOK_nil s) hs.si (fun x hx => by cases hx) hr
  exact ⟨l, k2, k3, fun e he => (k4 e he).1, k1⟩

/-! ### Examples -/

/-- Check of `OlderLog`. -/
def olderCheck {n : Nat} (log : List (Ev (Fin n))) : Bool :=
  log.all fun e => match e with
    | .defined id p => p.paths.all fun l => l.all fun x => decide (x.num < id.num)
    | _ => true

theorem olderLog_of_check {n : Nat} {log : List (Ev (Fin n))} (h : olderCheck log = true) : OlderLog log := by
  intro id p l x hm hp hx
  have := List.all_eq_true.mp h _ hm
  simp only [List.all_eq_true, decide_eq_true_eq] at this
  exact this l (Prog.path_mem hp) x hx

/-- A diamond: `d` reads `b` and `c`, which read `a`; `e` reads another value. -/
def workProgram : Act (Fin 16) :=
  .newValue 1 false fun v1 => .newValue 2 false fun v2 =>
  .newComputed (.read v1 .ret) fun a =>
  .newComputed (.read a fun x => .ret (x + 1)) fun b =>
  .newComputed (.read a fun x => .ret (x + 2)) fun c =>
  .newComputed (.read b fun x => .read c fun y => .ret (x + y)) fun d =>
  .newComputed (.read v2 .ret) fun e =>
  .newComputed (.read d .ret) fun _ =>
  .subscribe d false false (fun _ => .done) fun sub =>
  .get d fun _ => .get e fun _ => Act.set v2 3 <| Act.set v1 5 <| .get e fun _ => .dropSub sub <| .get d fun _ => .done

/-- The diamond is evaluated once at the subscription and once after `v1` was set; `e` again
after `v2` was set; the computed nobody reads never; and everything again after the
subscription has gone. -/
example : ∃ s, workProgram.exec 20 = .ok s ∧ OlderLog s.log ∧ StaticLog s.log ∧
    s.work = [.run ⟨.computed, 3⟩ [⟨.value, 1⟩], .run ⟨.computed, 4⟩ [⟨.computed, 3⟩],
      .run ⟨.computed, 5⟩ [⟨.computed, 3⟩], .run ⟨.computed, 6⟩ [⟨.computed, 4⟩, ⟨.computed, 5⟩],
      .run ⟨.computed, 7⟩ [⟨.value, 2⟩], .stale ⟨.value, 2⟩ ⟨.computed, 7⟩,
      .stale ⟨.value, 1⟩ ⟨.computed, 3⟩, .stale ⟨.value, 1⟩ ⟨.computed, 4⟩,
      .stale ⟨.value, 1⟩ ⟨.computed, 5⟩, .stale ⟨.value, 1⟩ ⟨.computed, 6⟩,
      .run ⟨.computed, 3⟩ [⟨.value, 1⟩], .run ⟨.computed, 4⟩ [⟨.computed, 3⟩],
      .run ⟨.computed, 5⟩ [⟨.computed, 3⟩], .run ⟨.computed, 6⟩ [⟨.computed, 4⟩, ⟨.computed, 5⟩],
      .run ⟨.computed, 7⟩ [⟨.value, 2⟩],
      .released ⟨.computed, 3⟩ [], .released ⟨.computed, 4⟩ [], .released ⟨.computed, 5⟩ [],
      .released ⟨.computed, 6⟩ [],
      .run ⟨.computed, 3⟩ [⟨.value, 1⟩], .run ⟨.computed, 4⟩ [⟨.computed, 3⟩],
      .run ⟨.computed, 5⟩ [⟨.computed, 3⟩], .run ⟨.computed, 6⟩ [⟨.computed, 4⟩, ⟨.computed, 5⟩]] := by
  refine ⟨_, final_of_isOk (by decide +kernel), olderLog_of_check (by decide +kernel),
    staticLog_of_check (by decide +kernel), by decide +kernel⟩

/-- `b` reads `x` while `v` is 1; `a` reads `x`, `b` and `c`; `c` reads `x`. -/
def twiceProgram : Act (Fin 16) :=
  .newValue 1 false fun v =>
  .newComputed (.read v .ret) fun x =>
  .newComputed (.read v fun u => if u = 1 then .read x .ret else .ret 7) fun b =>
  .newComputed (.read x .ret) fun c =>
  .newComputed (.read x fun p => .read b fun q => .read c fun r => .ret (p + q + r)) fun _ =>
  .subscribe b false false (fun _ => .done) fun _ =>
  .txBegin <| .write v 2 false .done

/-- **C83 is false** in general: one read of one computed can run the closure of another one
twice. The closure of `a` reads `x`; then it reads `b`, whose closure is run again and does
not read `x` any more; `x` is released, although `a` has read it; and when `c` reads `x` its
closure is run once more. -/
theorem C83_one_read_violated :
    ∃ (a : Act (Fin 16)) (s s' : St (Fin 16)) (id x : GraphId) (v : Fin 16) (r1 r2 : List GraphId)
      (w1 w2 w3 : List Work),
      a.exec 20 = .ok s ∧ OlderLog s.log ∧ getNode 20 [] s id = .ok (s', v) ∧
      s'.work = s.work ++ (w1 ++ .run x r1 :: (w2 ++ .run x r2 :: w3)) := by
  have hex : ∃ s' v, getNode 20 [] (final (twiceProgram.exec 20)) ⟨.computed, 5⟩ = .ok (s', v) ∧
      s'.work = (final (twiceProgram.exec 20)).work ++
        [.run ⟨.computed, 2⟩ [⟨.value, 1⟩], .released ⟨.computed, 2⟩ [], .run ⟨.computed, 3⟩ [⟨.value, 1⟩],
          .run ⟨.computed, 2⟩ [⟨.value, 1⟩], .run ⟨.computed, 4⟩ [⟨.computed, 2⟩],
          .run ⟨.computed, 5⟩ [⟨.computed, 2⟩, ⟨.computed, 3⟩, ⟨.computed, 4⟩]] := by
    have hb : (match getNode 20 [] (final (twiceProgram.exec 20)) ⟨.computed, 5⟩ with
      | .ok (s', _) => decide (s'.work = (final (twiceProgram.exec 20)).work ++
        [.run ⟨.computed, 2⟩ [⟨.value, 1⟩], .released ⟨.computed, 2⟩ [], .run ⟨.computed, 3⟩ [⟨.value, 1⟩],
          .run ⟨.computed, 2⟩ [⟨.value, 1⟩], .run ⟨.computed, 4⟩ [⟨.computed, 2⟩],
          .run ⟨.computed, 5⟩ [⟨.computed, 2⟩, ⟨.computed, 3⟩, ⟨.computed, 4⟩]])
      | .error _ => false) = true := by decide +kernel
    cases hg : getNode 20 [] (final (twiceProgram.exec 20)) ⟨.computed, 5⟩ with
    | error e => rw [hg] at hb; cases hb
    | ok r =>
      obtain ⟨s', v⟩ := r
      rw [hg] at hb
      exact ⟨s', v, rfl, of_decide_eq_true hb⟩
  obtain ⟨s', v, h1, h2⟩ := hex
  exact ⟨twiceProgram, _, s', ⟨.computed, 5⟩, ⟨.computed, 2⟩, v, _, _, [], [_, _], [_, _],
    final_of_isOk (by decide +kernel), olderLog_of_check (by decide +kernel), h1, h2⟩

end Verif.Reactive

import Verif.Reactive.GraphLemmas
/-!
# Properties of the dependency graph (C02, C03, C04)

Vocabulary: `g.pc.get p` are the consumers recorded for the producer `p`,
`g.cp.get c` the producers recorded for the consumer `c`.
-/
namespace Verif.Reactive

/-- A history of dependency updates: each step says "`client` now reads exactly
`parents`".  `none` would mean that an update did not terminate. -/
def runUpdates : Conn → List (GraphId × List GraphId) → Option Conn
  | g, [] => some g
  | g, (client, parents) :: rest =>
      match g.setParents client (sOfList parents) with
      | none => none
      | some (g', _) => runUpdates g' rest

/-- The graphs that some history of updates produces. -/
def Reachable (g : Conn) : Prop := ∃ ops, runUpdates Conn.empty ops = some g

theorem runUpdates_wf {g : Conn} (h : g.WF) (ops) : ∃ g', runUpdates g ops = some g' ∧ g'.WF := by
  induction ops generalizing g with
  | nil => exact ⟨g, rfl, h⟩
  | cons op ops ih =>
    obtain ⟨c, ps⟩ := op
    obtain ⟨⟨g1, info⟩, h1⟩ := Conn.setParents_some h c (sOfList ps)
    obtain ⟨nodes, hs, -⟩ := Conn.setParents_spec h h1
    obtain ⟨g', h2, h3⟩ := ih hs.wf
    exact ⟨g', by simp [runUpdates, h1, h2], h3⟩

theorem Reachable.wf {g : Conn} (h : Reachable g) : g.WF := by
  obtain ⟨ops, ho⟩ := h
  obtain ⟨g', h1, h2⟩ := runUpdates_wf Conn.WF.empty ops
  rw [h1] at ho; cases ho; exact h2

theorem Reachable.step {g : Conn} (h : Reachable g) {c ps g' info}
    (hs : g.setParents c (sOfList ps) = some (g', info)) : Reachable g' := by
  obtain ⟨ops, ho⟩ := h
  refine ⟨ops ++ [(c, ps)], ?_⟩
  have : ∀ g0 l, runUpdates g0 l = some g → runUpdates g0 (l ++ [(c, ps)]) = some g' := by
    intro g0 l
    induction l generalizing g0 with
    | nil => intro h; simp [runUpdates] at h; subst h; simp [runUpdates, hs]
    | cons a l ih =>
      obtain ⟨a, b⟩ := a
      simp only [runUpdates, List.cons_append]
      split
      · intro h; cases h
      · intro h; exact ih _ h
  exact this _ _ ho

/-! ## C02 -/

/-- **C02.** Every history of dependency updates runs to completion, and afterwards
the two indexes describe the same relation, no entry of either index is empty, no
id has two entries, and every stored set is strictly ascending (so it lists each
id once, in id order). -/
theorem C02_edges_consistent (ops : List (GraphId × List GraphId)) :
    ∃ g, runUpdates Conn.empty ops = some g ∧
      (∀ p c, c ∈ g.pc.get p ↔ p ∈ g.cp.get c) ∧
      (∀ e ∈ g.pc, e.2 ≠ []) ∧ (∀ e ∈ g.cp, e.2 ≠ []) ∧
      (g.pc.map (·.1)).Nodup ∧ (g.cp.map (·.1)).Nodup ∧
      (∀ e ∈ g.pc, e.2.Pairwise GraphId.lt) ∧ (∀ e ∈ g.cp, e.2.Pairwise GraphId.lt) := by
  obtain ⟨g, h1, h2⟩ := runUpdates_wf Conn.WF.empty ops
  exact ⟨g, h1, h2.inv, h2.pc.nonempty, h2.cp.nonempty, h2.pc.keys, h2.cp.keys, h2.pc.asc, h2.cp.asc⟩

section examples
def v (n : Nat) : GraphId := ⟨.value, n⟩
def k (n : Nat) : GraphId := ⟨.computed, n⟩
def c (n : Nat) : GraphId := ⟨.client, n⟩

/-- A diamond `v1 → k3, k4 → k5 → c6` with a second source `v2 → k4`. -/
def diamond : List (GraphId × List GraphId) :=
  [(k 3, [v 1]), (k 4, [v 2, v 1]), (k 5, [k 4, k 3]), (c 6, [k 5])]

example : ∃ g, runUpdates Conn.empty diamond = some g ∧
    g.pc.get (v 1) = [k 3, k 4] ∧ g.cp.get (k 4) = [v 1, v 2] := ⟨_, rfl, by decide, by decide⟩
end examples

/-! ## C03 -/

/-- **C03.** In every reachable graph the computation of the invalidated nodes
terminates, lists exactly the ids reachable from the changed one through recorded
reads (one or more steps), and lists each of them once. -/
theorem C03_invalidates_exactly_transitive {g : Conn} (_h : Reachable g) (id : GraphId) :
    ∃ r, g.allDeps id = some r ∧ r.Nodup ∧
      ∀ y, y ∈ r ↔ Relation.TransGen (fun producer consumer => consumer ∈ g.pc.get producer) id y := by
  obtain ⟨r, h1, h2, h3⟩ := g.allDeps_spec id
  exact ⟨r, h1, asc_nodup h3, h2⟩

example : ∃ g, runUpdates Conn.empty diamond = some g ∧
    g.allDeps (v 1) = some [k 3, k 4, k 5, c 6] ∧ g.allDeps (v 2) = some [k 4, k 5, c 6] :=
  ⟨_, rfl, by decide, by decide⟩

/-! ## C04 -/

/-- **C04 (termination).** An update of the producers of any node of any reachable
graph terminates. -/
theorem C04_update_terminates {g : Conn} (h : Reachable g) (client : GraphId) (parents : List GraphId) :
    ∃ r, g.setParents client (sOfList parents) = some r :=
  Conn.setParents_some h.wf _ _

/-- **C04 (release).** After an update a node that lost its last consumer in it has
no producers any more, and it is reported as inactive (which clears its cache or
closes its external connection). "Lost": it had a consumer before. -/
theorem C04_abandoned_released {g : Conn} (h : Reachable g) {client parents g' info}
    (hs : g.setParents client (sOfList parents) = some (g', info)) (x : GraphId)
    (hbefore : g.pc.get x ≠ []) (hafter : g'.pc.get x = []) :
    g'.cp.get x = [] ∧ (x, false) ∈ info := by
  obtain ⟨nodes, S, hi⟩ := Conn.setParents_spec h.wf hs
  have hex : ∃ d, g.E x d := by
    cases hd : g.pc.get x with
    | nil => exact absurd hd hbefore
    | cons a l => exact ⟨a, by simp [Conn.E, hd]⟩
  have hno : ∀ d, ¬ g'.E x d := by intro d; simp [Conn.E, hafter]
  constructor
  · have hd := S.dead x (by obtain ⟨d, hd⟩ := hex; exact ⟨d, Or.inl hd⟩) hno
    apply List.eq_nil_iff_forall_not_mem.mpr
    intro p hp
    exact hd p ((S.wf.inv p x).mpr hp)
  · subst hi
    have : x ∈ nodes := by
      obtain ⟨d, hd⟩ := hex
      exact (S.mem x).mpr (Or.inr (Or.inr ⟨d, Or.inl hd, hno d⟩))
    simp only [Conn.activeInfo, List.mem_map]
    exact ⟨x, this, by simp [hafter]⟩

/-- **C04 (release, recursively).** After an update no chain of recorded reads is
left behind below a node that lost its last consumer: every producer all of whose
remaining consumers were such nodes has no consumer left, and hence (by the
previous theorem) no producers either. -/
theorem C04_released_recursively {g : Conn} (h : Reachable g) {client parents g' info}
    (hs : g.setParents client (sOfList parents) = some (g', info)) (p : GraphId)
    (hbefore : g.pc.get p ≠ [])
    (hdead : ∀ x ∈ g.pc.get p, x ≠ client ∧ g.pc.get x ≠ [] ∧ g'.pc.get x = [])
    (hnew : p ∉ parents) :
    g'.pc.get p = [] ∧ g'.cp.get p = [] ∧ (p, false) ∈ info := by
  obtain ⟨nodes, S, hi⟩ := Conn.setParents_spec h.wf hs
  have : g'.pc.get p = [] := by
    apply List.eq_nil_iff_forall_not_mem.mpr
    intro x hx
    rcases S.sub p x hx with h1 | ⟨-, h2⟩
    · obtain ⟨-, ha, hb⟩ := hdead x h1
      have := (C04_abandoned_released h hs x ha hb).1
      have hx' := (S.wf.inv p x).mp hx
      rw [this] at hx'; simp at hx'
    · exact hnew (mem_sOfList.mp h2)
  exact ⟨this, C04_abandoned_released h hs p hbefore this⟩

/-- **C04 (keep).** Every node other than the updated one that still has a consumer
after the update keeps exactly the producers it had. -/
theorem C04_observed_keeps_links {g : Conn} (h : Reachable g) {client parents g' info}
    (hs : g.setParents client (sOfList parents) = some (g', info)) (x : GraphId)
    (hx : x ≠ client) (hobs : g'.pc.get x ≠ []) (p : GraphId) :
    p ∈ g'.cp.get x ↔ p ∈ g.cp.get x := by
  obtain ⟨nodes, S, hi⟩ := Conn.setParents_spec h.wf hs
  rw [← S.wf.inv, ← h.wf.inv]
  constructor
  · intro he
    rcases S.sub p x he with h1 | h2
    · exact h1
    · exact absurd h2.1 hx
  · intro he
    by_cases hc : g'.E p x
    · exact hc
    · exfalso
      rcases S.why p x (Or.inl he) hc with h1 | h1
      · exact hx h1.1
      · apply hobs
        apply List.eq_nil_iff_forall_not_mem.mpr
        intro d hd; exact h1.1 d hd

/-- **C04 (keep, bystanders).** A node other than the updated one that had no
consumer before and is not newly read keeps its producers as well: updates never
touch what they do not abandon. -/
theorem C04_bystander_keeps_links {g : Conn} (h : Reachable g) {client parents g' info}
    (hs : g.setParents client (sOfList parents) = some (g', info)) (x : GraphId)
    (hx : x ≠ client) (hno : g.pc.get x = []) (hnew : x ∉ parents) (p : GraphId) :
    p ∈ g'.cp.get x ↔ p ∈ g.cp.get x := by
  obtain ⟨nodes, S, hi⟩ := Conn.setParents_spec h.wf hs
  rw [← S.wf.inv, ← h.wf.inv]
  constructor
  · intro he
    rcases S.sub p x he with h1 | h2
    · exact h1
    · exact absurd h2.1 hx
  · intro he
    by_cases hc : g'.E p x
    · exact hc
    · exfalso
      rcases S.why p x (Or.inl he) hc with h1 | ⟨-, d, h1⟩
      · exact hx h1.1
      · rcases h1 with h1 | h1
        · simp [Conn.E, hno] at h1
        · exact hnew (mem_sOfList.mp h1.2)

/-- The recorded reads are acyclic: some numbering of the nodes makes every consumer
higher than what it reads. When every closure reads only nodes that existed before it,
the id numbers themselves are such a numbering; for lazily created producers another
one is needed. -/
def Acyclic (rank : GraphId → Nat) (ops : List (GraphId × List GraphId)) : Prop :=
  ∀ op ∈ ops, ∀ p ∈ op.2, rank p < rank op.1

instance (rank ops) : Decidable (Acyclic rank ops) := by unfold Acyclic; infer_instance

theorem acyclic_edges {rank ops g} (ho : Acyclic rank ops) (hr : runUpdates Conn.empty ops = some g) :
    ∀ p c, g.E p c → rank p < rank c := by
  have : ∀ (g0 : Conn) l, g0.WF → (∀ p c, g0.E p c → rank p < rank c) → Acyclic rank l →
      runUpdates g0 l = some g → ∀ p c, g.E p c → rank p < rank c := by
    intro g0 l
    induction l generalizing g0 with
    | nil => intro _ h0 _ h; simp [runUpdates] at h; subst h; exact h0
    | cons op l ih =>
      obtain ⟨c0, ps⟩ := op
      intro hw h0 hl h
      simp only [runUpdates] at h
      split at h
      · cases h
      · rename_i g1 info h1
        obtain ⟨nodes, S, -⟩ := Conn.setParents_spec hw h1
        refine ih g1 S.wf ?_ (fun op h => hl op (List.mem_cons_of_mem _ h)) h
        intro p c he
        rcases S.sub p c he with h2 | ⟨rfl, h2⟩
        · exact h0 p c h2
        · exact hl _ List.mem_cons_self p (mem_sOfList.mp h2)
  exact this _ _ Conn.WF.empty (by intro p c h; simp [Conn.E, Conn.empty, Rel.get] at h) ho hr

/-- **C04 (the updated node itself).** When the reads are acyclic,
the updated node ends up with exactly the producers it read, and it keeps all of
its consumers. -/
theorem C04_updated_node {rank ops g client parents g' info} (ho : Acyclic rank (ops ++ [(client, parents)]))
    (hr : runUpdates Conn.empty ops = some g)
    (hs : g.setParents client (sOfList parents) = some (g', info)) (p : GraphId) :
    (p ∈ g'.cp.get client ↔ p ∈ parents) ∧ (p ∈ g'.pc.get client ↔ p ∈ g.pc.get client) := by
  have hR : Reachable g := ⟨ops, hr⟩
  obtain ⟨nodes, S, hi⟩ := Conn.setParents_spec hR.wf hs
  have hE := acyclic_edges (fun op h => ho op (by simp [h])) hr
  have hN : ∀ p ∈ parents, rank p < rank client := ho (client, parents) (by simp)
  have hlt : ∀ a b, (g.E a b ∨ (b = client ∧ a ∈ sOfList parents)) → rank a < rank b := by
    intro a b h
    rcases h with h | ⟨rfl, h⟩
    · exact hE a b h
    · exact hN a (mem_sOfList.mp h)
  have hT : ∀ a b, Relation.TransGen (fun a b => g.E a b ∨ (b = client ∧ a ∈ sOfList parents)) a b →
      rank a < rank b := by
    intro a b h
    induction h with
    | single h => exact hlt _ _ h
    | tail _ h ih => exact Nat.lt_trans ih (hlt _ _ h)
  have hkeep : ∀ d, g.E client d → g'.E client d := by
    intro d hd
    by_cases hc : g'.E client d
    · exact hc
    · exact absurd (hT _ _ (S.anc client d (Or.inl hd) hc)) (Nat.lt_irrefl _)
  constructor
  · rw [← S.wf.inv]
    constructor
    · intro h; exact mem_sOfList.mp (S.own p h)
    · intro h
      by_cases hc : g'.E p client
      · exact hc
      · exfalso
        rcases S.why p client (Or.inr ⟨rfl, mem_sOfList.mpr h⟩) hc with h1 | ⟨h1, d, h2⟩
        · exact h1.2 (mem_sOfList.mpr h)
        · rcases h2 with h2 | ⟨-, h2⟩
          · exact h1 d (hkeep d h2)
          · exact absurd (hN _ (mem_sOfList.mp h2)) (Nat.lt_irrefl _)
  · constructor
    · intro h
      rcases S.sub client p h with h1 | ⟨-, h2⟩
      · exact h1
      · exact absurd (hN _ (mem_sOfList.mp h2)) (Nat.lt_irrefl _)
    · exact hkeep p

/-- Specification: the nodes abandoned when `client` switches to `parents`. A node is
abandoned when it had consumers, is not newly read, and every consumer either is
`client`, which stopped reading it, or is itself abandoned. -/
inductive Abandoned (g : Conn) (client : GraphId) (parents : List GraphId) : GraphId → Prop where
  | mk (x : GraphId) (consumer : ∃ d, d ∈ g.pc.get x) (notRead : x ∉ parents)
      (all : ∀ d ∈ g.pc.get x, d ≠ client → Abandoned g client parents d) :
      Abandoned g client parents x

theorem rank_le_sum (rank : GraphId → Nat) {l : List GraphId} {y} (h : y ∈ l) : rank y ≤ (l.map rank).sum := by
  induction l with
  | nil => simp at h
  | cons a l ih =>
    simp only [List.map_cons, List.sum_cons]
    rcases List.mem_cons.mp h with rfl | h
    · omega
    · have := ih h; omega

/-- **C04 (exact effect).** When the reads are acyclic, the links
after an update are exactly: for the updated node what it read; nothing for the
abandoned nodes; for every other node what it had before. -/
theorem C04_exact {rank ops g client parents g' info} (ho : Acyclic rank (ops ++ [(client, parents)]))
    (hr : runUpdates Conn.empty ops = some g)
    (hs : g.setParents client (sOfList parents) = some (g', info)) (p x : GraphId) :
    p ∈ g'.cp.get x ↔
      (x = client ∧ p ∈ parents) ∨
      (x ≠ client ∧ ¬ Abandoned g client parents x ∧ p ∈ g.cp.get x) := by
  have hR : Reachable g := ⟨ops, hr⟩
  have hU := C04_updated_node ho hr hs
  by_cases hx : x = client
  · subst hx; simp [(hU p).1]
  obtain ⟨nodes, S, hi⟩ := Conn.setParents_spec hR.wf hs
  have hE := acyclic_edges (fun op h => ho op (by simp [h])) hr
  have fwd : ∀ y, Abandoned g client parents y → ∀ d, ¬ g'.E y d := by
    intro y hy
    induction hy with
    | mk y hc hn ha ih =>
      intro d hd
      rcases S.sub y d hd with h1 | ⟨-, h2⟩
      · by_cases hdc : d = client
        · subst hdc; exact hn (mem_sOfList.mp (S.own y hd))
        · have h3 := ha d h1 hdc
          have h4 := ih d h1 hdc
          obtain ⟨_, ⟨e, he⟩, _, _⟩ := h3
          exact S.dead d ⟨e, Or.inl he⟩ h4 y hd
      · exact hn (mem_sOfList.mp h2)
  have bwd : ∀ n y, (g.pc.targets.map rank).sum - rank y ≤ n →
      (∃ d, g.E y d) → (∀ d, ¬ g'.E y d) → Abandoned g client parents y := by
    intro n
    induction n with
    | zero =>
      intro y hn hex _
      obtain ⟨d, hd⟩ := hex
      exfalso
      have h1 := hE _ _ hd
      have h2 := rank_le_sum rank (Rel.mem_targets hd)
      omega
    | succ n ih =>
      intro y hn hex hno
      refine Abandoned.mk y hex ?_ ?_
      · intro hp
        have := ((hU y).1.mpr hp)
        exact hno _ ((S.wf.inv _ _).mpr this)
      · intro d hd hdc
        · rcases S.why y d (Or.inl hd) (hno d) with h1 | ⟨h1, e, h2⟩
          · exact absurd h1.1 hdc
          · have h3 := hE _ _ hd
            have h4 := rank_le_sum rank (Rel.mem_targets hd)
            rcases h2 with h2 | ⟨rfl, h2⟩
            · exact ih d (by omega) ⟨e, h2⟩ h1
            · exact absurd ((S.wf.inv _ _).mpr ((hU d).1.mpr (mem_sOfList.mp h2))) (h1 _)
  simp only [hx, false_and, false_or, ne_eq, not_false_eq_true, true_and]
  rw [← S.wf.inv, ← hR.wf.inv]
  constructor
  · intro he
    rcases S.sub p x he with h1 | h2
    · refine ⟨fun ha => ?_, h1⟩
      have h3 := fwd x ha
      obtain ⟨_, ⟨e, hc⟩, _, _⟩ := ha
      exact S.dead x ⟨e, Or.inl hc⟩ h3 p he
    · exact absurd h2.1 hx
  · rintro ⟨ha, he⟩
    by_cases hc : g'.E p x
    · exact hc
    · exfalso
      rcases S.why p x (Or.inl he) hc with h1 | ⟨h1, d, h2⟩
      · exact hx h1.1
      · rcases h2 with h2 | ⟨rfl, h2⟩
        · exact ha (bwd _ x (Nat.le_refl _) ⟨d, h2⟩ h1)
        · exact absurd ((S.wf.inv _ _).mpr ((hU x).1.mpr (mem_sOfList.mp h2))) (h1 _)

/-- Dropping the subscriber of the diamond releases all of it; with a second
subscriber on `k4` only the private part goes. -/
example : ∃ g, runUpdates Conn.empty (diamond ++ [(c 6, [])]) = some g ∧
    g.cp.get (k 5) = [] ∧ g.cp.get (k 3) = [] ∧ g.cp.get (k 4) = [] := ⟨_, rfl, by decide, by decide, by decide⟩
example : ∃ g, runUpdates Conn.empty (diamond ++ [(c 7, [k 4]), (c 6, [])]) = some g ∧
    g.cp.get (k 5) = [] ∧ g.cp.get (k 3) = [] ∧ g.cp.get (k 4) = [v 1, v 2] :=
  ⟨_, rfl, by decide, by decide, by decide⟩
example : Acyclic GraphId.num (diamond ++ [(c 7, [k 4])]) := by decide

end Verif.Reactive

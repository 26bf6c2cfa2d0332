import Verif.Reactive.LogSteps
import Mathlib.Logic.Relation
/-!
# Programs whose conditional dependencies are private

A computed may read different nodes depending on the values it reads. The invariant of this
file needs one condition: if a computed `y` reads the computed `z` only sometimes, then no
computed that depends on `y` reads `z`, or a computed `z` depends on, by itself. Plain values
may be read in any way. Programs whose computeds always read the same nodes are a special
case.
-/
namespace Verif.Reactive

variable {V : Type}

/-- `Path p l`: with suitable values, `p` reads exactly the nodes `l`, in this order. -/
inductive Prog.Path : Prog V → List GraphId → Prop where
  | ret (v) : Prog.Path (.ret v) []
  | read {id k v l} : Prog.Path (k v) l → Prog.Path (.read id k) (id :: l)

/-- Whatever the values are, `p` reads exactly the nodes in `R`. -/
def Prog.Fixed (p : Prog V) (R : List GraphId) : Prop := ∀ l, p.Path l → ∀ x, x ∈ l ↔ x ∈ R

/-- Every computed created so far always reads the same nodes, which were created before
it. -/
def StaticLog (log : List (Ev V)) : Prop :=
  ∀ id p, .defined id p ∈ log → ∃ R, p.Fixed R ∧ ∀ r ∈ R, r.num < id.num

/-- `p` reads `z` with some values and does not read it with other values. -/
def Prog.Sometimes (p : Prog V) (z : GraphId) : Prop :=
  (∃ l, p.Path l ∧ z ∈ l) ∧ ∃ l, p.Path l ∧ z ∉ l

/-- The computed `x`, created with a closure that `D` mentions, can read `y`. -/
def Reads (D : GraphId → Prog V → Prop) (x y : GraphId) : Prop := ∃ p l, D x p ∧ p.Path l ∧ y ∈ l

/-- Computeds read nodes created before them, and their conditional dependencies are
private: if `y` reads the computed `z` only sometimes, then no `x` that depends on `y` reads
`z`, or a computed that `z` depends on, by itself. -/
structure Private (D : GraphId → Prog V → Prop) : Prop where
  older : ∀ x y, Reads D x y → y.num < x.num
  priv : ∀ y p z, D y p → p.Sometimes z → z.kind = .computed →
    ∀ x w, Relation.TransGen (Reads D) x y → Relation.ReflTransGen (Reads D) z w → w.kind = .computed →
      ¬ Reads D x w

/-- `x` is neither a conditional dependency of a computed nor something that such a
conditional dependency depends on. -/
def Steady (D : GraphId → Prog V → Prop) (x : GraphId) : Prop :=
  ∀ y p z, D y p → p.Sometimes z → z.kind = .computed → ¬ Relation.ReflTransGen (Reads D) z x

/-- The closures of all computeds created so far. -/
def defsOf (log : List (Ev V)) : GraphId → Prog V → Prop := fun id p => .defined id p ∈ log

theorem Prog.Fixed.not_sometimes {p : Prog V} {R z} (h : p.Fixed R) : ¬ p.Sometimes z := by
  rintro ⟨⟨l, h1, h2⟩, l', h3, h4⟩
  exact h4 ((h l' h3 z).mpr ((h l h1 z).mp h2))

theorem StaticLog.priv {log : List (Ev V)} (h : StaticLog log) : Private (defsOf log) := by
  refine ⟨?_, ?_⟩
  · rintro x y ⟨p, l, h1, h2, h3⟩
    obtain ⟨R, hR, hn⟩ := h x p h1
    exact hn y ((hR l h2 y).mp h3)
  · intro y p z hd hz
    obtain ⟨R, hR, _⟩ := h y p hd
    exact absurd hz hR.not_sometimes

theorem StaticLog.steady {log : List (Ev V)} (h : StaticLog log) (x) : Steady (defsOf log) x := by
  intro y p z hd hz
  obtain ⟨R, hR, _⟩ := h y p hd
  exact absurd hz hR.not_sometimes

theorem Private.lt {D : GraphId → Prog V → Prop} (h : Private D) {x y} (hxy : Relation.TransGen (Reads D) x y) :
    y.num < x.num := by
  induction hxy with
  | single h1 => exact h.older _ _ h1
  | tail _ h1 ih => exact Nat.lt_trans (h.older _ _ h1) ih

theorem Private.le {D : GraphId → Prog V → Prop} (h : Private D) {x y} (hxy : Relation.ReflTransGen (Reads D) x y) :
    y.num ≤ x.num := by
  induction hxy with
  | refl => exact Nat.le_refl _
  | tail _ h1 ih => exact Nat.le_trans (Nat.le_of_lt (h.older _ _ h1)) ih

theorem Trace.path {p : Prog V} {v rs} (h : Trace p v rs) : p.Path (rs.map (·.1)) := by
  induction h with
  | ret v => exact .ret v
  | read _ ih => exact .read ih

/-- The invariant for such programs. -/
structure SI (D : GraphId → Prog V → Prop) (s : St V) : Prop where
  defs : ∀ id p, s.defs id = some p → D id p
  num : ∀ p c, s.conn.E p c → p.num < c.num
  par : ∀ c p q, s.defs c = some p → s.conn.E q c → ∃ l, p.Path l ∧ q ∈ l
  clean : ∀ x, x.kind ≠ .client → s.taint x = false

variable {D : GraphId → Prog V → Prop}

theorem SI.reads {s : St V} (h : SI D s) (hb : Base s) {q c} (he : s.conn.E q c) (hk : c.kind = .computed) :
    Reads D c q := by
  rcases hb.dst q c he with ⟨_, hd⟩ | ⟨h1, _⟩
  · cases hp : s.defs c with
    | none => exact absurd hp hd
    | some p =>
      obtain ⟨l, h1, h2⟩ := h.par c p q hp he
      exact ⟨p, l, h.defs c p hp, h1, h2⟩
  · rw [hk] at h1; cases h1

/-- What a link update removes: a producer of the node itself that it no longer reads, and
what this one depends on. -/
theorem SetSpec.lost {g g' : Conn} {X N nodes} (h : SetSpec g X N g' nodes)
    (hnum : ∀ p c, g.E p c → p.num < c.num) (hN : ∀ p ∈ N, p.num < X.num)
    (hr : ∀ p c d, g.E p c → (g.E c d ∨ (d = X ∧ c ∈ N)) → c.kind = .computed ∧ Reads D c p) :
    ∀ p c, (g.E p c ∨ (c = X ∧ p ∈ N)) → ¬ g'.E p c →
      ∃ z, g.E z X ∧ z ∉ N ∧ Relation.ReflTransGen (Reads D) z p ∧ (z = p ∨ z.kind = .computed) := by
  have hn : ∀ a b, (g.E a b ∨ (b = X ∧ a ∈ N)) → a.num < b.num := by
    rintro a b (h1 | ⟨rfl, h1⟩)
    · exact hnum a b h1
    · exact hN a h1
  have htg : ∀ a b, Relation.TransGen (fun a b => g.E a b ∨ (b = X ∧ a ∈ N)) a b → a.num < b.num := by
    intro a b h
    induction h with
    | single h => exact hn _ _ h
    | tail _ h ih => exact Nat.lt_trans ih (hn _ _ h)
  have key : ∀ k p c, X.num - p.num = k → (g.E p c ∨ (c = X ∧ p ∈ N)) → ¬ g'.E p c →
      ∃ z, g.E z X ∧ z ∉ N ∧ Relation.ReflTransGen (Reads D) z p ∧ (z = p ∨ z.kind = .computed) := by
    intro k
    induction k using Nat.strongRecOn with
    | _ k ih =>
      intro p c hk hpc hno
      have hanc := htg _ _ (h.anc p c hpc hno)
      rcases h.why p c hpc hno with ⟨rfl, h1⟩ | ⟨h1, d, h2⟩
      · rcases hpc with h2 | ⟨_, h2⟩
        · exact ⟨p, h2, h1, .refl, Or.inl rfl⟩
        · exact absurd h2 h1
      · have hlt := hn p c hpc
        have hc := htg _ _ (h.anc c d h2 (h1 d))
        obtain ⟨z, i1, i2, i3, i4⟩ := ih (X.num - c.num) (by omega) c d rfl h2 (h1 d)
        rcases hpc with h3 | ⟨rfl, h3⟩
        · obtain ⟨j1, j2⟩ := hr p c d h3 h2
          refine ⟨z, i1, i2, i3.tail j2, Or.inr ?_⟩
          rcases i4 with rfl | i4
          · exact j1
          · exact i4
        · exact absurd hc (Nat.lt_irrefl _)
  intro p c; exact key _ p c rfl

/-- The conditions of `SetSpec.lost` hold for the updates the library makes. -/
theorem Push.lost {s s' : St V} {X N nodes} (hp : Push s X N s' nodes) (hb : Base s) (hs : SI D s)
    (hsrc : ∀ p ∈ N, s.Src p) (hN : ∀ p ∈ N, p.num < X.num) {p c}
    (hpc : s.conn.E p c ∨ (c = X ∧ p ∈ N)) (hno : ¬ s'.conn.E p c) :
    ∃ z, s.conn.E z X ∧ z ∉ N ∧ Relation.ReflTransGen (Reads D) z p ∧ (z = p ∨ z.kind = .computed) := by
  refine hp.spec.lost hs.num hN ?_ p c hpc hno
  intro p c d h1 h2
  have hc : s.Src c := by
    rcases h2 with h2 | ⟨_, h2⟩
    · exact hb.src c d h2
    · exact hsrc c h2
  have hk : c.kind = .computed := by
    rcases hb.dst p c h1 with ⟨hk, _⟩ | ⟨hk, _⟩
    · exact hk
    · exact absurd hk hc.not_client
  exact ⟨hk, hs.reads hb h1 hk⟩

/-- A link update that removes none of the old producers removes no link at all. -/
theorem Push.keep {s s' : St V} {X N nodes} (hp : Push s X N s' nodes) (hb : Base s) (hs : SI D s)
    (hsrc : ∀ p ∈ N, s.Src p) (hN : ∀ p ∈ N, p.num < X.num) (hold : ∀ p, s.conn.E p X → p ∈ N) :
    ∀ p c, (s.conn.E p c ∨ (c = X ∧ p ∈ N)) → s'.conn.E p c := by
  intro p c hpc
  refine Classical.byContradiction fun hno => ?_
  obtain ⟨z, h1, h2, _⟩ := hp.lost hb hs hsrc hN hpc hno
  exact h2 (hold z h1)

/-- A link update that removes no link clears no cache except that of the node itself. -/
theorem Push.cache_keep {s s' : St V} {X N nodes} (hp : Push s X N s' nodes)
    (hkeep : ∀ p c, (s.conn.E p c ∨ (c = X ∧ p ∈ N)) → s'.conn.E p c) {x} (hx : x ≠ X) :
    s'.cache x = s.cache x := by
  rw [hp.cache, if_neg]
  rintro ⟨_, hm, hn⟩
  have hno : ∀ c, ¬ s'.conn.E x c := by intro c h; unfold Conn.E at h; rw [hn] at h; cases h
  rcases (hp.spec.mem x).mp hm with h | ⟨h, _⟩ | ⟨c, h, h'⟩
  · exact hx h
  · exact hno X (hkeep x X (Or.inr ⟨rfl, h⟩))
  · exact h' (hkeep x c h)

/-- What may not be released while the computeds `K` are running. -/
def Safe (D : GraphId → Prog V → Prop) (K : List GraphId) (x : GraphId) : Prop :=
  (∃ y ∈ K, Reads D y x) ∨ Steady D x

/-- Result of reading a node in such a program. -/
structure Kept (D : GraphId → Prog V → Prop) (K : List GraphId) (s s' : St V) : Prop where
  si : SI D s'
  cache : ∀ x v, Safe D K x → s.cache x = some v → s'.cache x = some v

theorem Kept.refl {K} {s : St V} (h : SI D s) : Kept D K s s := ⟨h, fun _ _ _ h => h⟩

theorem Kept.trans {K} {a b c : St V} (h1 : Kept D K a b) (h2 : Kept D K b c) : Kept D K a c :=
  ⟨h2.si, fun x v hs h => h2.cache x v hs (h1.cache x v hs h)⟩

/-- The running computeds depend on the node that is read. -/
def Above (D : GraphId → Prog V → Prop) (K : List GraphId) (id : GraphId) : Prop :=
  ∀ x ∈ K, Relation.TransGen (Reads D) x id

theorem eval_kept {rd : St V → GraphId → Except Err (St V × V)} {K : List GraphId}
    (hrd : ∀ s id s' v, Good s → StackOK s K → rd s id = .ok (s', v) → Got s K id s' v)
    (hrd2 : ∀ s id s' v, Good s → StackOK s K → SI D s → Above D K id → rd s id = .ok (s', v) → Kept D K s s')
    (p : Prog V) {s ctx s' v ctx'} (hg : Good s) (hk : StackOK s K) (hs : SI D s)
    (hab : ∀ l, p.Path l → ∀ x ∈ l, Above D K x ∧ ∃ y ∈ K, Reads D y x)
    (h : p.eval rd s ctx = .ok (s', v, ctx')) :
    Kept D K s s' ∧ ∃ l, p.Path (l.map (·.1)) ∧ ctx' = ctx ++ l ∧
      ∀ r ∈ l, r.2 = false ∧ (r.1.kind = .computed → s'.cache r.1 ≠ none) := by
  induction p generalizing s ctx with
  | ret w =>
    simp only [Prog.eval, Except.ok.injEq, Prod.mk.injEq] at h
    obtain ⟨rfl, rfl, rfl⟩ := h
    exact ⟨.refl hs, [], .ret _, by simp, by simp⟩
  | read id k ih =>
    simp only [Prog.eval] at h
    split at h
    · cases h
    · rename_i s1 w h1
      have G := hrd _ _ _ _ hg hk h1
      have hpath : ∀ q : Prog V, ∃ l, q.Path l := by
        intro q
        induction q with
        | ret v => exact ⟨[], .ret v⟩
        | read r kk ihq => obtain ⟨l, hl⟩ := ihq w; exact ⟨_, .read hl⟩
      obtain ⟨l0, hl0⟩ := hpath (k w)
      have hA := hab _ (.read hl0) id List.mem_cons_self
      have G2 := hrd2 _ _ _ _ hg hk hs hA.1 h1
      obtain ⟨j1, l, j2, j3, j4⟩ := ih w G.good G.stack G2.si
        (fun l hl x hx => hab _ (.read hl) x (List.mem_cons_of_mem _ hx)) h
      refine ⟨G2.trans j1, (id, s1.taint id) :: l, .read j2, by rw [j3]; simp, ?_⟩
      intro r hr
      rcases List.mem_cons.mp hr with rfl | hr
      · refine ⟨?_, fun hc => ?_⟩
        · exact G2.si.clean id G.src.not_client
        · have := j1.cache id w (Or.inl hA.2) (G.cached hc); rw [this]; simp
      · exact j4 r hr

theorem getNode_kept (hD : Private D) (n) : ∀ K (s : St V) id s' v, Good s → StackOK s K → SI D s → Above D K id →
    getNode n K s id = .ok (s', v) → Kept D K s s' := by
  induction n with
  | zero => intro K s id s' v _ _ _ _ h; simp [getNode] at h
  | succ n ih =>
    intro K s id s' v hg hK hs hA h
    simp only [getNode] at h
    split at h
    · split at h <;> cases h; exact .refl hs
    · rename_i hkind
      split at h
      · cases h
      rename_i p hp
      split at h
      · cases h; exact .refl hs
      rename_i hnone
      split at h
      · cases h
      rename_i s1 w ctx hev
      split at h
      · cases h
      rename_i s2 hset
      cases h
      have hK1 : StackOK s (id :: K) := by
        intro x hx
        rcases List.mem_cons.mp hx with rfl | hx
        · exact Or.inl hnone
        · exact hK x hx
      have hDp := hs.defs id p hp
      have hrd : ∀ l, p.Path l → ∀ x ∈ l, Reads D id x := fun l hl x hx => ⟨p, l, hDp, hl, hx⟩
      have hab : ∀ l, p.Path l → ∀ x ∈ l, Above D (id :: K) x ∧ ∃ y ∈ id :: K, Reads D y x := by
        intro l hl x hx
        refine ⟨fun y hy => ?_, id, List.mem_cons_self, hrd l hl x hx⟩
        rcases List.mem_cons.mp hy with rfl | hy
        · exact .single (hrd l hl x hx)
        · exact (hA y hy).tail (hrd l hl x hx)
      obtain ⟨k1, l, hl, hctx, hreads⟩ := eval_kept (getNode_good n (id :: K)) (ih (id :: K)) p hg hK1 hs hab hev
      simp only [List.nil_append] at hctx
      subst hctx
      obtain ⟨g1, f1, st1, _, ts, e1, e2, e3⟩ := eval_good (getNode_good n (id :: K)) p hg hK1 hev
      simp only [List.nil_append] at e1
      obtain ⟨nodes, hp2⟩ := setParents_push g1.base.wf hset
      have hNl : ∀ q, q ∈ sOfList (ctx.map (·.1)) ↔ q ∈ ctx.map (·.1) := by
        intro q; rw [mem_sOfList]
      have hNR : ∀ q ∈ sOfList (ctx.map (·.1)), Reads D id q := fun q hq => hrd _ hl q ((hNl q).mp hq)
      have hN : ∀ q ∈ sOfList (ctx.map (·.1)), q.num < id.num := fun q hq => hD.older _ _ (hNR q hq)
      have hsrc : ∀ q ∈ sOfList (ctx.map (·.1)), s1.Src q := by
        intro q hq
        rw [hNl, e1, List.map_map] at hq
        obtain ⟨t, ht, rfl⟩ := List.mem_map.mp hq
        exact (e3 t ht).1
      have hdef1 : s1.defs id = some p := by rw [f1.defs]; exact hp
      -- links to the node itself are not lost
      have hown : ∀ q ∈ sOfList (ctx.map (·.1)), s2.conn.E q id := by
        intro q hq
        refine Classical.byContradiction fun hno => ?_
        rcases hp2.spec.why q id (Or.inr ⟨rfl, hq⟩) hno with ⟨_, h1⟩ | ⟨h1, d, h2⟩
        · exact h1 hq
        · obtain ⟨z, j1, _, j3, _⟩ := hp2.lost g1.base k1.si hsrc hN h2 (h1 d)
          have a1 := hD.le j3
          have a2 := k1.si.num _ _ j1
          omega
      -- nodes that are read, by this node or by a running one, and steady nodes are not released
      have hca : ∀ x, x ≠ id → x ∈ sOfList (ctx.map (·.1)) ∨ Safe D K x → s2.cache x = s1.cache x := by
        intro x hx hsafe
        rw [hp2.cache, if_neg]
        rintro ⟨hxk, hm, hn⟩
        have hno : ∀ c, ¬ s2.conn.E x c := by intro c h; unfold Conn.E at h; rw [hn] at h; cases h
        have hxN : x ∉ sOfList (ctx.map (·.1)) := fun h => hno id (hown x h)
        rcases (hp2.spec.mem x).mp hm with h | ⟨h, _⟩ | ⟨c, h, h'⟩
        · exact hx h
        · exact hxN h
        · obtain ⟨z, j1, j2, j3, j4⟩ := hp2.lost g1.base k1.si hsrc hN h h'
          have hzk : z.kind = .computed := by
            rcases j4 with rfl | j4
            · exact hxk
            · exact j4
          have hz : p.Sometimes z :=
            ⟨k1.si.par id p z hdef1 j1, _, hl, fun h => j2 ((hNl z).mpr h)⟩
          rcases hsafe with h | ⟨y, hy, hyr⟩ | hst
          · exact hxN h
          · exact hD.priv id p z hDp hz hzk y x (hA y hy) j3 hxk hyr
          · exact hst id p z hDp hz hzk j3
      have hnK : id ∉ K := fun h => absurd (hD.lt (hA id h)) (Nat.lt_irrefl _)
      have hmem : ∀ r ∈ ctx, r.1 ∈ sOfList (ctx.map (·.1)) := fun r hr => (hNl _).mpr (List.mem_map.mpr ⟨r, hr, rfl⟩)
      have hmark : (s2.mark K id ctx).taint id = false := by
        simp only [St.mark, upd_same, Bool.or_eq_false_iff, decide_eq_false_iff_not, List.any_eq_false,
          Bool.or_eq_true, decide_eq_true_eq, Bool.and_eq_true, not_or, Bool.not_eq_true, Decidable.not_not,
          not_and, Option.isNone_iff_eq_none]
        refine ⟨hnK, fun r hr => ⟨⟨(hreads r hr).1, hown _ (hmem r hr)⟩, fun hrk => ⟨?_, ?_⟩⟩⟩
        · have hne : r.1 ≠ id := by
            intro e
            have := hN r.1 (hmem r hr)
            rw [e] at this; exact Nat.lt_irrefl _ this
          rw [hca _ hne (Or.inl (hmem r hr))]; exact (hreads r hr).2 hrk
        · rw [hp2.taint]; exact k1.si.clean _ (by rw [hrk]; simp)
      refine ⟨⟨?_, ?_, ?_, ?_⟩, ?_⟩
      · intro x q hx
        exact k1.si.defs x q (by rw [← hp2.same.defs]; exact hx)
      · intro a b hab'
        rcases hp2.spec.sub a b hab' with h | ⟨rfl, h⟩
        · exact k1.si.num a b h
        · exact hN a h
      · intro c q r hd he
        have hd' : s1.defs c = some q := by rw [← hp2.same.defs]; exact hd
        rcases hp2.spec.sub r c he with h | ⟨rfl, h⟩
        · exact k1.si.par c q r hd' h
        · rw [hdef1] at hd'; cases hd'
          exact ⟨_, hl, (hNl r).mp h⟩
      · intro x hx
        by_cases hxi : x = id
        · subst hxi; exact hmark
        · simp only [St.mark]; rw [upd_ne _ hxi, hp2.taint]; exact k1.si.clean x hx
      · intro x u hsafe hx
        have hne : x ≠ id := by rintro rfl; rw [hnone] at hx; cases hx
        have hsafe1 : Safe D (id :: K) x := by
          rcases hsafe with ⟨y, hy, h⟩ | h
          · exact Or.inl ⟨y, List.mem_cons_of_mem _ hy, h⟩
          · exact Or.inr h
        show upd s2.cache id (some v) x = some u
        rw [upd_ne _ hne, hca x hne (Or.inr hsafe)]; exact k1.cache x u hsafe1 hx
    · cases h

/-! ## Steps -/

/-- Every existing computed is in the log. -/
def DefLog (s : St V) : Prop := ∀ id p, s.defs id = some p → .defined id p ∈ s.log

theorem SI.congr {s s' : St V} (h : SI D s) (hd : ∀ id p, s'.defs id = some p → s.defs id = some p)
    (hc : s'.conn = s.conn) (ht : ∀ x, x.kind ≠ .client → s'.taint x = s.taint x) : SI D s' := by
  refine ⟨fun id p hp => h.defs id p (hd id p hp), ?_, ?_, fun x hx => by rw [ht x hx]; exact h.clean x hx⟩
  · rw [hc]; exact h.num
  · intro c p q hp; rw [hc]; exact h.par c p q (hd c p hp)

/-- Link updates of a subscription, or removal of the links of a computed. -/
theorem SI.push {s s' : St V} {X N nodes} (h : SI D s) (hp : Push s X N s' nodes)
    (hN : ∀ p ∈ N, p.num < X.num) (hX : s.defs X = none ∨ N = []) : SI D s' := by
  refine ⟨?_, ?_, ?_, ?_⟩
  · intro id p hd; rw [hp.same.defs] at hd; exact h.defs id p hd
  · intro a b hab
    rcases hp.spec.sub a b hab with g | ⟨rfl, g⟩
    · exact h.num a b g
    · exact hN a g
  · intro c p q hd he
    rw [hp.same.defs] at hd
    rcases hp.spec.sub q c he with g | ⟨rfl, g⟩
    · exact h.par c p q hd g
    · rcases hX with g' | g'
      · rw [g'] at hd; cases hd
      · rw [g'] at g; cases g
  · intro x hx; rw [hp.taint]; exact h.clean x hx

variable [DecidableEq V]

theorem si_observe {s s' : St V} {lim id o} (hD : Private D) (hg : Good s) (h : SI D s)
    (hs : s.observe lim id = .ok (s', o)) : SI D s' ∧
      (∀ x v, Steady D x → s.cache x = some v → s'.cache x = some v) := by
  obtain ⟨cl, s1, v, cl1, h1, h2, h3, h4⟩ := observe_cases hs
  have k := getNode_kept hD _ _ _ _ _ _ hg (stackOK_nil s) h (fun x hx => by cases hx) h2
  rcases h4 with ⟨_, _, rfl⟩ | ⟨_, _, _, rfl⟩
  · exact ⟨k.si.congr (fun _ _ h => h) rfl (fun _ _ => rfl), fun x v hx => k.cache x v (Or.inr hx)⟩
  · exact ⟨k.si.congr (fun _ _ h => h) rfl (fun _ _ => rfl), fun x v hx => k.cache x v (Or.inr hx)⟩

omit [DecidableEq V] in
theorem si_startRun {s s' : St V} {id} (h : SI D s) (hs : s.startRun id = .ok s') : SI D s' := by
  unfold St.startRun at hs
  split at hs <;> cases hs
  exact h.congr (fun _ _ h => h) rfl (fun _ _ => rfl)

end Verif.Reactive

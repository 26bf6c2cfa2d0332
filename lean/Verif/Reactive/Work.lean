import Verif.Reactive.StaticStar
/-!
# When the closures of computeds are run

Invariant behind C83: the history of the cached values, `St.work`, agrees with the cached
values themselves and with the recorded links.
-/
namespace Verif.Reactive

variable {V : Type}

/-! ## Specification -/

/-- What the closure of `id` has read when it was last run. -/
def lastReads (id : GraphId) (work : List Work) : List GraphId :=
  work.foldl (fun acc w => match w with
    | .run x reads => if x = id then reads else acc
    | _ => acc) []

/-- Going by the last run of each closure, the computed `id` depends on `x`. -/
def DependsOn (work : List Work) (id x : GraphId) : Prop :=
  Relation.TransGen (fun c p => p ∈ lastReads c work) id x

/-- Every computed reads nodes that were created before it. (In Rust, a closure that reads a
later node needs a cell that is filled after the closure was created.) -/
def OlderLog (log : List (Ev V)) : Prop :=
  ∀ id p l x, .defined id p ∈ log → p.Path l → x ∈ l → x.num < id.num

/-- User code has read the node `t`, or has subscribed to it. -/
def Watched (log : List (Ev V)) (t : GraphId) : Prop :=
  (∃ v b vals defs, .read t v b vals defs ∈ log) ∨ ∃ c all, .subscribed c t all ∈ log

/-! ## The history -/

/-- According to the history, `id` has a cached value. -/
def held (id : GraphId) (work : List Work) : Bool :=
  work.foldl (fun acc w => match w with
    | .run x _ => if x = id then true else acc
    | .stale _ x => if x = id then false else acc
    | .released x _ => if x = id then false else acc) false

theorem held_snoc (id : GraphId) (l : List Work) (w) : held id (l ++ [w]) = match w with
    | .run x _ => if x = id then true else held id l
    | .stale _ x => if x = id then false else held id l
    | .released x _ => if x = id then false else held id l := by
  unfold held; rw [List.foldl_append]; rfl

theorem lastReads_snoc (id : GraphId) (l : List Work) (w) : lastReads id (l ++ [w]) = match w with
    | .run x reads => if x = id then reads else lastReads id l
    | _ => lastReads id l := by
  unfold lastReads; rw [List.foldl_append]; rfl

/-- The record may be made after `pre`. -/
def WorkOK (pre : List Work) : Work → Prop
  | .run id _ => held id pre = false
  | .stale x id => x.kind = .value ∧ DependsOn pre id x
  | .released _ readers => readers = []

def WorksOK (work : List Work) : Prop := ∀ pre w post, work = pre ++ w :: post → WorkOK pre w

theorem WorksOK.nil : WorksOK [] := by
  intro pre e post h; simp at h

theorem WorksOK.snoc {work : List Work} {e} (h : WorksOK work) (he : WorkOK work e) :
    WorksOK (work ++ [e]) := by
  intro pre e' post heq
  rcases List.eq_nil_or_concat post with rfl | ⟨post', z, rfl⟩
  · have : work = pre ∧ e = e' := by
      have := List.append_inj' heq rfl
      exact ⟨this.1, by simpa using this.2⟩
    obtain ⟨rfl, rfl⟩ := this; exact he
  · have h2 : work ++ [e] = (pre ++ e' :: post') ++ [z] := by rw [heq]; simp
    have := (List.append_inj' h2 rfl).1
    exact h pre e' post' this

/-- The history agrees with the cached values. -/
structure W0 (s : St V) : Prop where
  alive : ∀ id, held id s.work = true → s.defs id ≠ none → s.cache id ≠ none
  held : ∀ id, s.cache id ≠ none → held id s.work = true
  num : ∀ id, Reactive.held id s.work = true → id.num < s.next
  ok : WorksOK s.work

/-- The links are those of the last runs. -/
def W1 (s : St V) : Prop := ∀ p c, c.kind = .computed → s.conn.E p c → p ∈ lastReads c s.work

structure WI (s : St V) : Prop extends W0 s where
  links : W1 s

/-- Nothing was run. -/
structure NoRun (s s' : St V) : Prop where
  runs : ∀ y r, .run y r ∈ s'.work → .run y r ∈ s.work
  reads : ∀ y, lastReads y s'.work = lastReads y s.work
  held : ∀ y, Reactive.held y s'.work = true → Reactive.held y s.work = true
  stales : ∀ x y, .stale x y ∈ s'.work → .stale x y ∈ s.work

theorem NoRun.refl (s : St V) : NoRun s s := ⟨fun _ _ h => h, fun _ => rfl, fun _ h => h, fun _ _ h => h⟩

theorem NoRun.of_eq {s s' : St V} (h : s'.work = s.work) : NoRun s s' :=
  ⟨fun _ _ => by rw [h]; exact id, fun _ => by rw [h], fun _ => by rw [h]; exact id,
    fun _ _ => by rw [h]; exact id⟩

theorem NoRun.trans {a b c : St V} (h1 : NoRun a b) (h2 : NoRun b c) : NoRun a c :=
  ⟨fun y r h => h1.runs y r (h2.runs y r h), fun y => (h2.reads y).trans (h1.reads y),
    fun y h => h1.held y (h2.held y h), fun x y h => h1.stales x y (h2.stales x y h)⟩

/-! ## Link updates -/

theorem clearCache_same_work (s : St V) (id) : (s.clearCache id).work = s.work := by
  unfold St.clearCache
  split
  · rfl
  · rfl
  · split <;> rfl

theorem setConnection_work (s : St V) (id b) : (s.setConnection id b).work = s.work ∧
    (s.setConnection id b).cache = s.cache ∧ (s.setConnection id b).conn = s.conn := by
  unfold St.setConnection; repeat' split
  all_goals exact ⟨rfl, rfl, rfl⟩

theorem applyOne_w0 (s : St V) (id b) (h : W0 s) (hk : ∀ x, s.cache x ≠ none → x.kind = .computed)
    (hb : b = false → s.conn.pc.get id = []) :
    W0 (s.applyOne id b) ∧ NoRun s (s.applyOne id b) ∧
      (∀ x, (s.applyOne id b).cache x ≠ none → s.cache x ≠ none) ∧ (s.applyOne id b).conn = s.conn := by
  have hid : s.applyOne id b = s ∨ (id.kind = .value ∧ s.applyOne id b = s.setConnection id b) ∨
      (b = false ∧ id.kind ≠ .value ∧ s.applyOne id b =
        { s.clearCache id with work := s.forgot id (.released id (s.conn.pc.get id)) }) := by
    unfold St.applyOne
    split
    · rename_i hk; exact Or.inr (Or.inl ⟨hk, rfl⟩)
    · rename_i hk
      split
      · exact Or.inl rfl
      · rename_i hb; exact Or.inr (Or.inr ⟨by simpa using hb, hk, rfl⟩)
  rcases hid with h' | ⟨_, h'⟩ | ⟨hb', hv, h'⟩
  · rw [h']; exact ⟨h, .refl _, fun _ h => h, rfl⟩
  · obtain ⟨e1, e2, e3⟩ := setConnection_work s id b
    have hS := same_setConnection s id b
    rw [h']
    refine ⟨⟨?_, ?_, ?_, ?_⟩, .of_eq e1, fun x => by rw [e2]; exact _root_.id, e3⟩
    · rw [e1, e2, hS.defs]; exact h.alive
    · rw [e1, e2]; exact h.held
    · rw [e1, hS.next]; exact h.num
    · rw [e1]; exact h.ok
  · have hS := same_clearCache s id
    have hcc : ∀ x, (s.clearCache id).cache x = if x = id ∧ x.kind = .computed then none else s.cache x :=
      clearCache_cache s id
    have hcn : (s.clearCache id).conn = s.conn := (clearCache_rest s id).1
    rw [h']
    cases hc : s.cache id with
    | none =>
      have hw : s.forgot id (.released id (s.conn.pc.get id)) = s.work := by simp [St.forgot, hc]
      have hca : (s.clearCache id).cache = s.cache := by
        funext x; rw [hcc]; split
        · rename_i e; rw [e.1, hc]
        · rfl
      rw [hw]
      refine ⟨⟨?_, ?_, ?_, h.ok⟩, .of_eq rfl, fun x => ?_, hcn⟩
      · intro x hx hd; show (s.clearCache id).cache x ≠ none
        rw [hca]; exact h.alive x hx (by rw [← hS.defs]; exact hd)
      · intro x hx; exact h.held x (by rw [← hca]; exact hx)
      · intro x hx; show x.num < (s.clearCache id).next; rw [hS.next]; exact h.num x hx
      · show (s.clearCache id).cache x ≠ none → _; rw [hca]; exact _root_.id
    | some v =>
      have hw : s.forgot id (.released id (s.conn.pc.get id)) = s.work ++ [.released id []] := by
        simp [St.forgot, hc, hb hb']
      have hkc := hk id (by rw [hc]; simp)
      rw [hw]
      refine ⟨⟨?_, ?_, ?_, h.ok.snoc rfl⟩, ⟨?_, ?_, ?_, ?_⟩, fun x => ?_, hcn⟩
      · intro x hx hd
        rw [held_snoc] at hx
        simp only at hx
        split at hx
        · cases hx
        rename_i hne
        show (s.clearCache id).cache x ≠ none
        rw [hcc, if_neg (fun e => hne e.1.symm)]
        exact h.alive x hx (by rw [← hS.defs]; exact hd)
      · intro x hx
        have hx' : (s.clearCache id).cache x ≠ none := hx
        rw [hcc] at hx'
        split at hx'
        · exact absurd rfl hx'
        rename_i hne
        rw [held_snoc]
        simp only
        rw [if_neg]
        · exact h.held x hx'
        · rintro rfl; exact hne ⟨rfl, hkc⟩
      · intro x hx
        rw [held_snoc] at hx
        simp only at hx
        show x.num < (s.clearCache id).next; rw [hS.next]
        split at hx
        · cases hx
        · exact h.num x hx
      · intro y r hy
        rcases List.mem_append.mp hy with g | g
        · exact g
        · simp at g
      · intro y; rw [lastReads_snoc]
      · intro y hy
        rw [held_snoc] at hy
        simp only at hy
        split at hy
        · cases hy
        · exact hy
      · intro x y hy
        rcases List.mem_append.mp hy with g | g
        · exact g
        · simp at g
      · show (s.clearCache id).cache x ≠ none → _
        rw [hcc]; split
        · exact fun h => absurd rfl h
        · exact _root_.id

theorem applyInfo_w0 (s : St V) (l) (h : W0 s) (hk : ∀ x, s.cache x ≠ none → x.kind = .computed)
    (hb : ∀ id, (id, false) ∈ l → s.conn.pc.get id = []) :
    W0 (s.applyInfo l) ∧ NoRun s (s.applyInfo l) := by
  induction l generalizing s with
  | nil => exact ⟨h, .refl _⟩
  | cons e l ih =>
    obtain ⟨id, b⟩ := e
    rw [applyInfo_cons]
    obtain ⟨h1, h2, h3, h4⟩ := applyOne_w0 s id b h hk
      (fun e => hb id (by rw [← e]; exact List.mem_cons_self))
    obtain ⟨h5, h6⟩ := ih _ h1 (fun x hx => hk x (h3 x hx))
      (fun x hx => by rw [h4]; exact hb x (List.mem_cons_of_mem _ hx))
    exact ⟨h5, h2.trans h6⟩

theorem setParents_w0 {s s' : St V} {X N} (hw : s.conn.WF) (h : W0 s)
    (hk : ∀ x, s.cache x ≠ none → x.kind = .computed) (hs : s.setParents X N = .ok s') :
    W0 s' ∧ NoRun s s' := by
  unfold St.setParents at hs
  split at hs
  · cases hs
  rename_i conn info hc
  obtain ⟨nodes, S, hi⟩ := Conn.setParents_spec hw hc
  cases hs
  have h0 : W0 ({ s with conn := conn } : St V) := ⟨h.alive, h.held, h.num, h.ok⟩
  obtain ⟨h1, h2⟩ := applyInfo_w0 { s with conn := conn } info h0 hk (by
    intro id hm
    rw [hi] at hm
    simp only [Conn.activeInfo, List.mem_map, Prod.mk.injEq] at hm
    obtain ⟨y, _, rfl, hy⟩ := hm
    simpa using hy)
  exact ⟨h1, ⟨h2.runs, h2.reads, h2.held, h2.stales⟩⟩

theorem W1.push {s s' : St V} {X N nodes} (h : W1 s) (hp : Push s X N s' nodes) (hn : NoRun s s')
    (hX : X.kind = .client ∨ N = []) : W1 s' := by
  intro p c hc he
  rw [hn.reads]
  rcases hp.spec.sub p c he with g | ⟨rfl, g⟩
  · exact h p c hc g
  · rcases hX with g' | g'
    · rw [hc] at g'; cases g'
    · rw [g'] at g; cases g

/-! ## Evaluation -/

/-- What the existing computeds can read. -/
abbrev St.Can (s : St V) (x y : GraphId) : Prop := Reads (fun id p => s.defs id = some p) x y

def Older (s : St V) : Prop := ∀ x y, s.Can x y → y.num < x.num

theorem Can.same {s s' : St V} (h : Same s s') : s'.Can = s.Can := by
  unfold St.Can; rw [h.defs]

theorem Older.same {s s' : St V} (h : Older s) (hs : Same s s') : Older s' := by
  intro x y hxy; rw [Can.same hs] at hxy; exact h x y hxy

/-- Result of reading `id`. -/
structure Ran (s : St V) (id : GraphId) (s' : St V) : Prop where
  wi : WI s'
  above : ∀ y, id.num < y.num → held y s'.work = true → held y s.work = true
  runs : ∀ y r, .run y r ∈ s'.work → .run y r ∈ s.work ∨ Relation.ReflTransGen s.Can id y
  stales : ∀ x y, .stale x y ∈ s'.work → .stale x y ∈ s.work

theorem eval_ran {rd : St V → GraphId → Except Err (St V × V)} {K : List GraphId} {b : Nat}
    (hrd : ∀ s id s' v, Good s → StackOK s K → rd s id = .ok (s', v) → Got s K id s' v)
    (hrd2 : ∀ s id s' v, Good s → StackOK s K → Older s → WI s → rd s id = .ok (s', v) → Ran s id s')
    (p : Prog V) {s ctx s' v ctx'} (hg : Good s) (hk : StackOK s K) (ho : Older s) (hw : WI s)
    (hb : ∀ l, p.Path l → ∀ x ∈ l, x.num < b) (h : p.eval rd s ctx = .ok (s', v, ctx')) :
    WI s' ∧ (∀ y, b ≤ y.num → held y s'.work = true → held y s.work = true) ∧
      (∀ y r, .run y r ∈ s'.work → .run y r ∈ s.work ∨
        ∃ l x, p.Path l ∧ x ∈ l ∧ Relation.ReflTransGen s.Can x y) ∧
      ∀ x y, .stale x y ∈ s'.work → .stale x y ∈ s.work := by
  induction p generalizing s ctx with
  | ret w =>
    simp only [Prog.eval, Except.ok.injEq, Prod.mk.injEq] at h
    obtain ⟨rfl, rfl, rfl⟩ := h
    exact ⟨hw, fun _ _ h => h, fun _ _ h => Or.inl h, fun _ _ h => h⟩
  | read id k ih =>
    simp only [Prog.eval] at h
    split at h
    · cases h
    · rename_i s1 w h1
      have G := hrd _ _ _ _ hg hk h1
      have R := hrd2 _ _ _ _ hg hk ho hw h1
      have hpath : ∀ q : Prog V, ∃ l, q.Path l := by
        intro q
        induction q with
        | ret v => exact ⟨[], .ret v⟩
        | read r kk ihq => obtain ⟨l, hl⟩ := ihq w; exact ⟨_, .read hl⟩
      obtain ⟨l0, hl0⟩ := hpath (k w)
      have hid := hb _ (.read hl0) id List.mem_cons_self
      obtain ⟨j1, j2, j3, j4⟩ := ih w G.good G.stack (ho.same G.same) R.wi
        (fun l hl x hx => hb _ (.read hl) x (List.mem_cons_of_mem _ hx)) h
      refine ⟨j1, fun y hy hh => R.above y (by omega) (j2 y hy hh), fun y r hr => ?_,
        fun x y h => R.stales x y (j4 x y h)⟩
      rcases j3 y r hr with g | ⟨l, x, g1, g2, g3⟩
      · rcases R.runs y r g with g | g
        · exact Or.inl g
        · exact Or.inr ⟨_, id, .read hl0, List.mem_cons_self, g⟩
      · rw [Can.same G.same] at g3
        exact Or.inr ⟨_, x, .read g1, List.mem_cons_of_mem _ g2, g3⟩

theorem getNode_ran (n) : ∀ K (s : St V) id s' v, Good s → StackOK s K → Older s → WI s →
    getNode n K s id = .ok (s', v) → Ran s id s' := by
  induction n with
  | zero => intro K s id s' v _ _ _ _ h; simp [getNode] at h
  | succ n ih =>
    intro K s id s' v hg hK ho hw h
    simp only [getNode] at h
    split at h
    · split at h <;> cases h; exact ⟨hw, fun _ _ h => h, fun _ _ h => Or.inl h, fun _ _ h => h⟩
    · rename_i hkind
      split at h
      · cases h
      rename_i p hp
      split at h
      · cases h; exact ⟨hw, fun _ _ h => h, fun _ _ h => Or.inl h, fun _ _ h => h⟩
      rename_i hnone
      split at h
      · cases h
      rename_i s1 w ctx hev
      split at h
      · cases h
      rename_i s2 hset
      cases h
      have hK1 : StackOK s (id :: K) := by
        intro x hx
        rcases List.mem_cons.mp hx with rfl | hx
        · exact Or.inl hnone
        · exact hK x hx
      have hcan : ∀ l, p.Path l → ∀ x ∈ l, s.Can id x := fun l hl x hx => ⟨p, l, hp, hl, hx⟩
      obtain ⟨w1, a1, r1, t1⟩ := eval_ran (b := id.num) (getNode_good n (id :: K)) (ih (id :: K)) p hg hK1 ho hw
        (fun l hl x hx => ho _ _ (hcan l hl x hx)) hev
      obtain ⟨g1, f1, st1, _, ts, e1, e2, e3⟩ := eval_good (getNode_good n (id :: K)) p hg hK1 hev
      obtain ⟨nodes, hp2⟩ := setParents_push g1.base.wf hset
      obtain ⟨w2, n2⟩ := setParents_w0 g1.base.wf w1.toW0
        (fun x hx => (g1.base.dkind x (g1.base.cached x hx)).1) hset
      have hnot : held id s2.work = false := by
        cases hh : held id s2.work with
        | false => rfl
        | true =>
          have := a1 id (Nat.le_refl _) (n2.held id hh)
          exact absurd hnone (hw.alive id this (by rw [hp]; simp))
      have hnext : id.num < s2.next := by
        rw [hp2.same.next, f1.next]; exact (hg.base.dkind id (by rw [hp]; simp)).2
      refine ⟨⟨⟨?_, ?_, ?_, w2.ok.snoc hnot⟩, ?_⟩, ?_, ?_, ?_⟩
      · intro x hx hd
        show upd s2.cache id (some v) x ≠ none
        by_cases hxi : x = id
        · subst hxi; rw [upd_same]; simp
        · rw [upd_ne _ hxi]
          have hx' : held x (s2.work ++ [.run id (ctx.map (·.1))]) = true := hx
          rw [held_snoc] at hx'
          simp only [if_neg (Ne.symm hxi)] at hx'
          exact w2.alive x hx' hd
      · intro x hx
        have hx' : upd s2.cache id (some v) x ≠ none := hx
        show held x (s2.work ++ [.run id (ctx.map (·.1))]) = true
        rw [held_snoc]
        by_cases hxi : id = x
        · simp [hxi]
        · rw [upd_ne _ (Ne.symm hxi)] at hx'
          simp only [if_neg hxi]; exact w2.held x hx'
      · intro x hx
        have hx' : held x (s2.work ++ [.run id (ctx.map (·.1))]) = true := hx
        show x.num < s2.next
        rw [held_snoc] at hx'
        by_cases hxi : id = x
        · subst hxi; exact hnext
        · simp only [if_neg hxi] at hx'; exact w2.num x hx'
      · intro q c hc he
        have he' : s2.conn.E q c := he
        show q ∈ lastReads c (s2.work ++ [.run id (ctx.map (·.1))])
        rw [lastReads_snoc]
        by_cases hci : id = c
        · subst hci
          simp only [↓reduceIte]
          have := hp2.spec.own q he'
          rwa [mem_sOfList] at this
        · simp only [if_neg hci]
          rw [n2.reads]
          rcases hp2.spec.sub q c he' with g | ⟨g, _⟩
          · exact w1.links q c hc g
          · exact absurd g.symm hci
      · intro y hy hh
        have hh' : held y (s2.work ++ [.run id (ctx.map (·.1))]) = true := hh
        rw [held_snoc] at hh'
        by_cases hyi : id = y
        · subst hyi; exact absurd hy (Nat.lt_irrefl _)
        · simp only [if_neg hyi] at hh'
          exact a1 y (Nat.le_of_lt hy) (n2.held y hh')
      · intro y r hr
        have hr' : .run y r ∈ s2.work ++ [.run id (ctx.map (·.1))] := hr
        rcases List.mem_append.mp hr' with g | g
        · rcases r1 y r (n2.runs y r g) with g | ⟨l, x, g1, g2, g3⟩
          · exact Or.inl g
          · exact Or.inr (Relation.ReflTransGen.head (hcan l g1 x g2) g3)
        · simp at g; rw [g.1]; exact Or.inr .refl
      · intro x y hr
        have hr' : .stale x y ∈ s2.work ++ [.run id (ctx.map (·.1))] := hr
        rcases List.mem_append.mp hr' with g | g
        · exact t1 x y (n2.stales x y g)
        · simp at g
    · cases h

/-! ## Steps -/

theorem WI.congr {s s' : St V} (h : WI s) (hn : s.next ≤ s'.next) (hd : ∀ x, s'.defs x ≠ none → s.defs x ≠ none)
    (hc : s'.conn = s.conn) (hk : s'.cache = s.cache) (hw : s'.work = s.work) : WI s' := by
  refine ⟨⟨?_, ?_, ?_, ?_⟩, ?_⟩
  · intro x hx hx'; rw [hk]; rw [hw] at hx; exact h.alive x hx (hd x hx')
  · intro x hx; rw [hw]; rw [hk] at hx; exact h.held x hx
  · intro x hx; rw [hw] at hx; exact Nat.lt_of_lt_of_le (h.num x hx) hn
  · rw [hw]; exact h.ok
  · intro p c hk' he; rw [hw]; rw [hc] at he; exact h.links p c hk' he

/-- What a step does to the history. -/
structure Worked (s s' : St V) : Prop where
  wi : WI s'
  runs : ∀ y r, .run y r ∈ s'.work → .run y r ∈ s.work ∨
    ∃ t, Watched s'.log t ∧ Relation.ReflTransGen s.Can t y
  stales : ∀ x y, .stale x y ∈ s'.work → .stale x y ∈ s.work ∨ ∃ l, .wrote x l ∈ s'.log

theorem Worked.quiet {s s' : St V} (h : WI s') (hn : NoRun s s') : Worked s s' :=
  ⟨h, fun y r hr => Or.inl (hn.runs y r hr), fun x y hr => Or.inl (hn.stales x y hr)⟩

theorem WI.push {s s' : St V} {X N} (h : WI s) (hb : Base0 s) (hX : X.kind = .client ∨ N = [])
    (hs : s.setParents X N = .ok s') : WI s' ∧ NoRun s s' := by
  obtain ⟨nodes, hp⟩ := setParents_push hb.wf hs
  obtain ⟨h1, h2⟩ := setParents_w0 hb.wf h.toW0 (fun x hx => (hb.dkind x (hb.cached x hx)).1) hs
  exact ⟨⟨h1, h.links.push hp h2 hX⟩, h2⟩

variable [DecidableEq V]

theorem wi_finishRun {s s' : St V} {id} (hg : Good s) (h : WI s) (hs : s.finishRun id = .ok s') :
    WI s' ∧ NoRun s s' := by
  obtain ⟨cl, s1, hcl, hrun, hsrc, h1, rfl⟩ := finishRun_cases hs
  have hk := (hg.base.ckind id (by rw [hcl]; simp)).1
  obtain ⟨w, n⟩ := h.push hg.base.toBase0 (Or.inl hk) h1
  exact ⟨w.congr (Nat.le_refl _) (fun _ h => h) rfl rfl rfl, ⟨n.runs, n.reads, n.held, n.stales⟩⟩

omit [DecidableEq V] in
theorem wi_dropOne {s s' : St V} {id} (hg : Good s) (h : WI s) (hk : id.kind = .client)
    (hs : s.dropOne id = .ok s') : WI s' ∧ NoRun s s' := by
  unfold St.dropOne at hs
  have hb : Base0 ({ s with clients := upd s.clients id none }.emit (.dropped id)) := by
    obtain ⟨⟨b1, b2, b3, b4, b5, b6, b7⟩, _⟩ := hg.base
    refine ⟨b1, b2, b3, b4, ?_, b6, b7⟩
    intro x hx
    simp only [St.emit, upd] at hx
    split at hx
    · exact absurd rfl hx
    · exact b5 x hx
  have h0 : WI ({ s with clients := upd s.clients id none }.emit (.dropped id)) :=
    h.congr (Nat.le_refl _) (fun _ h => h) rfl rfl rfl
  obtain ⟨w, n⟩ := h0.push hb (Or.inl hk) hs
  exact ⟨w, ⟨n.runs, n.reads, n.held, n.stales⟩⟩

omit [DecidableEq V] in
theorem wi_dropComputed {s s' : St V} {id} (hg : Good s) (h : WI s) (hs : s.dropComputed id = .ok s') :
    WI s' ∧ NoRun s s' := by
  unfold St.dropComputed at hs
  split at hs
  rotate_left
  · cases hs
  rename_i hcond
  have h0 : W0 ({ s with defs := upd s.defs id none, cache := upd s.cache id none }.emit (.dropped id)) := by
    refine ⟨?_, ?_, h.num, h.ok⟩
    · intro x hx hd
      simp only [St.emit, upd] at hd ⊢
      split at hd
      · exact absurd rfl hd
      · rename_i hne; rw [if_neg hne]; exact h.alive x hx hd
    · intro x hx
      simp only [St.emit, upd] at hx
      split at hx
      · exact absurd rfl hx
      · exact h.held x hx
  have hk : ∀ x, ({ s with defs := upd s.defs id none, cache := upd s.cache id none }.emit (.dropped id)).cache x ≠ none →
      x.kind = .computed := by
    intro x hx
    simp only [St.emit, upd] at hx
    split at hx
    · exact absurd rfl hx
    · exact (hg.base.dkind x (hg.base.cached x hx)).1
  have hwf : ({ s with defs := upd s.defs id none, cache := upd s.cache id none }.emit (.dropped id)).conn.WF :=
    hg.base.wf
  obtain ⟨w, n⟩ := setParents_w0 hwf h0 hk hs
  obtain ⟨nodes, hp⟩ := setParents_push hwf hs
  exact ⟨⟨w, W1.push (s := { s with defs := upd s.defs id none, cache := upd s.cache id none }.emit (.dropped id))
    h.links hp n (Or.inr rfl)⟩, ⟨n.runs, n.reads, n.held, n.stales⟩⟩

theorem worked_observe {s s' : St V} {lim id o} (hg : Good s) (ho : Older s) (h : WI s)
    (hsub : ∀ cl, s.clients id = some cl → ∃ a, .subscribed id cl.target a ∈ s.log)
    (hs : s.observe lim id = .ok (s', o)) : Worked s s' := by
  obtain ⟨cl, s1, v, cl1, h1, h2, h3, h4⟩ := observe_cases hs
  have R := getNode_ran _ _ _ _ _ _ hg (stackOK_nil s) ho h h2
  obtain ⟨k, l1, _⟩ := getNode_log hg h2
  obtain ⟨a, ha⟩ := hsub cl h1
  have hl : .subscribed id cl.target a ∈ s'.log := by
    rcases h4 with ⟨_, _, rfl⟩ | ⟨_, _, _, rfl⟩
    · simp [St.emit, l1, ha]
    · simp [l1, ha]
  have hwork : s'.work = s1.work ∧ WI s' := by
    rcases h4 with ⟨_, _, rfl⟩ | ⟨_, _, _, rfl⟩
    · exact ⟨rfl, R.wi.congr (Nat.le_refl _) (fun _ h => h) rfl rfl rfl⟩
    · exact ⟨rfl, R.wi.congr (Nat.le_refl _) (fun _ h => h) rfl rfl rfl⟩
  refine ⟨hwork.2, fun y r hr => ?_, fun x y hr => Or.inl (R.stales x y (by rw [← hwork.1]; exact hr))⟩
  rcases R.runs y r (by rw [← hwork.1]; exact hr) with g | g
  · exact Or.inl g
  · exact Or.inr ⟨cl.target, Or.inr ⟨_, _, hl⟩, g⟩

omit [DecidableEq V] in
theorem startRun_work {s s' : St V} {id} (hs : s.startRun id = .ok s') : s'.work = s.work ∧ s'.log = s.log ∧
    s'.conn = s.conn ∧ s'.cache = s.cache ∧ s'.defs = s.defs ∧ s'.next = s.next ∧
    ∀ cl', s'.clients id = some cl' → ∃ cl, s.clients id = some cl ∧ cl'.target = cl.target := by
  unfold St.startRun at hs
  split at hs <;> cases hs
  rename_i cl hcl
  refine ⟨rfl, rfl, rfl, rfl, rfl, rfl, fun cl' h => ?_⟩
  simp only [upd_same] at h; cases h
  exact ⟨cl, hcl, rfl⟩

omit [DecidableEq V] in
/-- The links are those of the last runs, so what can be reached along them depends on the
value. -/
theorem depends_of_links {s : St V} (hb : Base s) (h : WI s) {x y} (hxy : Relation.TransGen s.conn.E x y)
    (hy : y.kind = .computed) : DependsOn s.work y x := by
  induction hxy with
  | single h1 => exact .single (h.links _ _ hy h1)
  | @tail b c h1 h2 ih =>
    have hbk : b.kind = .computed := by
      obtain ⟨a, ha⟩ : ∃ a, s.conn.E a b := by
        cases h1 with
        | single h => exact ⟨_, h⟩
        | tail _ h => exact ⟨_, h⟩
      rcases hb.dst a b ha with ⟨hk, _⟩ | ⟨hk, _⟩
      · exact hk
      · exact absurd hk (hb.src b c h2).not_client
    exact Relation.TransGen.head (h.links _ _ hy h2) (ih hbk)

theorem stale_records {w : List Work} {x : GraphId} {ds : List GraphId} (hk : x.kind = .value)
    (hd : ∀ d ∈ ds, DependsOn w d x) (h : WorksOK w) : WorksOK (w ++ ds.map (Work.stale x)) ∧
      (∀ y, lastReads y (w ++ ds.map (Work.stale x)) = lastReads y w) ∧
      ∀ y, held y (w ++ ds.map (Work.stale x)) = (held y w && decide (y ∉ ds)) := by
  induction ds generalizing w with
  | nil => simp [h]
  | cons d ds ih =>
    have e : w ++ (d :: ds).map (Work.stale x) = (w ++ [.stale x d]) ++ ds.map (Work.stale x) := by simp
    have hr : ∀ y, lastReads y (w ++ [.stale x d]) = lastReads y w := fun y => by rw [lastReads_snoc]
    have hdep : ∀ y z, DependsOn (w ++ [.stale x d]) y z ↔ DependsOn w y z := by
      intro y z; unfold DependsOn; simp only [hr]
    obtain ⟨i1, i2, i3⟩ := ih (w := w ++ [.stale x d])
      (fun y hy => (hdep y x).mpr (hd y (List.mem_cons_of_mem _ hy)))
      (h.snoc (e := .stale x d) ⟨hk, hd d List.mem_cons_self⟩)
    rw [e]
    refine ⟨i1, fun y => (i2 y).trans (hr y), fun y => ?_⟩
    rw [i3, held_snoc]
    simp only [List.mem_cons]
    by_cases hy : d = y
    · simp [hy]
    · simp [hy, Ne.symm hy]

theorem worked_write {s s' : St V} {id v b} (hg : Good s) (h : WI s) (hs : s.write id v b = .ok s') :
    Worked s s' := by
  unfold St.write at hs
  split at hs
  rotate_left
  · cases hs
  rename_i old l cs hv ht
  simp only at hs
  split at hs
  · cases hs; exact .quiet (h.congr (Nat.le_refl _) (fun _ h => h) rfl rfl rfl) (.of_eq rfl)
  unfold St.reportSet at hs
  split at hs
  · cases hs
  rename_i deps hdeps
  obtain ⟨r, hr, h1, h2⟩ := Conn.allDeps_spec s.conn id
  have : r = deps := by
    have h3 : s.conn.allDeps id = some deps := hdeps
    rw [hr] at h3; exact Option.some.inj h3
  subst this
  have hwk : ∀ (l : List GraphId) (t : St V), (t.invalidate l).work = t.work := by
    intro l
    induction l with
    | nil => intro t; rfl
    | cons x l ih =>
      intro t
      simp only [St.invalidate]
      rw [ih]
      split
      · exact clearCache_same_work t x
      · rfl
  have hca := invalidate_cache ({ s with vals := upd s.vals id (some v) } : St V) r
  have hfl := invalidate_fields ({ s with vals := upd s.vals id (some v) } : St V) r
  have hsm := St.invalidate_same ({ s with vals := upd s.vals id (some v) } : St V) r
  have hw := hwk r ({ s with vals := upd s.vals id (some v) } : St V)
  have hkv := (hg.base.vkind id (by rw [hv]; simp)).1
  cases hs
  obtain ⟨k1, k2, k3⟩ := stale_records (w := s.work) (x := id)
    (ds := r.filter fun d => decide (d.kind = .computed) && (s.cache d).isSome) hkv (by
      intro d hd
      simp only [List.mem_filter, Bool.and_eq_true, decide_eq_true_eq] at hd
      exact depends_of_links hg.base h ((h1 d).mp hd.1) hd.2.1) h.ok
  refine ⟨⟨⟨?_, ?_, ?_, ?_⟩, ?_⟩, ?_, ?_⟩
  · intro x hx hd
    simp only [St.emit] at hx hd ⊢
    rw [hw, k3, Bool.and_eq_true, decide_eq_true_eq] at hx
    rw [hsm.defs] at hd
    have hc := h.alive x hx.1 hd
    rw [hca, if_neg]
    · exact hc
    · rintro ⟨e1, e2⟩
      apply hx.2
      simp only [List.mem_filter, Bool.and_eq_true, decide_eq_true_eq]
      exact ⟨e2, e1, by simpa [Option.isSome_iff_ne_none] using hc⟩
  · intro x hx
    simp only [St.emit] at hx ⊢
    rw [hca] at hx
    split at hx
    · exact absurd rfl hx
    rename_i hne
    rw [hw, k3, Bool.and_eq_true, decide_eq_true_eq]
    refine ⟨h.held x hx, fun hm => hne ?_⟩
    simp only [List.mem_filter, Bool.and_eq_true, decide_eq_true_eq] at hm
    exact ⟨hm.2.1, hm.1⟩
  · intro x hx
    simp only [St.emit] at hx ⊢
    rw [hw, k3, Bool.and_eq_true] at hx
    rw [hsm.next]; exact h.num x hx.1
  · simp only [St.emit]; rw [hw]; exact k1
  · intro p c hc he
    simp only [St.emit] at he ⊢
    rw [hfl.1] at he
    rw [hw, k2]; exact h.links p c hc he
  · intro y q hy
    simp only [St.emit] at hy
    rw [hw] at hy
    rcases List.mem_append.mp hy with g | g
    · exact Or.inl g
    · simp at g
  · intro x y hy
    simp only [St.emit] at hy ⊢
    rw [hw] at hy
    rcases List.mem_append.mp hy with g | g
    · exact Or.inl g
    · simp only [List.mem_map, Work.stale.injEq] at g
      obtain ⟨_, _, rfl, _⟩ := g
      exact Or.inr ⟨_, List.mem_append_right _ List.mem_cons_self⟩

theorem worked_mstep {lim} {s s' : St V} (hg : Good s) (ho : Older s) (h : WI s)
    (hs : MStep lim s s') : Worked s s' := by
  cases hs with
  | newValue v b => exact .quiet (h.congr (Nat.le_succ _) (fun _ h => h) rfl rfl rfl) (.of_eq rfl)
  | newComputed p =>
    refine .quiet ⟨⟨?_, h.held, ?_, h.ok⟩, h.links⟩ (.of_eq rfl)
    · intro x hx hd
      have := h.num x hx
      simp only [St.addComputed, St.emit, upd] at hd
      split at hd
      · rename_i e; subst e; exact absurd this (Nat.lt_irrefl _)
      · exact h.alive x hx hd
    · intro x hx; exact Nat.lt_succ_of_lt (h.num x hx)
  | @subscribe s1 _ t a cb o h1 h2 =>
    have g0 := good_addClient hg t a cb
    have g1 := good_startRun g0 h1
    obtain ⟨e1, e2, e3, e4, e5, e6, e7⟩ := startRun_work h1
    have w1 : WI s1 := h.congr (by rw [e6]; exact Nat.le_succ _) (fun x hx => by rw [e5] at hx; exact hx) e3 e4 e1
    have c1 : s1.Can = s.Can := by unfold St.Can; rw [e5]; rfl
    have W := worked_observe g1 (fun x y hxy => ho x y (by rw [← c1]; exact hxy)) w1 (by
      intro cl hcl
      obtain ⟨cl0, q1, q2⟩ := e7 cl hcl
      simp only [St.addClient, St.emit, upd_same] at q1; cases q1
      exact ⟨a, by rw [e2, q2]; simp [St.addClient, St.emit]⟩) h2
    refine ⟨W.wi, fun y r hr => ?_, fun x y hr => ?_⟩
    · have := W.runs y r hr; rw [e1, c1] at this; exact this
    · have := W.stales x y hr; rw [e1] at this; exact this
  | swapOwned hs =>
    unfold St.swapOwned at hs
    split at hs <;> cases hs
    exact .quiet (h.congr (Nat.le_refl _) (fun _ h => h) rfl rfl rfl) (.of_eq rfl)
  | finishRun _ _ hs => exact .quiet (wi_finishRun hg h hs).1 (wi_finishRun hg h hs).2
  | finishDrop hc _ h1 h2 =>
    obtain ⟨w1, n1⟩ := wi_finishRun hg h h1
    obtain ⟨w2, n2⟩ := wi_dropOne (good_finishRun hg h1) w1 (hg.base.ckind _ (by rw [hc]; simp)).1 h2
    exact .quiet w2 (n1.trans n2)
  | giveTo hs =>
    unfold St.giveTo at hs
    split at hs
    · split at hs <;> cases hs
      exact .quiet (h.congr (Nat.le_refl _) (fun _ h => h) rfl rfl rfl) (.of_eq rfl)
    · cases hs; exact .quiet h (.refl _)
  | dropOne hc _ hs =>
    obtain ⟨w2, n2⟩ := wi_dropOne hg h (hg.base.ckind _ (by rw [hc]; simp)).1 hs
    exact .quiet w2 n2
  | dropReq _ _ => exact .quiet (h.congr (Nat.le_refl _) (fun _ h => h) rfl rfl rfl) (.of_eq rfl)
  | dropComputed hs => exact .quiet (wi_dropComputed hg h hs).1 (wi_dropComputed hg h hs).2
  | begin_ _ => exact .quiet (h.congr (Nat.le_refl _) (fun _ h => h) rfl rfl rfl) (.of_eq rfl)
  | end_ _ => exact .quiet (h.congr (Nat.le_refl _) (fun _ h => h) rfl rfl rfl) (.of_eq rfl)
  | write hs => exact worked_write hg h hs
  | @get s1 id v hs =>
    have R := getNode_ran _ _ _ _ _ _ hg (stackOK_nil s) ho h hs
    refine ⟨R.wi.congr (Nat.le_refl _) (fun _ h => h) rfl rfl rfl, fun y r hr => ?_,
      fun x y hr => Or.inl (R.stales x y hr)⟩
    rcases R.runs y r hr with g | g
    · exact Or.inl g
    · exact Or.inr ⟨id, Or.inl ⟨v, !s1.taint id, s1.vals, s1.defs, by simp [St.emit]⟩, g⟩

theorem worked_step {lim} {s s' : St V} (ha : All s) (ho : Older s) (h : WI s)
    (hs : Step lim s s') : Worked s s' := by
  cases hs with
  | micro hs => exact worked_mstep ha.good ho h hs
  | finish _ => exact .quiet (h.congr (Nat.le_refl _) (fun _ h => h) rfl rfl rfl) (.of_eq rfl)
  | skip _ _ _ _ => exact .quiet (h.congr (Nat.le_refl _) (fun _ h => h) rfl rfl rfl) (.of_eq rfl)
  | @refresh s1 _ c cs cl o htx ht hq hc hr h1 h2 =>
    have gg : Good ({ s with todo := cs }.emit (.refreshed c)) :=
      ha.good.congr rfl rfl rfl rfl rfl rfl (fun _ _ => rfl) (fun _ => Iff.rfl)
    have g1 := good_startRun gg h1
    obtain ⟨e1, e2, e3, e4, e5, e6, e7⟩ := startRun_work h1
    have w1 : WI s1 := h.congr (by rw [e6]; exact Nat.le_refl _) (fun x hx => by rw [e5] at hx; exact hx) e3 e4 e1
    have c1 : s1.Can = s.Can := by unfold St.Can; rw [e5]; rfl
    have W := worked_observe g1 (fun x y hxy => ho x y (by rw [← c1]; exact hxy)) w1 (by
      intro cl' hcl
      obtain ⟨cl0, q1, q2⟩ := e7 cl' hcl
      exact ⟨cl0.all, by rw [e2, q2]; exact List.mem_append_left _ (ha.lv.subs c cl0 q1)⟩) h2
    refine ⟨W.wi, fun y r hr => ?_, fun x y hr => ?_⟩
    · have := W.runs y r hr; rw [e1, c1] at this; exact this
    · have := W.stales x y hr; rw [e1] at this; exact this
  | idle _ _ _ => exact .quiet (h.congr (Nat.le_refl _) (fun _ h => h) rfl rfl rfl) (.of_eq rfl)

/-! ## All reachable states -/

omit [DecidableEq V] in
theorem wi_empty : WI ({} : St V) := by
  refine ⟨⟨?_, ?_, ?_, .nil⟩, ?_⟩
  · intro id h; cases h
  · intro id h; exact absurd rfl h
  · intro id h; cases h
  · intro p c _ he; simp [Conn.E, Conn.empty, Rel.get] at he

/-- The history of a reachable state. -/
structure WorkAll (s : St V) : Prop where
  wi : WI s
  runs : ∀ y r, .run y r ∈ s.work → ∃ t, Watched s.log t ∧ Relation.ReflTransGen (Reads (defsOf s.log)) t y
  stales : ∀ x y, .stale x y ∈ s.work → ∃ l, .wrote x l ∈ s.log

omit [DecidableEq V] in
theorem Watched.append {log k : List (Ev V)} {t} (h : Watched log t) : Watched (log ++ k) t := by
  rcases h with ⟨v, b, a, d, h⟩ | ⟨c, a, h⟩
  · exact Or.inl ⟨v, b, a, d, List.mem_append_left _ h⟩
  · exact Or.inr ⟨c, a, List.mem_append_left _ h⟩

omit [DecidableEq V] in
theorem OlderLog.older {s : St V} (h : OlderLog s.log) (hb : LogBase s) : Older s := by
  rintro x y ⟨p, l, h1, h2, h3⟩
  exact h x p l y (hb.defs x p h1) h2 h3

theorem work_star {lim} {s : St V} (h : Star (Step lim) {} s) :
    All s ∧ LogBase s ∧ (OlderLog s.log → WorkAll s) := by
  refine h.inv (P := fun s => All s ∧ LogBase s ∧ (OlderLog s.log → WorkAll s)) ?_
    ⟨all_empty, ⟨?_, ?_⟩, fun _ => ⟨wi_empty, ?_, ?_⟩⟩
  · rintro a b ⟨ha, hb, hs⟩ hstep
    have gr := grow_step ha.good hstep
    obtain ⟨x, l, m⟩ := log_step ha hstep
    refine ⟨⟨good_step ha.good hstep, ci_step ha.good ha.ci hstep, x, l, m⟩, hb.grow ha.good gr, ?_⟩
    intro ho
    obtain ⟨k, l1, _⟩ := gr.log
    have hoa : OlderLog a.log := fun id p l x hd =>
      ho id p l x (by rw [l1]; exact List.mem_append_left _ hd)
    obtain ⟨w1, w2, w3⟩ := hs hoa
    have W := worked_step ha (hoa.older hb) w1 hstep
    have mono : ∀ t y, Relation.ReflTransGen (Reads (defsOf a.log)) t y →
        Relation.ReflTransGen (Reads (defsOf b.log)) t y := by
      intro t y hty
      refine Relation.ReflTransGen.mono ?_ _ _ hty
      rintro x z ⟨p, l, q1, q2, q3⟩
      exact ⟨p, l, by unfold defsOf at q1 ⊢; rw [l1]; exact List.mem_append_left _ q1, q2, q3⟩
    have mono2 : ∀ t y, Relation.ReflTransGen a.Can t y → Relation.ReflTransGen (Reads (defsOf a.log)) t y := by
      intro t y hty
      refine Relation.ReflTransGen.mono ?_ _ _ hty
      rintro x z ⟨p, l, q1, q2, q3⟩
      exact ⟨p, l, hb.defs x p q1, q2, q3⟩
    refine ⟨W.wi, fun y r hr => ?_, fun x y hr => ?_⟩
    · rcases W.runs y r hr with g | ⟨t, g1, g2⟩
      · obtain ⟨t, q1, q2⟩ := w2 y r g
        exact ⟨t, by rw [l1]; exact q1.append, mono t y q2⟩
      · exact ⟨t, g1, mono t y (mono2 t y g2)⟩
    · rcases W.stales x y hr with g | g
      · obtain ⟨l, q⟩ := w3 x y g
        exact ⟨l, by rw [l1]; exact List.mem_append_left _ q⟩
      · exact g
  · intro id p h; cases h
  · intro c h; cases h
  · intro y r h; cases h
  · intro x y h; cases h

end Verif.Reactive

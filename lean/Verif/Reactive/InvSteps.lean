import Verif.Reactive.Exec
/-! # The cache invariant holds in every reachable state -/
namespace Verif.Reactive

variable {V : Type}

/-- A link update keeps the invariant. -/
theorem Good.push {s s' : St V} {X N nodes} (h : Good s) (hp : Push s X N s' nodes)
    (hN : ∀ p ∈ N, s.Src p) (hX : N ≠ [] → s.Dst X)
    (hc : s.cache X = none ∨ s.taint X = true) : Good s' :=
  ⟨h.base.push hp hN hX, h.cache.push h.base.toBase0 hp hc⟩

/-- Reading a node relates the states by any preorder that contains link updates of
computeds and cache updates. -/
theorem getNode_rel {R : St V → St V → Prop} (refl : ∀ a, R a a)
    (trans : ∀ a b c, R a b → R b c → R a c)
    (hpush : ∀ s X N s' nodes, Good s → X.kind = .computed → s.defs X ≠ none →
      (s.cache X = none ∨ s.taint X = true) → (∀ p ∈ N, s.Src p) → s.setParents X N = .ok s' →
      Push s X N s' nodes → R s s')
    (hset : ∀ (s : St V) K id ctx v, Good s → id.kind = .computed →
      (s.cache id = none ∨ s.taint id = true) →
      R s { s.mark K id ctx with
        cache := upd s.cache id (some v)
        work := s.work ++ [.run id (ctx.map (·.1))] })
    (n) : ∀ K (s : St V) id s' v, Good s → StackOK s K → getNode n K s id = .ok (s', v) → R s s' := by
  induction n with
  | zero => intro K s id s' v _ _ h; simp [getNode] at h
  | succ n ih =>
    intro K s id s' v hg hK h
    simp only [getNode] at h
    split at h
    · split at h <;> cases h; exact refl _
    · rename_i hkind
      split at h
      · cases h
      rename_i p hp
      split at h
      · cases h; exact refl _
      rename_i hnone
      split at h
      · cases h
      rename_i s1 w ctx hev
      split at h
      · cases h
      rename_i s2 hset2
      cases h
      have hK1 : StackOK s (id :: K) := by
        intro x hx
        rcases List.mem_cons.mp hx with rfl | hx
        · exact Or.inl hnone
        · exact hK x hx
      have evr : ∀ (p : Prog V) {s ctx s' v ctx'}, Good s → StackOK s (id :: K) →
          p.eval (getNode n (id :: K)) s ctx = .ok (s', v, ctx') → R s s' := by
        intro p
        induction p with
        | ret w =>
          intro s ctx s' v ctx' _ _ h
          simp only [Prog.eval, Except.ok.injEq, Prod.mk.injEq] at h
          rw [h.1]; exact refl _
        | read r k ihk =>
          intro s ctx s' v ctx' hg hK h
          simp only [Prog.eval] at h
          split at h
          · cases h
          · rename_i s1 w h1
            have G := getNode_good n _ _ _ _ _ hg hK h1
            exact trans _ _ _ (ih _ _ _ _ _ hg hK h1) (ihk w G.good G.stack h)
      obtain ⟨g1, f1, k1, c1, ts, e1, e2, e3⟩ := eval_good (getNode_good n (id :: K)) p hg hK1 hev
      simp only [List.nil_append] at e1
      obtain ⟨nodes, hp2⟩ := setParents_push g1.base.wf hset2
      have hN : ∀ q ∈ sOfList (ctx.map (·.1)), s1.Src q := by
        intro q hq
        rw [mem_sOfList, e1] at hq
        simp only [List.map_map, List.mem_map, Function.comp] at hq
        obtain ⟨t, ht, rfl⟩ := hq
        exact (e3 t ht).1
      have hdef1 : s1.defs id ≠ none := by rw [f1.defs, hp]; simp
      have hX1 := k1 id List.mem_cons_self
      have g2 : Good s2 := g1.push hp2 hN (fun _ => Or.inl ⟨hkind, hdef1⟩) hX1
      have hX2 : s2.cache id = none ∨ s2.taint id = true := by
        rcases hX1 with h | h
        · left; rw [hp2.cache]; split
          · rfl
          · exact h
        · right; rw [hp2.taint]; exact h
      exact trans _ _ _ (evr p hg hK1 hev) (trans _ _ _
        (hpush _ _ _ _ _ g1 hkind hdef1 hX1 hN hset2 hp2) (hset _ _ _ _ _ g2 hkind hX2))
    · cases h

/-! ## Moving the invariant to another state -/

theorem CacheOK.transfer {s s' : St V} (h : CacheOK s)
    (hb : ∀ x v, s.cache x = some v → x.kind = .computed)
    (H : ∀ id v, s'.cache id = some v → s'.taint id = false →
      s.cache id = some v ∧ s.taint id = false ∧ s'.defs id = s.defs id ∧
      ∀ r w, s.conn.E r id → s.Cur r w → s'.conn.E r id ∧ s'.Cur r w) : CacheOK s' := by
  have hC : ∀ id w, (s.Cur id w ∧ s'.Cur id w) →
      (id.kind = .value ∧ s.vals id = some w ∧ s'.vals id = some w) ∨
      (id.kind = .computed ∧ ∃ p rs, s.defs id = some p ∧ s'.defs id = some p ∧ Trace p w rs ∧
        ∀ r ∈ rs, s.Cur r.1 r.2 ∧ s'.Cur r.1 r.2) := by
    rintro id w ⟨h1, h2⟩
    rcases h1 with ⟨k1, v1⟩ | ⟨k1, c1, t1⟩
    · rcases h2 with ⟨_, v2⟩ | ⟨k2, _⟩
      · exact Or.inl ⟨k1, v1, v2⟩
      · rw [k1] at k2; cases k2
    · rcases h2 with ⟨k2, _⟩ | ⟨_, c2, t2⟩
      · rw [k1] at k2; cases k2
      · right
        refine ⟨k1, ?_⟩
        obtain ⟨⟨p, rs, j1, j2, j3⟩, _⟩ := h id w c1 t1
        obtain ⟨_, _, hd, hr⟩ := H id w c2 t2
        refine ⟨p, rs, j1, by rw [hd]; exact j1, j2, fun r hm => ?_⟩
        exact ⟨(j3 r hm).2, (hr _ _ (j3 r hm).1 (j3 r hm).2).2⟩
  intro id v hc ht
  obtain ⟨c1, t1, hd, hr⟩ := H id v hc ht
  obtain ⟨⟨p, rs, j1, j2, j3⟩, j4⟩ := h id v c1 t1
  refine ⟨⟨p, rs, by rw [hd]; exact j1, j2, fun r hm => hr _ _ (j3 r hm).1 (j3 r hm).2⟩, ?_⟩
  have hk := hb id v c1
  exact (scratch_transfer (fun r w => s.Cur r w ∧ s'.Cur r w) hC j4 v
    ⟨Or.inr ⟨hk, c1, t1⟩, Or.inr ⟨hk, hc, ht⟩⟩).1

theorem Good.ckind {s : St V} (h : Good s) : ∀ x v, s.cache x = some v → x.kind = .computed :=
  fun x v hc => (h.base.dkind x (h.base.cached x (by rw [hc]; simp))).1

/-- The invariant does not depend on the data of subscriptions, on the transaction state
and on the log. -/
theorem Good.congr {s s' : St V} (h : Good s) (hn : s'.next = s.next) (hv : s'.vals = s.vals)
    (hd : s'.defs = s.defs) (hca : s'.cache = s.cache) (hco : s'.conn = s.conn)
    (hcn : s'.connectable = s.connectable)
    (ht : ∀ x, x.kind = .computed → s'.taint x = s.taint x)
    (hcl : ∀ x, s'.clients x = none ↔ s.clients x = none) : Good s' := by
  have hsrc : ∀ x, s'.Src x ↔ s.Src x := by intro x; unfold St.Src; rw [hv, hd]
  have hdst : ∀ x, s'.Dst x ↔ s.Dst x := by intro x; unfold St.Dst; rw [hd]; simp only [Ne, hcl]
  refine ⟨⟨⟨?_, ?_, ?_, ?_, ?_, ?_, ?_⟩, ?_⟩, ?_⟩
  · rw [hco]; exact h.base.wf
  · intro p c; rw [hco, hsrc]; exact h.base.src p c
  · intro x; rw [hv, hn]; exact h.base.vkind x
  · intro x; rw [hd, hn]; exact h.base.dkind x
  · intro x; rw [Ne, hcl, hn]; exact h.base.ckind x
  · intro x; rw [hca, hd]; exact h.base.cached x
  · intro x; rw [hcn, hv]; exact h.base.con x
  · intro p c; rw [hco, hdst]; exact h.base.dst p c
  · refine h.cache.transfer h.ckind ?_
    intro id v hc htt
    rw [hca] at hc
    rw [ht _ (h.ckind _ _ hc)] at htt
    refine ⟨hc, htt, by rw [hd], fun r w he hcur => ⟨by rw [hco]; exact he, ?_⟩⟩
    rcases hcur with ⟨k, h1⟩ | ⟨k, h1, h2⟩
    · exact Or.inl ⟨k, by rw [hv]; exact h1⟩
    · exact Or.inr ⟨k, by rw [hca]; exact h1, by rw [ht _ k]; exact h2⟩

/-! ## Steps -/

theorem good_addValue {s : St V} (h : Good s) (v b) : Good (s.addValue v b) := by
  have fresh : s.vals ⟨.value, s.next⟩ = none := by
    cases hv : s.vals ⟨.value, s.next⟩ with
    | none => rfl
    | some w => exact absurd (h.base.vkind _ (by rw [hv]; simp)).2 (Nat.lt_irrefl _)
  have mono : ∀ x w, s.vals x = some w → (s.addValue v b).vals x = some w := by
    intro x w hx
    simp only [St.addValue, upd]
    split
    · rename_i e; subst e; rw [fresh] at hx; cases hx
    · exact hx
  have mono' : ∀ x, s.vals x ≠ none → (s.addValue v b).vals x ≠ none := by
    intro x hx
    cases hv : s.vals x with
    | none => exact absurd hv hx
    | some w => rw [mono x w hv]; simp
  refine ⟨⟨⟨h.base.wf, ?_, ?_, ?_, ?_, h.base.cached, ?_⟩, h.base.dst⟩, ?_⟩
  · intro p c he
    rcases h.base.src p c he with ⟨k, h1⟩ | h1
    · exact Or.inl ⟨k, mono' _ h1⟩
    · exact Or.inr h1
  · intro x hx
    simp only [St.addValue, upd] at hx ⊢
    split at hx
    · rename_i e; subst e; exact ⟨rfl, Nat.lt_succ_self _⟩
    · have := h.base.vkind x hx; exact ⟨this.1, Nat.lt_succ_of_lt this.2⟩
  · intro x hx; have := h.base.dkind x hx; exact ⟨this.1, Nat.lt_succ_of_lt this.2⟩
  · intro x hx; have := h.base.ckind x hx; exact ⟨this.1, Nat.lt_succ_of_lt this.2⟩
  · intro x hx
    simp only [St.addValue, upd] at hx ⊢
    split
    · simp
    · rename_i e; rw [if_neg e] at hx; exact h.base.con x hx
  · refine h.cache.transfer h.ckind ?_
    intro id w hc ht
    refine ⟨hc, ht, rfl, fun r u he hcur => ⟨he, ?_⟩⟩
    rcases hcur with ⟨k, h1⟩ | h1
    · exact Or.inl ⟨k, mono _ _ h1⟩
    · exact Or.inr h1

theorem good_addComputed {s : St V} (h : Good s) (p) : Good (s.addComputed p) := by
  have fresh : s.defs ⟨.computed, s.next⟩ = none := by
    cases hv : s.defs ⟨.computed, s.next⟩ with
    | none => rfl
    | some w => exact absurd (h.base.dkind _ (by rw [hv]; simp)).2 (Nat.lt_irrefl _)
  have mono : ∀ x, s.defs x ≠ none → (s.addComputed p).defs x = s.defs x := by
    intro x hx
    simp only [St.addComputed, St.emit, upd]
    split
    · rename_i e; subst e; exact absurd fresh hx
    · rfl
  have mono' : ∀ x, s.defs x ≠ none → (s.addComputed p).defs x ≠ none := by
    intro x hx; rw [mono x hx]; exact hx
  refine ⟨⟨⟨h.base.wf, ?_, ?_, ?_, ?_, ?_, h.base.con⟩, ?_⟩, ?_⟩
  · intro a c he
    rcases h.base.src a c he with h1 | ⟨k, h1⟩
    · exact Or.inl h1
    · exact Or.inr ⟨k, mono' _ h1⟩
  · intro x hx; have := h.base.vkind x hx; exact ⟨this.1, Nat.lt_succ_of_lt this.2⟩
  · intro x hx
    simp only [St.addComputed, St.emit, upd] at hx ⊢
    split at hx
    · rename_i e; subst e; exact ⟨rfl, Nat.lt_succ_self _⟩
    · have := h.base.dkind x hx; exact ⟨this.1, Nat.lt_succ_of_lt this.2⟩
  · intro x hx; have := h.base.ckind x hx; exact ⟨this.1, Nat.lt_succ_of_lt this.2⟩
  · intro x hx; exact mono' _ (h.base.cached x hx)
  · intro a c he
    rcases h.base.dst a c he with ⟨k, h1⟩ | h1
    · exact Or.inl ⟨k, mono' _ h1⟩
    · exact Or.inr h1
  · refine h.cache.transfer h.ckind ?_
    intro id w hc ht
    exact ⟨hc, ht, mono _ (h.base.cached id (by rw [show s.cache id = some w from hc]; simp)),
      fun r u he hcur => ⟨he, hcur⟩⟩

theorem good_addClient {s : St V} (h : Good s) (t a cb) : Good (s.addClient t a cb) := by
  refine ⟨⟨⟨h.base.wf, h.base.src, ?_, ?_, ?_, h.base.cached, h.base.con⟩, ?_⟩, ?_⟩
  · intro x hx; have := h.base.vkind x hx; exact ⟨this.1, Nat.lt_succ_of_lt this.2⟩
  · intro x hx; have := h.base.dkind x hx; exact ⟨this.1, Nat.lt_succ_of_lt this.2⟩
  · intro x hx
    simp only [St.addClient, St.emit, upd] at hx ⊢
    split at hx
    · rename_i e; subst e; exact ⟨rfl, Nat.lt_succ_self _⟩
    · have := h.base.ckind x hx; exact ⟨this.1, Nat.lt_succ_of_lt this.2⟩
  · intro p c he
    rcases h.base.dst p c he with h1 | ⟨k, h1⟩
    · exact Or.inl h1
    · refine Or.inr ⟨k, ?_⟩
      simp only [St.addClient, St.emit, upd]
      split
      · simp
      · exact h1
  · refine h.cache.transfer h.ckind ?_
    intro id w hc ht
    exact ⟨hc, ht, rfl, fun r u he hcur => ⟨he, hcur⟩⟩

theorem upd_none_iff {α : Type} {f : GraphId → Option α} {id : GraphId} {a b : α} (h : f id = some a) (x) :
    upd f id (some b) x = none ↔ f x = none := by
  simp only [upd]; split
  · rename_i e; subst e; simp [h]
  · rfl

theorem good_startRun {s s' : St V} {id} (h : Good s) (hs : s.startRun id = .ok s') : Good s' := by
  unfold St.startRun at hs
  split at hs <;> cases hs
  rename_i cl hcl
  exact h.congr rfl rfl rfl rfl rfl rfl (fun _ _ => rfl) (upd_none_iff hcl)

theorem good_swapOwned {s s' : St V} {id l} (h : Good s) (hs : s.swapOwned id = .ok (s', l)) : Good s' := by
  unfold St.swapOwned at hs
  split at hs <;> cases hs
  rename_i cl hcl
  exact h.congr rfl rfl rfl rfl rfl rfl (fun _ _ => rfl) (upd_none_iff hcl)

theorem good_giveTo {s s' : St V} {o b id} (h : Good s) (hs : s.giveTo o b id = .ok s') : Good s' := by
  unfold St.giveTo at hs
  split at hs
  · split at hs <;> cases hs
    rename_i cl hcl
    exact h.congr rfl rfl rfl rfl rfl rfl (fun _ _ => rfl) (upd_none_iff hcl)
  · cases hs; exact h

theorem good_dropOne {s s' : St V} {id} (h : Good s) (hk : id.kind = .client)
    (hs : s.dropOne id = .ok s') : Good s' := by
  unfold St.dropOne at hs
  have hb : Base0 ({ s with clients := upd s.clients id none }.emit (.dropped id)) :=
    ⟨h.base.wf, h.base.src, h.base.vkind, h.base.dkind, fun x hx => by
      simp only [St.emit, upd] at hx
      split at hx
      · simp at hx
      · exact h.base.ckind x hx, h.base.cached, h.base.con⟩
  obtain ⟨nodes, hp⟩ := setParents_push hb.wf hs
  refine ⟨hb.pushBase hp (by simp) (by simp) ?_, ?_⟩
  · intro p c he hne
    rcases h.base.dst p c he with h1 | ⟨k, h1⟩
    · exact Or.inl h1
    · refine Or.inr ⟨k, ?_⟩
      simp only [St.emit, upd, if_neg hne]; exact h1
  · have hc : CacheOK ({ s with clients := upd s.clients id none }.emit (.dropped id)) :=
      h.cache.transfer h.ckind fun x w hc ht => ⟨hc, ht, rfl, fun r u he hcur => ⟨he, hcur⟩⟩
    refine hc.push hb hp ?_
    left
    show s.cache id = none
    cases hc : s.cache id with
    | none => rfl
    | some w => have := h.ckind id w hc; rw [hk] at this; cases this

theorem good_dropComputed {s s' : St V} {id} (h : Good s) (hs : s.dropComputed id = .ok s') :
    Good s' := by
  unfold St.dropComputed at hs
  split at hs
  rotate_left
  · cases hs
  rename_i hcond
  have hne : ∀ c, ¬ s.conn.E id c := by
    intro c he; unfold Conn.E at he; rw [hcond.2] at he; cases he
  generalize h1 : ({ s with defs := upd s.defs id none, cache := upd s.cache id none }.emit
    (.dropped id)) = s1 at hs
  have hb : Base0 s1 := by
    subst h1
    refine ⟨h.base.wf, ?_, h.base.vkind, ?_, h.base.ckind, ?_, h.base.con⟩
    · intro p c he
      rcases h.base.src p c he with g | ⟨g1, g2⟩
      · exact Or.inl g
      · refine Or.inr ⟨g1, ?_⟩
        simp only [St.emit, upd]
        rw [if_neg]
        · exact g2
        · rintro rfl; exact hne c he
    · intro x hx
      simp only [St.emit, upd] at hx
      split at hx
      · simp at hx
      · exact h.base.dkind x hx
    · intro x hx
      simp only [St.emit, upd] at hx ⊢
      split at hx
      · simp at hx
      · rename_i e; rw [if_neg e]; exact h.base.cached x hx
  have hc : CacheOK s1 := by
    refine h.cache.transfer h.ckind ?_
    intro x w hc ht
    subst h1
    simp only [St.emit, upd] at hc ht ⊢
    split at hc
    · cases hc
    rename_i e
    refine ⟨hc, ht, by rw [if_neg e], fun r u he hcur => ⟨he, ?_⟩⟩
    rcases hcur with g | ⟨g1, g2, g3⟩
    · exact Or.inl g
    · refine Or.inr ⟨g1, ?_, g3⟩
      simp only
      rw [upd_ne]
      · exact g2
      · rintro rfl; exact hne x he
  obtain ⟨nodes, hp⟩ := setParents_push hb.wf hs
  refine ⟨hb.pushBase hp (by simp) (by simp) ?_, hc.push hb hp ?_⟩
  · intro p c he hn
    subst h1
    rcases h.base.dst p c he with ⟨k, g⟩ | g
    · refine Or.inl ⟨k, ?_⟩
      simp only [St.emit, upd, if_neg hn]; exact g
    · exact Or.inr g
  · left; subst h1; simp [St.emit, upd]

/-! ### Writing -/

theorem invalidate_fields (s : St V) (l) :
    (s.invalidate l).conn = s.conn ∧ (s.invalidate l).taint = s.taint ∧
    (s.invalidate l).connected = s.connected ∧ (s.invalidate l).clients = s.clients ∧
    (s.invalidate l).log = s.log := by
  induction l generalizing s with
  | nil => simp [St.invalidate]
  | cons x l ih =>
    simp only [St.invalidate]
    have ih' := fun t => ih t
    simp only [forall_and] at ih'
    obtain ⟨h1, h2, h3, h4, h5⟩ := ih'
    rw [h1, h2, h3, h4, h5]
    split
    · rename_i hk
      obtain ⟨g1, g2, g3, g4⟩ := clearCache_rest s x
      refine ⟨g1, g2, g3, ?_, g4⟩
      funext y; rw [clearCache_clients, if_neg]
      rintro ⟨rfl, h2⟩; rw [hk] at h2; cases h2
    · simp

theorem invalidate_cache (s : St V) (l x) : (s.invalidate l).cache x =
    if x.kind = .computed ∧ x ∈ l then none else s.cache x := by
  induction l generalizing s with
  | nil => simp [St.invalidate]
  | cons y l ih =>
    simp only [St.invalidate]
    rw [ih]
    by_cases hk : x.kind = .computed
    · by_cases hl : x ∈ l
      · simp [hk, hl]
      · by_cases hy : x = y
        · subst hy; simp [hk, hl, clearCache_cache]
        · simp only [hk, hl, and_false, ↓reduceIte, List.mem_cons, hy, or_self]
          split
          · rw [clearCache_cache, if_neg]; rintro ⟨h1, _⟩; exact hy h1
          · rfl
    · simp only [hk, false_and, ↓reduceIte]
      split
      · rename_i hy
        rw [clearCache_cache, if_neg]; rintro ⟨rfl, h2⟩; exact hk h2
      · rfl

/-- What a write that is reported does. -/
structure Wrote (s : St V) (id : GraphId) (v : V) (s' : St V) : Prop where
  next : s'.next = s.next
  vals : s'.vals = upd s.vals id (some v)
  defs : s'.defs = s.defs
  conn : s'.conn = s.conn
  taint : s'.taint = s.taint
  connectable : s'.connectable = s.connectable
  connected : s'.connected = s.connected
  clients : s'.clients = s.clients
  todo : s'.todo = s.todo
  ex : ∃ l cs deps, s.tx = .modification l cs ∧
    (∀ y, y ∈ deps ↔ Relation.TransGen s.conn.E id y) ∧ Asc deps ∧
    (∀ x, s'.cache x = if x.kind = .computed ∧ x ∈ deps then none else s.cache x) ∧
    s'.tx = .modification l (sExtend cs (deps.filter fun d => d.kind = .client)) ∧
    s'.log = s.log ++ [.wrote id (deps.filter fun d => d.kind = .client)]

theorem write_cases [DecidableEq V] {s s' : St V} {id v b} (h : s.write id v b = .ok s') :
    ∃ old l cs, s.vals id = some old ∧ s.tx = .modification l cs ∧
      ((b = true ∧ old = v ∧ s' = s) ∨
      (¬ (b = true ∧ old = v) ∧ Wrote s id v s')) := by
  unfold St.write at h
  split at h
  rotate_left
  · cases h
  rename_i old l cs hv ht
  refine ⟨old, l, cs, hv, ht, ?_⟩
  simp only at h
  split at h
  · rename_i hc
    simp only [Bool.and_eq_true, decide_eq_true_eq] at hc
    cases h
    refine Or.inl ⟨hc.1, hc.2, ?_⟩
    have : upd s.vals id (some v) = s.vals := by
      funext x; simp only [upd]; split
      · rename_i e; subst e; rw [hv, hc.2]
      · rfl
    rw [this]
  · rename_i hc
    simp only [Bool.and_eq_true, decide_eq_true_eq] at hc
    refine Or.inr ⟨hc, ?_⟩
    unfold St.reportSet at h
    split at h
    · cases h
    rename_i deps hdeps
    cases h
    obtain ⟨r, hr, h1, h2⟩ := Conn.allDeps_spec s.conn id
    have : r = deps := by
      have h3 : s.conn.allDeps id = some deps := hdeps
      rw [hr] at h3; exact Option.some.inj h3
    subst this
    obtain ⟨f1, f2, f3, f4, f5⟩ := invalidate_fields ({ s with vals := upd s.vals id (some v) } : St V) r
    have f6 := St.invalidate_same ({ s with vals := upd s.vals id (some v) } : St V) r
    refine ⟨f6.next, f6.vals, f6.defs, f1, f2, f6.connectable, f3, f4, f6.todo, l, cs, r, ht, h1, h2,
      fun x => invalidate_cache _ _ _, ?_, ?_⟩
    · show TxState.addClients (St.invalidate _ _).tx _ = _
      rw [f6.tx]; simp only [ht, TxState.addClients]
    · simp only [St.emit, f5]

theorem good_write [DecidableEq V] {s s' : St V} {id v b} (h : Good s) (hs : s.write id v b = .ok s') :
    Good s' := by
  obtain ⟨old, l, cs, hv, ht, ⟨_, _, rfl⟩ | ⟨_, W⟩⟩ := write_cases hs
  · exact h
  obtain ⟨l, cs, deps, w1, w2, w3, w4, w5, w6⟩ := W.ex
  have hk := (h.base.vkind id (by rw [hv]; simp)).1
  have mono : ∀ x, s'.vals x ≠ none ↔ s.vals x ≠ none := by
    intro x; rw [W.vals, Ne, upd_none_iff hv]
  have hsrc : ∀ x, s'.Src x ↔ s.Src x := by intro x; unfold St.Src; rw [mono, W.defs]
  refine ⟨⟨⟨?_, ?_, ?_, ?_, ?_, ?_, ?_⟩, ?_⟩, ?_⟩
  · rw [W.conn]; exact h.base.wf
  · intro p c; rw [W.conn, hsrc]; exact h.base.src p c
  · intro x; rw [mono, W.next]; exact h.base.vkind x
  · intro x; rw [W.defs, W.next]; exact h.base.dkind x
  · intro x; rw [W.clients, W.next]; exact h.base.ckind x
  · intro x hx; rw [W.defs]; rw [w4] at hx
    split at hx
    · simp at hx
    · exact h.base.cached x hx
  · intro x; rw [W.connectable, mono]; exact h.base.con x
  · intro p c; rw [W.conn]; unfold St.Dst; rw [W.defs, W.clients]; exact h.base.dst p c
  · refine h.cache.transfer h.ckind ?_
    intro x w hc ht
    rw [w4] at hc
    rw [W.taint] at ht
    split at hc
    · cases hc
    rename_i hnot
    have hkx := h.ckind x w hc
    have hnd : x ∉ deps := fun hd => hnot ⟨hkx, hd⟩
    refine ⟨hc, ht, by rw [W.defs], fun r u he hcur => ⟨by rw [W.conn]; exact he, ?_⟩⟩
    have hr : r ≠ id := by
      rintro rfl; exact hnd ((w2 x).mpr (.single he))
    have hr2 : r ∉ deps := fun hd => hnd ((w2 x).mpr (((w2 r).mp hd).tail he))
    rcases hcur with ⟨g1, g2⟩ | ⟨g1, g2, g3⟩
    · exact Or.inl ⟨g1, by rw [W.vals, upd_ne _ hr]; exact g2⟩
    · refine Or.inr ⟨g1, ?_, by rw [W.taint]; exact g3⟩
      rw [w4, if_neg]
      · exact g2
      · rintro ⟨_, hd⟩; exact hr2 hd

variable [DecidableEq V]

omit [DecidableEq V] in
theorem stackOK_nil (s : St V) : StackOK s [] := fun _ h => by cases h

omit [DecidableEq V] in
theorem good_get {s s' : St V} {lim id v} (h : Good s) (hs : getNode lim [] s id = .ok (s', v)) :
    Got s [] id s' v := getNode_good _ _ _ _ _ _ h (stackOK_nil s) hs

/-- What observing does. -/
theorem observe_cases {s s' : St V} {lim id o} (h : s.observe lim id = .ok (s', o)) :
    ∃ cl s1 v cl1, s.clients id = some cl ∧ getNode lim [] s cl.target = .ok (s1, v) ∧
      s1.clients id = some cl1 ∧
      (((cl1.all = true ∨ cl1.prev ≠ some v) ∧ o = some v ∧
        s' = ({ s1 with clients := upd s1.clients id (some { cl1 with prev := some v }) }.emit
          (.deliver id v (!s1.taint cl1.target) s1.vals s1.defs))) ∨
       (cl1.all = false ∧ cl1.prev = some v ∧ o = none ∧
        s' = { s1 with clients := upd s1.clients id (some { cl1 with prev := some v }) })) := by
  unfold St.observe at h
  split at h
  · cases h
  rename_i cl hcl
  split at h
  · cases h
  rename_i s1 v h1
  split at h
  · cases h
  rename_i cl1 hcl1
  refine ⟨cl, s1, v, cl1, hcl, h1, hcl1, ?_⟩
  simp only at h
  split at h
  · rename_i hc
    simp only [Bool.or_eq_true, decide_eq_true_eq] at hc
    cases h
    exact Or.inl ⟨hc, rfl, rfl⟩
  · rename_i hc
    simp only [Bool.or_eq_true, decide_eq_true_eq, not_or, Bool.not_eq_true, Decidable.not_not] at hc
    cases h
    exact Or.inr ⟨hc.1, hc.2, rfl, rfl⟩

theorem good_observe {s s' : St V} {lim id o} (h : Good s) (hs : s.observe lim id = .ok (s', o)) :
    Good s' := by
  obtain ⟨cl, s1, v, cl1, h1, h2, h3, ⟨_, _, rfl⟩ | ⟨_, _, _, rfl⟩⟩ := observe_cases hs
  all_goals exact (good_get h h2).good.congr rfl rfl rfl rfl rfl rfl (fun _ _ => rfl) (upd_none_iff h3)

/-- What ending a run does. -/
theorem finishRun_cases {s s' : St V} {id} (h : s.finishRun id = .ok s') :
    ∃ cl s1, s.clients id = some cl ∧ cl.running = true ∧
      (s.vals cl.target ≠ none ∨ s.defs cl.target ≠ none) ∧
      s.setParents id [cl.target] = .ok s1 ∧
      s' = ({ s1 with
            taint := upd s1.taint id (decide (id ∉ s1.conn.pc.get cl.target) ||
              s1.taint cl.target || decide (s1.cache cl.target ≠ cl.prev))
            clients := upd s1.clients id (some { cl with ready := true, running := false }) }.emit
              (.ran id)) := by
  unfold St.finishRun at h
  split at h
  · cases h
  rename_i cl hcl
  split at h
  · cases h
  rename_i hsrc
  split at h
  · cases h
  rename_i s1 h1
  cases h
  simp only [Bool.or_eq_true, Bool.and_eq_true, Option.isNone_iff_eq_none, not_or,
    Classical.not_and_iff_not_or_not, Bool.not_eq_true', Bool.not_eq_false] at hsrc
  exact ⟨cl, s1, hcl, hsrc.2, hsrc.1, h1, rfl⟩

theorem good_finishRun {s s' : St V} {id} (h : Good s) (hs : s.finishRun id = .ok s') :
    Good s' := by
  obtain ⟨cl, s1, hcl, hrun, hsrc, h1, rfl⟩ := finishRun_cases hs
  have ht : s.Src cl.target := by
    rcases hsrc with g | g
    · exact Or.inl ⟨(h.base.vkind _ g).1, g⟩
    · exact Or.inr ⟨(h.base.dkind _ g).1, g⟩
  have hk := (h.base.ckind id (by rw [hcl]; simp)).1
  obtain ⟨nodes, hp⟩ := setParents_push h.base.wf h1
  have g1 : Good s1 := h.push hp (by simpa using ht) (fun _ => Or.inr ⟨hk, by rw [hcl]; simp⟩)
    (Or.inl (by
      cases hc : s.cache id with
      | none => rfl
      | some w => have := h.ckind id w hc; rw [hk] at this; cases this))
  refine g1.congr rfl rfl rfl rfl rfl rfl (fun x hx => ?_) (fun x => ?_)
  · simp only [St.emit]; rw [upd_ne]; rintro rfl; rw [hk] at hx; cases hx
  · have : s1.clients id ≠ none := fun h' => by
      have := (hp.clients_none id).mp h'; rw [hcl] at this; cases this
    simp only [St.emit, upd]; split
    · rename_i e; subst e; simp [this]
    · rfl

theorem good_mstep {lim} {s s' : St V} (g : Good s) (h : MStep lim s s') : Good s' := by
  cases h with
  | newValue v b => exact good_addValue g v b
  | newComputed p => exact good_addComputed g p
  | subscribe h1 h2 => exact good_observe (good_startRun (good_addClient g _ _ _) h1) h2
  | swapOwned h => exact good_swapOwned g h
  | finishRun _ _ h => exact good_finishRun g h
  | finishDrop hc _ h1 h2 =>
    exact good_dropOne (good_finishRun g h1) (g.base.ckind _ (by rw [hc]; simp)).1 h2
  | giveTo h => exact good_giveTo g h
  | dropOne hc _ h => exact good_dropOne g (g.base.ckind _ (by rw [hc]; simp)).1 h
  | dropReq h1 h2 => exact g.congr rfl rfl rfl rfl rfl rfl (fun _ _ => rfl) (upd_none_iff h1)
  | dropComputed h => exact good_dropComputed g h
  | begin_ h => exact g.congr rfl rfl rfl rfl rfl rfl (fun _ _ => rfl) (fun _ => Iff.rfl)
  | end_ h => exact g.congr rfl rfl rfl rfl rfl rfl (fun _ _ => rfl) (fun _ => Iff.rfl)
  | write h => exact good_write g h
  | get h => exact (good_get g h).good.congr rfl rfl rfl rfl rfl rfl (fun _ _ => rfl) (fun _ => Iff.rfl)

theorem good_step {lim} {s s' : St V} (g : Good s) (h : Step lim s s') : Good s' := by
  cases h with
  | micro h => exact good_mstep g h
  | finish h => exact g.congr rfl rfl rfl rfl rfl rfl (fun _ _ => rfl) (fun _ => Iff.rfl)
  | skip _ _ _ _ => exact g.congr rfl rfl rfl rfl rfl rfl (fun _ _ => rfl) (fun _ => Iff.rfl)
  | refresh _ _ _ _ _ h1 h2 =>
    refine good_observe (good_startRun ?_ h1) h2
    exact g.congr rfl rfl rfl rfl rfl rfl (fun _ _ => rfl) (fun _ => Iff.rfl)
  | idle _ _ _ => exact g.congr rfl rfl rfl rfl rfl rfl (fun _ _ => rfl) (fun _ => Iff.rfl)

omit [DecidableEq V] in
theorem good_empty : Good ({} : St V) := by
  refine ⟨⟨⟨Conn.WF.empty, ?_, ?_, ?_, ?_, ?_, ?_⟩, ?_⟩, ?_⟩
  · intro p c he; simp [Conn.E, Conn.empty, Rel.get] at he
  · intro x hx; simp at hx
  · intro x hx; simp at hx
  · intro x hx; simp at hx
  · intro x hx; simp at hx
  · intro x hx; simp at hx
  · intro p c he; simp [Conn.E, Conn.empty, Rel.get] at he
  · intro x v hx; simp at hx

theorem good_star {lim} {s : St V} (h : Star (Step lim) {} s) : Good s :=
  h.inv (fun _ _ g h => good_step g h) good_empty

end Verif.Reactive

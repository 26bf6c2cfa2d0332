import Verif.Reactive.RefreshProps
/-!
# C11: `set_value_and_compare` and `change`
-/
namespace Verif.Reactive

variable {V : Type}

/-! ## While subscribers are refreshed nothing is written -/

/-- Contents of values that exist are kept, and nothing is announced. -/
structure Frozen (s s' : St V) : Prop where
  tx : s'.tx = .refreshing
  vals : ∀ x v, s.vals x = some v → s'.vals x = some v
  log : ∃ k, s'.log = s.log ++ k ∧ ∀ e ∈ k, e.inTx = false

theorem Frozen.trans {a b c : St V} (h1 : Frozen a b) (h2 : Frozen b c) : Frozen a c := by
  obtain ⟨t1, v1, k1, l1, n1⟩ := h1
  obtain ⟨t2, v2, k2, l2, n2⟩ := h2
  refine ⟨t2, fun x v h => v2 x v (v1 x v h), k1 ++ k2, by rw [l2, l1]; simp, ?_⟩
  intro e hm
  rcases List.mem_append.mp hm with h | h
  · exact n1 _ h
  · exact n2 _ h

theorem Frozen.mk' {s s' : St V} {k} (ht : s'.tx = .refreshing) (hv : s'.vals = s.vals)
    (hl : s'.log = s.log ++ k) (hk : ∀ e ∈ k, e.inTx = false) : Frozen s s' :=
  ⟨ht, fun x v h => by rw [hv]; exact h, k, hl, hk⟩

theorem isConn_notWrote {k : List (Ev V)} (h : ∀ e ∈ k, e.isConn = true) : ∀ e ∈ k, e.inTx = false := by
  intro e hm; have := h _ hm
  cases e <;> simp [Ev.isConn] at this <;> rfl

theorem frozen_push {s s' : St V} {X N} (ht : s.tx = .refreshing) (h : s.setParents X N = .ok s') : Frozen s s' := by
  obtain ⟨k, l1, l2⟩ := setParents_log h
  have := same_setParents h
  exact .mk' (this.tx.trans ht) this.vals l1 (isConn_notWrote l2)

theorem frozen_dropOne {s s' : St V} {id} (ht : s.tx = .refreshing) (hs : s.dropOne id = .ok s') : Frozen s s' := by
  unfold St.dropOne at hs
  refine Frozen.trans ?_ (frozen_push (by exact ht) hs)
  exact .mk' (k := [_]) ht rfl rfl (by simp [Ev.inTx])

variable [DecidableEq V]

theorem frozen_finishRun {s s' : St V} {id} (ht : s.tx = .refreshing) (hs : s.finishRun id = .ok s') : Frozen s s' := by
  obtain ⟨cl, s1, hcl, hrun, hsrc, h1, rfl⟩ := finishRun_cases hs
  have h2 := frozen_push ht h1
  refine h2.trans ?_
  exact .mk' (k := [_]) h2.tx rfl rfl (by simp [Ev.inTx])

theorem frozen_observe {s s' : St V} {lim id o} (hg : Good s) (ht : s.tx = .refreshing)
    (hs : s.observe lim id = .ok (s', o)) : Frozen s s' := by
  obtain ⟨cl, s1, v, cl1, h1, h2, h3, h4⟩ := observe_cases hs
  have hr := getNode_evalRel hg (stackOK_nil s) h2
  obtain ⟨k, l1, l2⟩ := hr.log
  have f1 : Frozen s s1 := .mk' (hr.same.tx.trans ht) hr.same.vals l1 (isConn_notWrote l2)
  refine f1.trans ?_
  rcases h4 with ⟨_, _, rfl⟩ | ⟨_, _, _, rfl⟩
  · exact .mk' (k := [_]) f1.tx rfl rfl (by simp [Ev.inTx])
  · exact .mk' (k := []) f1.tx rfl (by simp) (by simp)

omit [DecidableEq V] in
theorem frozen_startRun {s s' : St V} {id} (ht : s.tx = .refreshing) (hs : s.startRun id = .ok s') : Frozen s s' := by
  unfold St.startRun at hs
  split at hs <;> cases hs
  exact .mk' (k := []) ht rfl (by simp) (by simp)

theorem frozen_mstep {lim} {s s' : St V} (hg : Good s) (ht : s.tx = .refreshing) (hs : MStep lim s s') :
    Frozen s s' := by
  cases hs with
  | newValue v b =>
    refine ⟨ht, fun x w hx => ?_, [], by simp [St.addValue], by simp⟩
    have := (hg.base.vkind x (by rw [hx]; simp)).2
    simp only [St.addValue, upd]
    rw [if_neg]; exact hx
    rintro rfl; simp at this
  | newComputed p => exact .mk' (k := [_]) ht rfl rfl (by simp [Ev.inTx])
  | @subscribe s1 _ t a cb o h1 h2 =>
    have f0 : Frozen s (s.addClient t a cb) := .mk' (k := [_]) ht rfl rfl (by simp [Ev.inTx])
    have f1 := f0.trans (frozen_startRun f0.tx h1)
    exact f1.trans (frozen_observe (good_startRun (good_addClient hg t a cb) h1) f1.tx h2)
  | swapOwned hs =>
    unfold St.swapOwned at hs
    split at hs <;> cases hs
    exact .mk' (k := []) ht rfl (by simp) (by simp)
  | finishRun _ _ hs => exact frozen_finishRun ht hs
  | finishDrop _ _ h1 h2 =>
    have := frozen_finishRun ht h1
    exact this.trans (frozen_dropOne this.tx h2)
  | giveTo hs =>
    unfold St.giveTo at hs
    split at hs
    · split at hs <;> cases hs
      exact .mk' (k := []) ht rfl (by simp) (by simp)
    · cases hs; exact .mk' (k := []) ht rfl (by simp) (by simp)
  | dropOne _ _ hs => exact frozen_dropOne ht hs
  | dropReq h _ => exact .mk' (k := [_]) ht rfl rfl (by simp [Ev.inTx])
  | dropComputed hs =>
    unfold St.dropComputed at hs
    split at hs
    · refine Frozen.trans ?_ (frozen_push (by exact ht) hs)
      exact .mk' (k := [_]) ht rfl rfl (by simp [Ev.inTx])
    · cases hs
  | begin_ hu => rw [ht] at hu; cases hu
  | end_ hd =>
    rw [ht] at hd; cases hd
    exact .mk' (k := [_]) rfl rfl rfl (by simp [Ev.inTx])
  | @write _ id v b hs =>
    obtain ⟨old, l, cs, hv, h, _⟩ := write_cases hs
    rw [ht] at h; cases h
  | @get s1 id v hs =>
    have hr := getNode_evalRel hg (stackOK_nil s) hs
    obtain ⟨k, l1, l2⟩ := hr.log
    have f1 : Frozen s s1 := .mk' (hr.same.tx.trans ht) hr.same.vals l1 (isConn_notWrote l2)
    exact f1.trans (.mk' (k := [_]) f1.tx rfl rfl (by simp [Ev.inTx]))

theorem frozen_refreshAll {lim} (cs) : ∀ {s s' : St V}, Good s → s.tx = .refreshing →
    refreshAll lim cs s = .ok s' → Good s' ∧ Frozen s s' := by
  let R : St V → St V → Prop := fun a b => Good a → a.tx = .refreshing → Good b ∧ Frozen a b
  have hR : Contains lim R := by
    refine ⟨fun a hg ht => ⟨hg, .mk' (k := []) ht rfl (by simp) (by simp)⟩, fun a b c h1 h2 hg ht => ?_,
      fun a b h hg ht => ⟨good_mstep hg h, frozen_mstep hg ht h⟩⟩
    obtain ⟨g1, f1⟩ := h1 hg ht
    obtain ⟨g2, f2⟩ := h2 g1 f1.tx
    exact ⟨g2, f1.trans f2⟩
  induction cs with
  | nil =>
    intro s s' hg ht h
    simp [refreshAll] at h; subst h
    exact ⟨hg, .mk' (k := []) ht rfl (by simp) (by simp)⟩
  | cons c cs ih =>
    intro s s' hg ht h
    have hskip : ∀ e : Ev V, e.inTx = false →
        Good ({ s with todo := cs }.emit e) ∧ Frozen s ({ s with todo := cs }.emit e) := by
      intro e he
      exact ⟨hg.congr rfl rfl rfl rfl rfl rfl (fun _ _ => rfl) (fun _ => Iff.rfl),
        .mk' (k := [e]) ht rfl rfl (by intro x hm; simp only [List.mem_singleton] at hm; subst hm; exact he)⟩
    simp only [refreshAll] at h
    split at h
    · obtain ⟨g, f⟩ := hskip (.skipped c) rfl
      obtain ⟨g', f'⟩ := ih g f.tx h
      exact ⟨g', f.trans f'⟩
    · rename_i cl hc
      split at h
      · split at h
        · cases h
        rename_i s1 h1
        obtain ⟨g, f⟩ := hskip (.refreshed c) rfl
        obtain ⟨a0, a1, o, g0, g1, a2, a3, g2, g3, g4⟩ :=
          runClient_steps hR (fun v s s' hs => run_steps hR (fun _ _ _ _ _ h => by cases h) _ hs) h1
        obtain ⟨a4, g5, g6, g7⟩ := finishEnd_steps lim _ _ g3 g4
        have f0 := f.trans (frozen_startRun f.tx g0)
        have G0 := good_startRun g g0
        have f1 := f0.trans (frozen_observe G0 f0.tx g1)
        have G1 := good_observe G0 g1
        obtain ⟨G2, f2⟩ := g2 G1 f1.tx
        have f2 := f1.trans f2
        obtain ⟨G3, f3⟩ := hR.star ((Star.single g5).trans g6) G2 f2.tx
        have f3 := f2.trans f3
        obtain ⟨g', f'⟩ := ih G3 f3.tx h
        exact ⟨g', f3.trans f'⟩
      · obtain ⟨g, f⟩ := hskip (.skipped c) rfl
        obtain ⟨g', f'⟩ := ih g f.tx h
        exact ⟨g', f.trans f'⟩

/-! ## C11 -/

/-- Number of announced changes. -/
def writes (log : List (Ev V)) : List GraphId :=
  log.filterMap fun e => match e with
    | .wrote id _ => some id
    | _ => none

omit [DecidableEq V] in
theorem writes_none {k : List (Ev V)} (h : ∀ e ∈ k, e.inTx = false) : writes k = [] := by
  induction k with
  | nil => rfl
  | cons e k ih =>
    have h1 := ih (fun e hm => h e (List.mem_cons_of_mem _ hm))
    have h2 := h e List.mem_cons_self
    unfold writes at h1 ⊢
    rw [List.filterMap_cons, h1]
    cases e <;> simp [Ev.inTx] at h2 <;> rfl

/-- **C11 (equal value).** `set_value_and_compare` with the current content of the value,
called outside of a transaction, has no effect at all except for an empty transaction: no
subscriber is notified (`finish []`), no cache is cleared, nothing is written. -/
theorem C11_equal_changes_nothing {lim} {a : Act V} {s : St V} (h : a.exec lim = .ok s) (hidle : s.tx = .idle)
    {id v} (hv : s.vals id = some v) (o : Option GraphId) (k : Act V) :
    (Act.setCompare id v k).run lim (finishTx lim) o s =
      k.run lim (finishTx lim) o { s with log := s.log ++ [.begin_, .end_, .finish [], .idle] } := by
  have htodo := (all_star (exec_steps h)).ci.todo (by rw [hidle]; simp)
  have hvals : upd s.vals id (some v) = s.vals := by
    funext x; simp only [upd]; split
    · rename_i e; rw [e, hv]
    · rfl
  obtain ⟨next, vals, defs, cache, conn, tx, connectable, connected, clients, todo, taint, log⟩ := s
  simp only at hidle htodo hv hvals
  subst hidle; subst htodo
  simp only [Act.setCompare, Act.run, TxState.up, St.write, St.emit, hv, hvals, TxState.down, finishTx, refreshAll,
    TxState.moveToIdle, Bool.true_and, decide_true, if_true]
  simp

/-- **C11 (equal value, inside of a transaction).** The same inside of a transaction; its
list of affected subscribers stays the same. -/
theorem C11_equal_changes_nothing_nested {lim} {s : St V} {l cs} (htx : s.tx = .modification l cs)
    (hl : 0 < l) (hb : l + 1 < 65536) {id v} (hv : s.vals id = some v) (o : Option GraphId) (k : Act V) :
    (Act.setCompare id v k).run lim (finishTx lim) o s =
      k.run lim (finishTx lim) o { s with log := s.log ++ [.begin_, .end_] } := by
  have hvals : upd s.vals id (some v) = s.vals := by
    funext x; simp only [upd]; split
    · rename_i e; rw [e, hv]
    · rfl
  obtain ⟨next, vals, defs, cache, conn, tx, connectable, connected, clients, todo, taint, log⟩ := s
  simp only at htx hv hvals
  subst htx
  simp only [Act.setCompare, Act.run, TxState.up, St.write, St.emit, hv, hvals, TxState.down,
    Bool.true_and, decide_true, if_true, if_pos hb]
  rw [if_neg (by omega)]
  simp

/-- **C11 (different value).** With any other value it does the same as `set`. -/
theorem C11_different_is_set {lim} {s : St V} {id old v} (hv : s.vals id = some old) (hne : old ≠ v)
    (fin : List GraphId → St V → Except Err (St V)) (o : Option GraphId) (k : Act V) :
    (Act.setCompare id v k).run lim fin o s = (Act.set id v k).run lim fin o s := by
  simp only [Act.setCompare, Act.set, Act.run]
  cases hu : s.tx.up with
  | error e => rfl
  | ok tx =>
    simp only
    have : (({ s with tx := tx } : St V).emit .begin_).write id v true =
        (({ s with tx := tx } : St V).emit .begin_).write id v false := by
      unfold St.write
      simp only [St.emit, hv]
      cases tx <;> simp [hne]
    rw [this]

/-- What one change of one value amounts to. -/
structure OneSet (s : St V) (id : GraphId) (v : V) (s' : St V) : Prop where
  content : s'.vals id = some v
  others : ∀ x w, x ≠ id → s.vals x = some w → s'.vals x = some w
  announced : ∃ k, s'.log = s.log ++ k ∧ writes k = [id] ∧
    ∃ cs pre post, k = pre ++ .finish cs :: post ∧ ∀ cs', .finish cs' ∉ pre ++ post
  idle : s'.tx = .idle

theorem oneSet_finish {lim cs} {s s1 s' : St V} {id v pre} (hg : Good s1) (ht : s1.tx = .refreshing)
    (hv : s1.vals = upd s.vals id (some v)) (hlog : s1.log = s.log ++ pre) (hw : writes pre = [id])
    (hf : ∀ cs', .finish cs' ∉ pre) (h : finishTx lim cs s1 = .ok s') : OneSet s id v s' := by
  unfold finishTx at h
  split at h
  · cases h
  rename_i s2 h2
  cases h
  have hg' : Good ({ s1 with todo := cs }.emit (.finish cs)) :=
    hg.congr rfl rfl rfl rfl rfl rfl (fun _ _ => rfl) (fun _ => Iff.rfl)
  obtain ⟨_, f⟩ := frozen_refreshAll cs hg' (by exact ht) h2
  obtain ⟨k, l1, l2⟩ := f.log
  refine ⟨?_, ?_, ⟨pre ++ .finish cs :: (k ++ [.idle]), ?_, ?_, cs, pre, k ++ [.idle], rfl, ?_⟩, ?_⟩
  · exact f.vals id v (by simp [St.emit, hv, upd])
  · intro x w hx hs
    refine f.vals x w ?_
    show s1.vals x = _
    rw [hv]; simp only [upd]; rw [if_neg hx]; exact hs
  · simp [St.emit, l1, hlog]
  · have := writes_none l2
    unfold writes at hw this ⊢
    rw [List.filterMap_append, hw, List.filterMap_cons, List.filterMap_append, this]
    rfl
  · intro cs' hm
    rcases List.mem_append.mp hm with h | h
    · exact hf cs' h
    · rcases List.mem_append.mp h with h | h
      · have := l2 _ h; cases this
      · simp at h
  · simp only [St.emit, f.tx, TxState.moveToIdle]

/-- **`set`.** A `set` outside of a transaction, when it returns, leaves the value in
place, has not touched any other value, has announced exactly one change and ended exactly
one outermost transaction. -/
theorem C11_set_is_one_set {lim} {a : Act V} {s s' : St V} (h : a.exec lim = .ok s) (hidle : s.tx = .idle)
    {id v o} (hr : (Act.set id v .done).run lim (finishTx lim) o s = .ok s') : OneSet s id v s' := by
  have hg := (all_star (exec_steps h)).good
  simp only [Act.set, Act.run, hidle, TxState.up] at hr
  split at hr
  · cases hr
  rename_i s1 h1
  have hg1 : Good s1 := by
    refine good_write ?_ h1
    exact hg.congr rfl rfl rfl rfl rfl rfl (fun _ _ => rfl) (fun _ => Iff.rfl)
  obtain ⟨old, l, cs, hv, ht, ⟨hb, _⟩ | ⟨_, W⟩⟩ := write_cases h1
  · cases hb
  obtain ⟨l, cs, deps, w1, w2, w3, w4, w5, w6⟩ := W.ex
  simp only [St.emit] at w1 w6
  cases w1
  rw [w5] at hr
  simp only [TxState.down, Nat.sub_self, if_true] at hr
  split at hr
  · cases hr
  rename_i s2 h2
  cases hr
  refine oneSet_finish (s := s) (pre := [.begin_, .wrote id (deps.filter fun d => d.kind = .client), .end_]) ?_ ?_ ?_ ?_ ?_ ?_ h2
  · exact hg1.congr rfl rfl rfl rfl rfl rfl (fun _ _ => rfl) (fun _ => Iff.rfl)
  · rfl
  · exact W.vals
  · simp [St.emit, w6]
  · rfl
  · simp

/-- **C11 (`change`).** `change(f)` outside of a transaction leaves `f(old)` in the value
and amounts to one `set`. -/
theorem C11_change_is_one_set {lim} {a : Act V} {s s' : St V} (h : a.exec lim = .ok s) (hidle : s.tx = .idle)
    {id old f o} (hk : id.kind = .value) (hold : s.vals id = some old)
    (hr : (Act.change id f .done).run lim (finishTx lim) o s = .ok s') : OneSet s id (f old) s' := by
  have hg := (all_star (exec_steps h)).good
  simp only [Act.change, Act.set, Act.run, hidle, TxState.up] at hr
  cases lim with
  | zero => simp [getNode] at hr
  | succ lim =>
  simp only [getNode, hk, St.emit, hold] at hr
  simp only [show (1 : Nat) + 1 < 65536 from by omega, if_true] at hr
  split at hr
  · cases hr
  rename_i s1 h1
  have hg1 : Good s1 := by
    refine good_write ?_ h1
    exact hg.congr rfl rfl rfl rfl rfl rfl (fun _ _ => rfl) (fun _ => Iff.rfl)
  obtain ⟨old', l, cs, hv, ht, ⟨hb, _⟩ | ⟨_, W⟩⟩ := write_cases h1
  · cases hb
  obtain ⟨l, cs, deps, w1, w2, w3, w4, w5, w6⟩ := W.ex
  simp only at w1 w6
  cases w1
  rw [w5] at hr
  simp only [TxState.down, show ¬ (1 + 1 - 1 = 0) from by omega, if_false, Nat.add_sub_cancel,
    Nat.sub_self, if_true] at hr
  split at hr
  · cases hr
  rename_i s2 h2
  cases hr
  refine oneSet_finish (s := s) (pre := [.begin_, .read id old (!s.taint id) s.vals s.defs, .begin_,
    .wrote id (deps.filter fun d => d.kind = .client), .end_, .end_])
    ?_ ?_ ?_ ?_ ?_ ?_ h2
  · exact hg1.congr rfl rfl rfl rfl rfl rfl (fun _ _ => rfl) (fun _ => Iff.rfl)
  · rfl
  · exact W.vals
  · simp [w6]
  · rfl
  · simp

/-- A value observed by a subscription. -/
def oneSub : Act (Fin 16) :=
  .newValue 1 false fun x => .newComputed (.read x .ret) fun cx =>
  .subscribe cx false false (fun _ => .done) fun _ => .done

/-- The hypotheses are met, and the three functions do what is said. -/
example : ∃ s, oneSub.exec 10 = .ok s ∧ s.tx = .idle ∧ s.vals ⟨.value, 1⟩ = some 1 ∧
    (∃ s', (Act.setCompare ⟨.value, 1⟩ 1 .done).run 10 (finishTx 10) none s = .ok s' ∧
      deliveries ⟨.client, 3⟩ s'.log = [1]) ∧
    (∃ s', (Act.setCompare ⟨.value, 1⟩ 2 .done).run 10 (finishTx 10) none s = .ok s' ∧
      deliveries ⟨.client, 3⟩ s'.log = [1, 2]) ∧
    (∃ s', (Act.change ⟨.value, 1⟩ (· + 4) .done).run 10 (finishTx 10) none s = .ok s' ∧
      deliveries ⟨.client, 3⟩ s'.log = [1, 5]) :=
  ⟨_, final_of_isOk (by decide +kernel), by decide +kernel, by decide +kernel,
    ⟨_, final_of_isOk (by decide +kernel), by decide +kernel⟩,
    ⟨_, final_of_isOk (by decide +kernel), by decide +kernel⟩,
    ⟨_, final_of_isOk (by decide +kernel), by decide +kernel⟩⟩

end Verif.Reactive

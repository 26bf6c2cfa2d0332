import Verif.Reactive.Live
import Verif.Reactive.Check
/-!
# C01, C07, C08, C09: reads, subscriptions and external sources

The theorems speak about the final state `s` and the log `s.log` of any program that runs
to completion (`a.exec lim = .ok s`). As every beginning of a program is a program (cut it
off anywhere at top level, also inside of a transaction), "the final state" is any state
between two actions; what happens inside of callbacks is in the log.
-/
namespace Verif.Reactive

variable {V : Type} [DecidableEq V]

/-! ## C01 -/

/-- **C01, part.** Every value read by user code or given to a callback is the one
computed from scratch from the contents of the values at that moment, unless the read is
marked (see `St.mark`: the node, or something it depends on, has at some time been
released by the garbage collection between being read by a closure and the end of this
closure). What is missing: marked reads, which can be stale, see
`C01_dynamic_stale_violated`. -/
theorem C01_unmarked_reads_fresh_partial {lim} {a : Act V} {s : St V} (h : a.exec lim = .ok s) :
    (∀ id v vals defs, .read id v true vals defs ∈ s.log → Scratch vals defs id v) ∧
    (∀ c v vals defs, .deliver c v true vals defs ∈ s.log →
      ∃ t all, .subscribed c t all ∈ s.log ∧ Scratch vals defs t v) := by
  have hok := (all_star (exec_steps h)).xi.ok
  constructor
  · intro id v vals defs hm
    obtain ⟨pre, post, hl⟩ := List.append_of_mem hm
    exact hok pre _ post hl rfl
  · intro c v vals defs hm
    obtain ⟨pre, post, hl⟩ := List.append_of_mem hm
    obtain ⟨⟨t, al, h1, h2, _⟩, _⟩ := hok pre _ post hl
    exact ⟨t, al, by rw [hl]; exact List.mem_append_left _ h1, h2 rfl⟩

/-- **C01, for private conditional dependencies.** In a program whose computeds read
computeds conditionally only in the way described by `Private` (values can be read in any
way), everything user code ever reads and everything ever given to a callback is the value
computed from scratch from the contents of the values at that moment. -/
theorem C01_private_conditions_log_fresh {lim} {a : Act V} {s : St V} (h : a.exec lim = .ok s)
    (hst : Private (defsOf s.log)) :
    (∀ id v clean vals defs, .read id v clean vals defs ∈ s.log → Scratch vals defs id v) ∧
    (∀ c v clean vals defs, .deliver c v clean vals defs ∈ s.log →
      ∃ t all, .subscribed c t all ∈ s.log ∧ Scratch vals defs t v) := by
  obtain ⟨h1, h2⟩ := C01_unmarked_reads_fresh_partial h
  have hm := ((static_star (exec_steps h)).2.2 hst).2
  constructor
  · intro id v clean vals defs hr
    have := hm _ hr
    simp only [Ev.marked, Bool.not_eq_false'] at this
    subst this; exact h1 _ _ _ _ hr
  · intro c v clean vals defs hr
    have := hm _ hr
    simp only [Ev.marked, Bool.not_eq_false'] at this
    subst this; exact h2 _ _ _ _ hr

/-- **C01, for fixed dependencies.** The special case of programs whose computeds always read
the same nodes. -/
theorem C01_fixed_dependencies_log_fresh {lim} {a : Act V} {s : St V} (h : a.exec lim = .ok s)
    (hst : StaticLog s.log) :
    (∀ id v clean vals defs, .read id v clean vals defs ∈ s.log → Scratch vals defs id v) ∧
    (∀ c v clean vals defs, .deliver c v clean vals defs ∈ s.log →
      ∃ t all, .subscribed c t all ∈ s.log ∧ Scratch vals defs t v) :=
  C01_private_conditions_log_fresh h hst.priv

/-- **C01, for private conditional dependencies**, as a statement about the state: after any
such program a read of a node returns the value computed from scratch. -/
theorem C01_private_conditions_read_fresh {lim} {a : Act V} {s : St V} (h : a.exec lim = .ok s)
    (hst : Private (defsOf s.log)) {n id s' v} (hr : getNode n [] s id = .ok (s', v)) :
    Scratch s.vals s.defs id v ∧ s'.vals = s.vals ∧ s'.defs = s.defs := by
  obtain ⟨ha, _, hs⟩ := static_star (exec_steps h)
  have hk := getNode_kept hst _ _ _ _ _ _ ha.good (stackOK_nil s) (hs hst).1.si (fun x hx => by cases hx) hr
  have hgot := good_get ha.good hr
  refine ⟨?_, hgot.same.vals, hgot.same.defs⟩
  have := hgot.scratch (hk.si.clean _ hgot.src.not_client)
  rwa [hgot.same.vals, hgot.same.defs] at this

/-- **C01, for fixed dependencies**, as a statement about the state. -/
theorem C01_fixed_dependencies_read_fresh {lim} {a : Act V} {s : St V} (h : a.exec lim = .ok s)
    (hst : StaticLog s.log) {n id s' v} (hr : getNode n [] s id = .ok (s', v)) :
    Scratch s.vals s.defs id v ∧ s'.vals = s.vals ∧ s'.defs = s.defs :=
  C01_private_conditions_read_fresh h hst.priv hr

omit [DecidableEq V] in
theorem Prog.path_exists (w : V) (p : Prog V) : ∃ l, p.Path l := by
  induction p with
  | ret v => exact ⟨[], .ret v⟩
  | read id k ih => obtain ⟨l, hl⟩ := ih w; exact ⟨id :: l, .read hl⟩

omit [DecidableEq V] in
/-- A read of a node that has a value computed from scratch succeeds: neither the
bookkeeping nor the caches get in its way. -/
theorem getNode_succeeds {D : GraphId → Prog V → Prop} (hD : Private D) {vals : GraphId → Option V} {defs : GraphId → Option (Prog V)} {x v}
    (hd : Den vals defs x v) :
    ∃ n0, ∀ n, n0 ≤ n → ∀ (s : St V) K, s.vals = vals → s.defs = defs → Good s → SI D s → StackOK s K →
      match x with
      | .inl id => Above D K id → ∃ s', getNode n K s id = .ok (s', v)
      | .inr p => (∀ l, p.Path l → ∀ y ∈ l, Above D K y) → ∀ ctx,
          ∃ s' ctx', p.eval (getNode n K) s ctx = .ok (s', v, ctx') := by
  induction hd with
  | @value id v hk hv =>
    refine ⟨1, fun n hn s K e1 e2 hg hs hK hA => ?_⟩
    obtain ⟨n, rfl⟩ : ∃ m, n = m + 1 := ⟨n - 1, by omega⟩
    subst e1
    exact ⟨s, by simp [getNode, hk, hv]⟩
  | @computed id p v hk hd hp ih =>
    obtain ⟨n0, ih⟩ := ih
    refine ⟨n0 + 1, fun n hn s K e1 e2 hg hs hK hA => ?_⟩
    obtain ⟨n, rfl⟩ : ∃ m, n = m + 1 := ⟨n - 1, by omega⟩
    subst e1; subst e2
    cases hc : s.cache id with
    | some w =>
      have hw := (hg.cache id w hc (hs.clean id (by rw [hk]; simp))).scratch
      have : w = v := hw.det (.computed hk hd hp)
      subst this
      exact ⟨s, by simp [getNode, hk, hd, hc]⟩
    | none =>
      have hab : ∀ l, p.Path l → ∀ y ∈ l, Above D (id :: K) y := by
        intro l hl y hy z hz
        have h1 : Reads D id y := ⟨p, l, hs.defs id p hd, hl, hy⟩
        rcases List.mem_cons.mp hz with rfl | hz
        · exact .single h1
        · exact (hA z hz).tail h1
      have hK' : StackOK s (id :: K) := by
        intro z hz
        rcases List.mem_cons.mp hz with rfl | hz
        · exact .inl hc
        · exact hK z hz
      obtain ⟨s1, ctx', he⟩ := ih n (by omega) s (id :: K) rfl rfl hg hs hK' hab []
      have hg1 : Good s1 := (eval_good (fun s id s' v h1 h2 h3 => getNode_good _ _ _ _ _ _ h1 h2 h3) p hg hK' he).1
      obtain ⟨r, hr⟩ := Conn.setParents_some hg1.base.wf id (sOfList (ctx'.map (·.1)))
      simp only [getNode, hk, hd, hc, he, St.setParents, hr]
      exact ⟨_, rfl⟩
  | ret => exact ⟨0, fun n hn s K e1 e2 hg hs hK hA ctx => ⟨s, ctx, rfl⟩⟩
  | @read id w k v h1 h2 ih1 ih2 =>
    obtain ⟨n1, ih1⟩ := ih1
    obtain ⟨n2, ih2⟩ := ih2
    refine ⟨max n1 n2, fun n hn s K e1 e2 hg hs hK hA ctx => ?_⟩
    obtain ⟨l0, hl0⟩ := (k w).path_exists w
    have hAid : Above D K id := hA (id :: l0) (.read hl0) id List.mem_cons_self
    obtain ⟨s1, hs1⟩ := ih1 n (by omega) s K e1 e2 hg hs hK hAid
    have hgot := getNode_good _ _ _ _ _ _ hg hK hs1
    have hkept := getNode_kept hD _ _ _ _ _ _ hg hK hs hAid hs1
    obtain ⟨s2, ctx2, he⟩ := ih2 n (by omega) s1 K (hgot.same.vals.trans e1) (hgot.same.defs.trans e2)
      hgot.good hkept.si hgot.stack
      (fun l hl y hy => hA (id :: l) (.read hl) y (List.mem_cons_of_mem _ hy)) (ctx ++ [(id, s1.taint id)])
    exact ⟨s2, ctx2, by simp only [Prog.eval, hs1]; exact he⟩

/-- **C01, for private conditional dependencies, progress.** A node that has a value computed
from scratch can be read, and the read returns this value. -/
theorem C01_private_conditions_read_succeeds {lim} {a : Act V} {s : St V} (h : a.exec lim = .ok s)
    (hst : Private (defsOf s.log)) {id v} (hv : Scratch s.vals s.defs id v) :
    ∃ n0, ∀ n, n0 ≤ n → ∃ s', getNode n [] s id = .ok (s', v) := by
  obtain ⟨ha, _, hs⟩ := static_star (exec_steps h)
  obtain ⟨n0, hn⟩ := getNode_succeeds hst hv
  exact ⟨n0, fun n h => hn n h s [] rfl rfl ha.good (hs hst).1.si (stackOK_nil s) (fun x hx => by cases hx)⟩

/-- **C01, for fixed dependencies, progress.** -/
theorem C01_fixed_dependencies_read_succeeds {lim} {a : Act V} {s : St V} (h : a.exec lim = .ok s)
    (hst : StaticLog s.log) {id v} (hv : Scratch s.vals s.defs id v) :
    ∃ n0, ∀ n, n0 ≤ n → ∃ s', getNode n [] s id = .ok (s', v) :=
  C01_private_conditions_read_succeeds h hst.priv hv

/-! ### Example programs -/

/-- Two values, their sum, a subscription of it, a change, a read inside of a
transaction. -/
def sumProgram : Act (Fin 16) :=
  .newValue 1 false fun x => .newValue 2 false fun y =>
  .newComputed (.read x fun a => .read y fun b => .ret (a + b)) fun sum =>
  .subscribe sum false false (fun _ => .done) fun _ =>
  Act.set x 10 <| .txBegin <| .get sum fun _ => .txEnd .done

def hasRead (id : GraphId) (v : Fin 16) (log : List (Ev (Fin 16))) : Bool :=
  log.any fun e => match e with
    | .read i w _ _ _ => i = id && w = v
    | _ => false

/-- The program runs, meets the hypotheses of the theorems, and reads 12. -/
example : ∃ s, sumProgram.exec 10 = .ok s ∧ StaticLog s.log ∧ hasRead ⟨.computed, 3⟩ 12 s.log = true ∧
    Scratch s.vals s.defs ⟨.computed, 3⟩ 12 :=
  ⟨_, final_of_isOk (by decide +kernel), staticLog_of_check (by decide +kernel), by decide +kernel,
    scratch_of_eval (n := 5) (by decide +kernel)⟩

/-- Data dependent reads: `x` reads the cached `d`, then `e`, which stops reading `d`. -/
def staleProgram : Act (Fin 16) :=
  .newValue 1 false fun src => .newValue 1 false fun flag =>
  .newComputed (.read src .ret) fun d =>
  .newComputed (.read flag fun f => if f = 1 then .read d .ret else .ret 7) fun e =>
  .newComputed (.read flag fun f =>
    if f = 1 then .read e .ret else .read d fun x => .read e fun _ => .ret x) fun x =>
  .subscribe x false false (fun _ => .done) fun _ =>
  Act.set flag 2 <| Act.set src 5 .done

/-- **C01 is false** for programs with data dependent reads: after `staleProgram`, which
involves three acyclic computeds, one subscription and two plain `set` calls, reading the
observed computed returns 1, while evaluating its definition from scratch gives 5; and the
subscriber was given 1 last. -/
theorem C01_dynamic_stale_violated :
    ∃ (a : Act (Fin 16)) (s s' : St (Fin 16)) (x c : GraphId), a.exec 10 = .ok s ∧ s.tx = .idle ∧
      getNode 10 [] s x = .ok (s', 1) ∧ Scratch s.vals s.defs x 5 ∧
      .subscribed c x false ∈ s.log ∧ lastDelivered c s.log = some 1 := by
  refine ⟨staleProgram, final (staleProgram.exec 10), final (staleProgram.exec 10), ⟨.computed, 5⟩,
    ⟨.client, 6⟩, final_of_isOk (by decide +kernel), by decide +kernel, ?_,
    scratch_of_eval (n := 5) (by decide +kernel), ?_, by decide +kernel⟩
  · have hk : (final (staleProgram.exec 10)).cache ⟨.computed, 5⟩ = some 1 := by decide +kernel
    have hd : ((final (staleProgram.exec 10)).defs ⟨.computed, 5⟩).isSome = true := by decide +kernel
    obtain ⟨p, hp⟩ := Option.isSome_iff_exists.mp hd
    simp only [getNode, hp, hk]
  · have h : (final (staleProgram.exec 10)).log.any (fun e => match e with
        | .subscribed c t a => c = ⟨.client, 6⟩ && t = ⟨.computed, 5⟩ && a == false
        | _ => false) = true := by decide +kernel
    obtain ⟨e, he, h⟩ := List.any_eq_true.mp h
    split at h
    · simp at h; obtain ⟨⟨rfl, rfl⟩, rfl⟩ := h; exact he
    · cases h

/-- The stale read in `staleProgram` is a marked one: without the hypothesis "unmarked"
the first theorem would be false. -/
example : (final (staleProgram.exec 10)).taint ⟨.computed, 5⟩ = true := by decide +kernel

/-! ## C07 -/

/-- **C07 (first call).** Every new subscription is given the current value at once: the
next event, apart from the opening and closing of external connections, is the call of
its callback. -/
theorem C07_first_call_at_once {lim} {a : Act V} {s : St V} (h : a.exec lim = .ok s)
    {pre c t all post} (hl : s.log = pre ++ .subscribed c t all :: post) :
    ∃ mid v clean vals defs post', post = mid ++ .deliver c v clean vals defs :: post' ∧
      ∀ e ∈ mid, e.isConn = true :=
  foll_star (exec_steps h) pre c t all post hl

omit [DecidableEq V] in
theorem subscribed_unique {log : List (Ev V)} (hok : LogOK log) {c t a t' a'}
    (h1 : .subscribed c t a ∈ log) (h2 : .subscribed c t' a' ∈ log) : t = t' ∧ a = a' := by
  obtain ⟨p1, q1, e1⟩ := List.append_of_mem h1
  obtain ⟨p2, q2, e2⟩ := List.append_of_mem h2
  have hh := e1.symm.trans e2
  rcases List.append_eq_append_iff.mp hh with ⟨x, g1, g2⟩ | ⟨x, g1, g2⟩
  · cases x with
    | nil => simp at g2; exact ⟨g2.1.1, g2.1.2⟩
    | cons y x =>
      simp only [List.cons_append, List.cons.injEq] at g2
      obtain ⟨rfl, _⟩ := g2
      have := (hok p2 _ q2 e2).2.1 t a
      exact absurd (by rw [g1]; simp) this
  · cases x with
    | nil => simp at g2; exact ⟨g2.1.1.symm, g2.1.2.symm⟩
    | cons y x =>
      simp only [List.cons_append, List.cons.injEq] at g2
      obtain ⟨rfl, _⟩ := g2
      have := (hok p1 _ q1 e1).2.1 t' a'
      exact absurd (by rw [g1]; simp) this

/-- **C07 (only changes).** A callback given to `subscribe` is never called with the value
it was given last. -/
theorem C07_only_changes {lim} {a : Act V} {s : St V} (h : a.exec lim = .ok s)
    {pre c t v clean vals defs post} (hl : s.log = pre ++ .deliver c v clean vals defs :: post)
    (hsub : .subscribed c t false ∈ s.log) : lastDelivered c pre ≠ some v := by
  have hok := (all_star (exec_steps h)).xi.ok
  obtain ⟨⟨t', al, h1, _, h3⟩, _⟩ := hok pre _ post hl
  have : .subscribed c t' al ∈ s.log := by rw [hl]; exact List.mem_append_left _ h1
  obtain ⟨rfl, rfl⟩ := subscribed_unique hok hsub this
  exact h3 rfl

/-- **C07 (all changes), part.** Outside of transactions, every living subscription has
been given the current value of the node it observes, unless it is marked. What is
missing: marked subscriptions, see `C07_all_changes_violated` and
`C01_dynamic_stale_violated`. -/
theorem C07_all_changes_unmarked_partial {lim} {a : Act V} {s : St V} (h : a.exec lim = .ok s)
    (hidle : s.tx = .idle) {c t all} (hsub : .subscribed c t all ∈ s.log) (hlive : .dropped c ∉ s.log)
    (hmark : s.taint c = false) :
    ∃ v, lastDelivered c s.log = some v ∧ Scratch s.vals s.defs t v := by
  have hs := exec_steps h
  have ha := all_star hs
  rcases live_star hs c t all hsub with h' | ⟨cl, hc, rfl, _⟩
  · exact absurd h' hlive
  have cc := ha.ci.each c cl (fun h => h) hc
  have hp : c ∉ s.pending := by
    simp [St.pending, hidle, ha.ci.todo (by rw [hidle]; simp)]
  obtain ⟨_, g2, g3⟩ := cc.sync (exec_not_running h hc) hp hmark
  cases hv : cl.prev with
  | none => exact absurd hv cc.prev
  | some v =>
    exact ⟨v, by rw [ha.lv.last c cl hc, hv], (ha.good.cache _ v (g2.trans hv) g3).scratch⟩

/-- **C07 (all changes), for private conditional dependencies.** In a program whose
conditional dependencies are private, outside of transactions every living subscription of
a computed has been given the current value of this computed, provided the first call of
its callback did not write or drop anything, and also read and subscribed nothing if the
computed is one that other computeds depend on conditionally (`Undisturbed`). -/
theorem C07_all_changes_private_conditions {lim} {a : Act V} {s : St V} (h : a.exec lim = .ok s)
    (hst : Private (defsOf s.log)) (hidle : s.tx = .idle) {c t all} (hsub : .subscribed c t all ∈ s.log)
    (hlive : .dropped c ∉ s.log) (ht : t.kind = .computed) (hq : Undisturbed (defsOf s.log) c t s.log) :
    ∃ v, lastDelivered c s.log = some v ∧ Scratch s.vals s.defs t v := by
  have hs := exec_steps h
  obtain ⟨ha, _, hS⟩ := static_star hs
  rcases live_star hs c t all hsub with h' | ⟨cl, hc, e1, _⟩
  · exact absurd h' hlive
  have cc := ha.ci.each c cl (fun h => h) hc
  have cs := (hS hst).1.cs c cl hc
  have hrun := exec_not_running h hc
  have hready : cl.ready = true := by
    cases hr : cl.ready with
    | true => rfl
    | false => have := cc.notReady hr; rw [hrun] at this; cases this
  exact C07_all_changes_unmarked_partial h hidle hsub hlive
    (cs.clean hready (by rw [e1]; exact hq) (by rw [e1]; exact ht))

/-- **C07 (all changes), for fixed dependencies.** The special case of programs whose
computeds always read the same nodes: the first call of the callback may read and subscribe
anything. -/
theorem C07_all_changes_fixed_dependencies {lim} {a : Act V} {s : St V} (h : a.exec lim = .ok s)
    (hst : StaticLog s.log) (hidle : s.tx = .idle) {c t all} (hsub : .subscribed c t all ∈ s.log)
    (hlive : .dropped c ∉ s.log) (ht : t.kind = .computed) (hq : FirstRunQuiet c s.log) :
    ∃ v, lastDelivered c s.log = some v ∧ Scratch s.vals s.defs t v :=
  C07_all_changes_private_conditions h hst.priv hidle hsub hlive ht ⟨hq, Or.inl (hst.steady t)⟩

/-- The first call of the callback sets a value the observed computed depends on. -/
def lostProgram : Act (Fin 16) :=
  .newValue 1 false fun x =>
  .newComputed (.read x .ret) fun d =>
  .subscribe d false false (fun v => if v = 1 then Act.set x 5 .done else .done) fun _ => .done

/-- **C07 is false** without the last hypothesis: a `set` made by the first call of the
callback is never delivered. -/
theorem C07_all_changes_violated :
    ∃ (a : Act (Fin 16)) (s : St (Fin 16)) (t c : GraphId), a.exec 10 = .ok s ∧ s.tx = .idle ∧
      StaticLog s.log ∧ t.kind = .computed ∧ .subscribed c t false ∈ s.log ∧ (∀ x, .dropped x ∉ s.log) ∧
      lastDelivered c s.log = some 1 ∧ Scratch s.vals s.defs t 5 := by
  refine ⟨lostProgram, final (lostProgram.exec 10), ⟨.computed, 2⟩, ⟨.client, 3⟩,
    final_of_isOk (by decide +kernel), by decide +kernel, staticLog_of_check (by decide +kernel), rfl,
    ?_, ?_, by decide +kernel, scratch_of_eval (n := 5) (by decide +kernel)⟩
  · have h : (final (lostProgram.exec 10)).log.any (fun e => match e with
        | .subscribed c t a => c = ⟨.client, 3⟩ && t = ⟨.computed, 2⟩ && a == false
        | _ => false) = true := by decide +kernel
    obtain ⟨e, he, h⟩ := List.any_eq_true.mp h
    split at h
    · simp at h; obtain ⟨⟨rfl, rfl⟩, rfl⟩ := h; exact he
    · cases h
  · have h : (final (lostProgram.exec 10)).log.all (fun e => match e with
        | .dropped _ => false
        | _ => true) = true := by decide +kernel
    intro x hx
    have := List.all_eq_true.mp h _ hx
    cases this

/-- Check of `FirstRunQuiet`. -/
def quietFrom (c : GraphId) : List (Ev V) → Bool
  | [] => true
  | .ran c' :: l => if c' = c then true else quietFrom c l
  | e :: l => !e.disturbs && quietFrom c l

def quietCheck (c : GraphId) : List (Ev V) → Bool
  | [] => true
  | .subscribed c' _ _ :: l => (if c' = c then quietFrom c l else true) && quietCheck c l
  | _ :: l => quietCheck c l

omit [DecidableEq V] in
theorem quietFrom_spec {c : GraphId} {l mid post : List (Ev V)} (h : quietFrom c l = true) (hl : l = mid ++ post)
    (hr : .ran c ∉ mid) : ∀ e ∈ mid, e.disturbs = false := by
  induction mid generalizing l with
  | nil => simp
  | cons y mid ih =>
    subst hl
    intro e he
    have hr' : .ran c ∉ mid := fun h => hr (List.mem_cons_of_mem _ h)
    simp only [List.cons_append] at h
    unfold quietFrom at h
    split at h
    · rename_i heq; cases heq
    · rename_i c' l' heq
      cases heq
      split at h
      · rename_i hc; subst hc; exact absurd List.mem_cons_self hr
      · rcases List.mem_cons.mp he with rfl | he
        · rfl
        · exact ih h rfl hr' e he
    · rename_i heq; cases heq
      simp only [Bool.and_eq_true, Bool.not_eq_true'] at h
      rcases List.mem_cons.mp he with rfl | he
      · exact h.1
      · exact ih h.2 rfl hr' e he

omit [DecidableEq V] in
theorem quiet_of_check {c : GraphId} {log : List (Ev V)} (h : quietCheck c log = true) : FirstRunQuiet c log := by
  intro pre t a mid post hl hr
  induction pre generalizing log with
  | nil =>
    subst hl
    simp only [List.nil_append, quietCheck, if_true, Bool.and_eq_true] at h
    exact quietFrom_spec h.1 rfl hr
  | cons y pre ih =>
    subst hl
    refine ih ?_ rfl
    simp only [List.cons_append] at h
    unfold quietCheck at h
    split at h
    · rename_i heq; cases heq
    · rename_i heq; cases heq; simp only [Bool.and_eq_true] at h; exact h.2
    · rename_i heq; cases heq; exact h

/-- A program with two subscriptions and three changes, one of which is undone in the same
transaction; the deliveries are 3, 12, 13 (and 1, 10, 11 for `x` itself). -/
def twoSubs : Act (Fin 16) :=
  .newValue 1 false fun x => .newValue 2 false fun y =>
  .newComputed (.read x fun a => .read y fun b => .ret (a + b)) fun sum =>
  .newComputed (.read x .ret) fun cx =>
  .subscribe sum false false (fun _ => .done) fun _ =>
  .subscribe cx true false (fun _ => .done) fun _ =>
  Act.set x 10 <| Act.set x 11 <| .txBegin <| Act.set x 1 <| Act.set x 11 <| .txEnd .done

def deliveries (c : GraphId) (log : List (Ev V)) : List V :=
  log.filterMap fun e => match e with
    | .deliver c' v _ _ _ => if c' = c then some v else none
    | _ => none

example : ∃ s, twoSubs.exec 20 = .ok s ∧ StaticLog s.log ∧ s.tx = .idle ∧ FirstRunQuiet ⟨.client, 5⟩ s.log ∧
    deliveries ⟨.client, 5⟩ s.log = [3, 12, 13] ∧ deliveries ⟨.client, 6⟩ s.log = [1, 10, 11, 11] ∧
    Scratch s.vals s.defs ⟨.computed, 3⟩ 13 :=
  ⟨_, final_of_isOk (by decide +kernel), staticLog_of_check (by decide +kernel), by decide +kernel,
    quiet_of_check (by decide +kernel), by decide +kernel, by decide +kernel,
    scratch_of_eval (n := 5) (by decide +kernel)⟩

/-! ## C08 -/

/-- **C08 (silence).** After the resource of a subscription was dropped (`dropped`, or
`released` when this happens while its own callback is running) its callback is not called
any more, and the subscription is not refreshed any more. -/
theorem C08_silent_after_drop {lim} {a : Act V} {s : St V} (h : a.exec lim = .ok s)
    {pre c post} (hd : .dropped c ∈ pre ∨ .released c ∈ pre) (hl : s.log = pre ++ post) :
    .refreshed c ∉ post ∧ ∀ v clean vals defs, .deliver c v clean vals defs ∉ post := by
  have hok := (all_star (exec_steps h)).xi.ok
  have key : ∀ e, e ∈ post → (e = .refreshed c ∨ ∃ v clean vals defs, e = .deliver c v clean vals defs) → False := by
    intro e he hk
    obtain ⟨p, q, rfl⟩ := List.append_of_mem he
    have := hok (pre ++ p) e q (by rw [hl]; simp)
    have hn : .dropped c ∉ pre ++ p ∧ .released c ∉ pre ++ p := by
      rcases hk with rfl | ⟨v, clean, vals, defs, rfl⟩
      · exact ⟨this.1, this.2.1⟩
      · exact ⟨this.2.1, this.2.2.1⟩
    rcases hd with h1 | h1
    · exact hn.1 (List.mem_append_left _ h1)
    · exact hn.2 (List.mem_append_left _ h1)
  exact ⟨fun he => key _ he (.inl rfl), fun v clean vals defs he => key _ he (.inr ⟨v, clean, vals, defs, rfl⟩)⟩

omit [DecidableEq V] in
theorem dropAll_dropped {n} : ∀ {l} {s s' : St V}, St.dropAll n l s = .ok s' →
    (∃ k, s'.log = s.log ++ k) ∧ ∀ c rest cl, l = c :: rest → s.clients c = some cl →
      (cl.running = false → .dropped c ∈ s'.log) ∧ (cl.running = true → .released c ∈ s'.log) := by
  induction n with
  | zero => intro l s s' h; simp [St.dropAll] at h
  | succ n ih =>
    intro l s s' h
    cases l with
    | nil => simp [St.dropAll] at h; subst h; exact ⟨⟨[], by simp⟩, by simp⟩
    | cons id rest =>
      simp only [St.dropAll] at h
      split at h
      · rename_i hn
        refine ⟨(ih h).1, ?_⟩
        intro c rest' cl hl hc
        cases hl; rw [hn] at hc; cases hc
      · rename_i cl0 hcl
        split at h
        · rename_i hr
          obtain ⟨k, hk⟩ := (ih h).1
          refine ⟨⟨.released id :: k, by rw [hk]; simp [St.emit]⟩, ?_⟩
          intro c rest' cl hl hc
          cases hl; rw [hcl] at hc; cases hc
          exact ⟨fun h' => (by rw [hr] at h'; cases h'), fun _ => by rw [hk]; simp [St.emit]⟩
        · rename_i hr
          split at h
          · cases h
          rename_i s1 h1
          obtain ⟨k, hk⟩ := (ih h).1
          unfold St.dropOne at h1
          obtain ⟨k1, l1, _⟩ := setParents_log h1
          refine ⟨⟨.dropped id :: (k1 ++ k), by rw [hk, l1]; simp [St.emit]⟩, ?_⟩
          intro c rest' cl hl hc
          cases hl; rw [hcl] at hc; cases hc
          exact ⟨fun _ => by rw [hk, l1]; simp [St.emit], fun h' => by rw [h'] at hr; exact absurd rfl hr⟩

/-- **C08 (effect of a drop).** Dropping the resource of a living subscription is
recorded: `dropped`, or `released` if its own callback is running. (With
`C08_silent_after_drop`: whatever the program does next, the callback stays silent.) -/
theorem C08_drop_takes_effect {lim n} {a : Act V} {s s' : St V} (_h : a.exec lim = .ok s) {c cl}
    (hc : s.clients c = some cl) (hd : St.dropAll n [c] s = .ok s') :
    .dropped c ∈ s'.log ∨ .released c ∈ s'.log := by
  have := (dropAll_dropped hd).2 c [] cl rfl hc
  cases hr : cl.running with
  | false => exact .inl (this.1 hr)
  | true => exact .inr (this.2 hr)

/-- `d` is kept alive by the resource that the callback of `c` returned (directly or
through further subscriptions). -/
inductive Owns (clients : GraphId → Option (Client V)) : GraphId → GraphId → Prop where
  | self (c) : Owns clients c c
  | step {c cl e d} : clients c = some cl → cl.running = false → e ∈ cl.owned → Owns clients e d →
      Owns clients c d

omit [DecidableEq V] in
theorem Owns.drop {f : GraphId → Option (Client V)} {id cl c d} (hid : f id = some cl) (h : Owns f c d) :
    Owns (upd f id none) c d ∨ d = id ∨ ∃ o ∈ cl.owned, Owns (upd f id none) o d := by
  induction h with
  | self c => exact .inl (.self c)
  | @step c cl' e d h1 h2 h3 _ ih =>
    rcases ih with h | h | h
    · by_cases hc : c = id
      · subst hc; rw [hid] at h1; cases h1
        exact .inr (.inr ⟨e, h3, h⟩)
      · exact .inl (.step (by simp [upd, hc, h1]) h2 h3 h)
    · exact .inr (.inl h)
    · exact .inr (.inr h)

omit [DecidableEq V] in
theorem Owns.mark {f : GraphId → Option (Client V)} {id cl c d} (hid : f id = some cl) (hr : cl.running = true)
    (h : Owns f c d) (cl') : Owns (upd f id cl') c d := by
  induction h with
  | self c => exact .self c
  | @step c cl0 e d h1 h2 h3 _ ih =>
    have hc : c ≠ id := by rintro rfl; rw [hid] at h1; cases h1; rw [hr] at h2; cases h2
    exact .step (by simp [upd, hc, h1]) h2 h3 ih

omit [DecidableEq V] in
theorem setParents_clients {s s' : St V} {X N} (h : s.setParents X N = .ok s') (x : GraphId) :
    (s.clients x = none → s'.clients x = none) ∧
    ∀ cl, s.clients x = some cl → ∃ cl', s'.clients x = some cl' ∧ cl'.running = cl.running ∧ cl'.owned = cl.owned := by
  unfold St.setParents at h
  split at h <;> cases h
  rw [applyInfo_clients]
  constructor
  · intro hx; split <;> simp [hx]
  · intro cl hx
    split
    · exact ⟨{ cl with ready := false }, by rw [hx]; rfl, rfl, rfl⟩
    · exact ⟨cl, hx, rfl, rfl⟩

omit [DecidableEq V] in
theorem Owns.congr {f g : GraphId → Option (Client V)} (hfg : ∀ x cl, f x = some cl →
    ∃ cl', g x = some cl' ∧ cl'.running = cl.running ∧ cl'.owned = cl.owned) {c d} (h : Owns f c d) : Owns g c d := by
  induction h with
  | self c => exact .self c
  | step h1 h2 h3 _ ih =>
    obtain ⟨cl', e1, e2, e3⟩ := hfg _ _ h1
    exact .step e1 (by rw [e2, h2]) (by rw [e3]; exact h3) ih

omit [DecidableEq V] in
theorem dropAll_owned {n} : ∀ {l} {s s' : St V}, St.dropAll n l s = .ok s' →
    ∀ c ∈ l, ∀ d, Owns s.clients c d → s.clients d ≠ none → .dropped d ∈ s'.log ∨ .released d ∈ s'.log := by
  induction n with
  | zero => intro l s s' h; simp [St.dropAll] at h
  | succ n ih =>
    intro l s s' h
    cases l with
    | nil => intro c hc; simp at hc
    | cons id rest =>
      intro c hc d hd hlive
      simp only [St.dropAll] at h
      split at h
      · rename_i hn
        rcases List.mem_cons.mp hc with rfl | hc
        · cases hd with
          | self => exact absurd hn hlive
          | step h1 _ _ _ => rw [hn] at h1; cases h1
        · exact ih h c hc d hd hlive
      · rename_i cl0 hcl
        split at h
        · rename_i hr
          obtain ⟨k, hk⟩ := (dropAll_dropped h).1
          rcases List.mem_cons.mp hc with rfl | hc
          · cases hd with
            | self => exact .inr (by rw [hk]; simp [St.emit])
            | step h1 h2 _ _ => rw [hcl] at h1; cases h1; rw [hr] at h2; cases h2
          · refine ih h c hc d (hd.mark hcl hr _) ?_
            simp only [St.emit, upd]
            split
            · simp
            · exact hlive
        · rename_i hr
          split at h
          · cases h
          rename_i s1 h1
          obtain ⟨k, hk⟩ := (dropAll_dropped h).1
          unfold St.dropOne at h1
          obtain ⟨k1, l1, _⟩ := setParents_log h1
          have hcl1 := setParents_clients h1
          simp only [St.emit] at hcl1
          have hid : .dropped id ∈ s'.log := by rw [hk, l1]; simp [St.emit]
          by_cases hdi : d = id
          · subst hdi; exact .inl hid
          have hlive1 : s1.clients d ≠ none := by
            obtain ⟨cl, hcl⟩ := Option.ne_none_iff_exists'.mp hlive
            obtain ⟨cl', e, _⟩ := (hcl1 d).2 cl (by simp [upd, hdi, hcl])
            rw [e]; simp
          rcases hd.drop hcl with h2 | h2 | ⟨o, ho, h2⟩
          · replace h2 := h2.congr fun x => (hcl1 x).2
            rcases List.mem_cons.mp hc with rfl | hc
            · cases h2 with
              | self => exact .inl hid
              | step h3 _ _ _ => rw [(hcl1 c).1 (by simp [upd])] at h3; cases h3
            · exact ih h c (by simp [hc]) d h2 hlive1
          · exact absurd h2 hdi
          · exact ih h o (by simp [ho]) d (h2.congr fun x => (hcl1 x).2) hlive1

/-- **C08 (resources of the callback).** Dropping a subscription also drops every living
subscription that was kept alive by the resource its callback returned, and so on. -/
theorem C08_owned_dropped {lim n} {a : Act V} {s s' : St V} (_h : a.exec lim = .ok s) {c d}
    (hd : Owns s.clients c d) (hlive : s.clients d ≠ none) (hdrop : St.dropAll n [c] s = .ok s') :
    .dropped d ∈ s'.log ∨ .released d ∈ s'.log :=
  dropAll_owned hdrop c (by simp) d hd hlive

/-- **C08 (replacement).** When the callback of a subscription is called again, the resource
of the previous call is dropped after the new call. -/
theorem C08_replaced_resource_dropped {lim call id} {s s0 t0 t s' : St V} {v cl d}
    (h : runClient lim call id s = .ok s') (h0 : s.startRun id = .ok s0)
    (ho : s0.observe lim id = .ok (t0, some v)) (ht : call v t0 = .ok t)
    (hc : t.clients id = some cl) (hd : d ∈ cl.owned) (hne : d ≠ id) (hlive : t.clients d ≠ none) :
    .dropped d ∈ s'.log ∨ .released d ∈ s'.log := by
  simp only [runClient, h0, ho, ht, St.swapOwned, hc] at h
  split at h
  · cases h
  rename_i t1 h1
  have key := dropAll_owned h1 d hd d (.self d) (by simp [upd, hne, hlive])
  split at h
  · cases h
  rename_i t2 h2
  have l2 : ∃ k, t2.log = t1.log ++ k := by
    unfold St.finishRun at h2
    split at h2
    · cases h2
    split at h2
    · cases h2
    split at h2
    · cases h2
    rename_i h3
    cases h2
    obtain ⟨k, hk, _⟩ := setParents_log h3
    exact ⟨k ++ [.ran id], by simp [St.emit, hk]⟩
  have l3 : ∃ k, s'.log = t2.log ++ k := by
    unfold St.endRun at h
    split at h
    · split at h
      · exact (dropAll_dropped h).1
      · cases h; exact ⟨[], by simp⟩
    · cases h; exact ⟨[], by simp⟩
  obtain ⟨k2, l2⟩ := l2
  obtain ⟨k3, l3⟩ := l3
  rw [l3, l2]
  rcases key with h | h
  · exact .inl (by simp [h])
  · exact .inr (by simp [h])

/-- A subscription whose callback subscribes something else, and returns this as its
resource: changed once, then dropped. -/
def ownProgram : Act (Fin 16) :=
  .newValue 1 false fun x => .newComputed (.read x .ret) fun cx =>
  .subscribe cx false false (fun _ => .subscribe cx false true (fun _ => .done) fun _ => .done) fun c =>
  Act.set x 2 <| .dropSub c <| .done

def ownEv : Ev V → Option (String × Nat)
  | .dropped c => some ("dropped", c.num)
  | .deliver c _ _ _ _ => some ("call", c.num)
  | _ => none

/-- The inner subscription of the first call is dropped after the second call, the inner
subscription of the second call with the outer one. -/
example : ∃ s, ownProgram.exec 20 = .ok s ∧
    s.log.filterMap ownEv =
      [("call", 3), ("call", 4), ("call", 3), ("call", 5), ("dropped", 4), ("dropped", 3), ("dropped", 5)] :=
  ⟨_, final_of_isOk (by decide +kernel), by decide +kernel⟩

/-- **C08 (no producer kept active).** A dropped subscription is not a consumer of any
node. -/
theorem C08_no_links_after_drop {lim} {a : Act V} {s : St V} (h : a.exec lim = .ok s)
    {c} (hk : c.kind = .client) (hd : .dropped c ∈ s.log) (p : GraphId) : c ∉ s.conn.pc.get p := by
  have ha := all_star (exec_steps h)
  intro he
  rcases ha.good.base.dst p c he with ⟨h1, _⟩ | ⟨_, h1⟩
  · rw [hk] at h1; cases h1
  · exact h1 (ha.lv.gone c hk hd)

/-- The only subscription of an external source is dropped between two changes. -/
def dropProgram : Act (Fin 16) :=
  .newValue 1 true fun x => .newComputed (.read x .ret) fun cx =>
  .subscribe cx false false (fun _ => .done) fun c =>
  Act.set x 2 <| .dropSub c <| Act.set x 3 .done

def evName : Ev V → String
  | .connect _ => "connect" | .disconnect _ => "disconnect" | .dropped _ => "dropped"
  | .deliver _ _ _ _ _ => "deliver" | .wrote _ _ => "wrote" | .refreshed _ => "refreshed" | _ => ""

example : ∃ s, dropProgram.exec 20 = .ok s ∧
    (s.log.map evName).filter (· ≠ "") =
      ["connect", "deliver", "wrote", "refreshed", "deliver", "dropped", "disconnect", "wrote"] :=
  ⟨_, final_of_isOk (by decide +kernel), by decide +kernel⟩

/-! ## C09 -/

/-- **C09 (one connection).** A connection is only opened when none is open, and only an
open connection is closed. -/
theorem C09_at_most_one_connection {lim} {a : Act V} {s : St V} (h : a.exec lim = .ok s)
    {pre x post} :
    (s.log = pre ++ .connect x :: post → opened x pre = false) ∧
    (s.log = pre ++ .disconnect x :: post → opened x pre = true) := by
  have hok := (all_star (exec_steps h)).xi.ok
  exact ⟨fun hl => hok pre _ post hl, fun hl => hok pre _ post hl⟩

/-- **C09 (open exactly while there are consumers).** Between any two actions the
connection of a value is open exactly if the value was created with `with_connect` and is
currently read by some consumer; consumers are existing computeds and subscriptions. -/
theorem C09_open_iff_consumed {lim} {a : Act V} {s : St V} (h : a.exec lim = .ok s) (x : GraphId) :
    (opened x s.log = true ↔ s.connectable x = true ∧ ∃ c, c ∈ s.conn.pc.get x) ∧
    ∀ c, c ∈ s.conn.pc.get x → s.defs c ≠ none ∨ s.clients c ≠ none := by
  have ha := all_star (exec_steps h)
  refine ⟨by rw [← ha.xi.conn]; exact ha.xi.obs x, fun c he => ?_⟩
  rcases ha.good.base.dst x c he with ⟨_, h1⟩ | ⟨_, h1⟩
  · exact .inl h1
  · exact .inr h1

/-- **C09 (open while observed).** For private conditional dependencies: while a
subscription of a computed is alive, every external source this computed reads whatever the
values are is connected. -/
theorem C09_open_while_observed_private {lim} {a : Act V} {s : St V} (h : a.exec lim = .ok s)
    (hst : Private (defsOf s.log)) (hidle : s.tx = .idle) {c t all} (hsub : .subscribed c t all ∈ s.log)
    (hlive : .dropped c ∉ s.log) (ht : t.kind = .computed) (hq : Undisturbed (defsOf s.log) c t s.log)
    {p x} (hp : s.defs t = some p) (hx : ∀ l, p.Path l → x ∈ l) (hcon : s.connectable x = true) :
    opened x s.log = true := by
  have hs := exec_steps h
  obtain ⟨ha, _, hS⟩ := static_star hs
  rcases live_star hs c t all hsub with h' | ⟨cl, hc, e1, _⟩
  · exact absurd h' hlive
  subst e1
  have cc := ha.ci.each c cl (fun h => h) hc
  have cs := (hS hst).1.cs c cl hc
  have hrun := exec_not_running h hc
  have hready : cl.ready = true := by
    cases hr : cl.ready with
    | true => rfl
    | false => have := cc.notReady hr; rw [hrun] at this; cases this
  have hpend : c ∉ s.pending := by
    simp [St.pending, hidle, ha.ci.todo (by rw [hidle]; simp)]
  obtain ⟨_, g2, g3⟩ := cc.sync hrun hpend (cs.clean hready hq ht)
  cases hv : cl.prev with
  | none => exact absurd hv cc.prev
  | some v =>
    obtain ⟨⟨p', rs, j1, j2, j3⟩, _⟩ := ha.good.cache _ v (g2.trans hv) g3
    rw [hp] at j1; cases j1
    have : x ∈ rs.map (·.1) := hx _ j2.path
    obtain ⟨r, hr, rfl⟩ := List.mem_map.mp this
    exact (C09_open_iff_consumed h _).1.mpr ⟨hcon, _, (j3 r hr).1⟩

/-- **C09 (open while observed).** For fixed dependencies: while a subscription of a
computed is alive, every external source this computed reads is connected. -/
theorem C09_open_while_observed_fixed {lim} {a : Act V} {s : St V} (h : a.exec lim = .ok s)
    (hst : StaticLog s.log) (hidle : s.tx = .idle) {c t all} (hsub : .subscribed c t all ∈ s.log)
    (hlive : .dropped c ∉ s.log) (ht : t.kind = .computed) (hq : FirstRunQuiet c s.log)
    {p R x} (hp : s.defs t = some p) (hR : p.Fixed R) (hx : x ∈ R) (hcon : s.connectable x = true) :
    opened x s.log = true :=
  C09_open_while_observed_private h hst.priv hidle hsub hlive ht ⟨hq, Or.inl (hst.steady t)⟩ hp
    (fun l hl => (hR l hl x).mpr hx) hcon

/-- **C09 (closed when nothing is left).** When all computeds and subscriptions are gone,
no connection is open. -/
theorem C09_closed_when_all_gone {lim} {a : Act V} {s : St V} (h : a.exec lim = .ok s)
    (hd : ∀ id, s.defs id = none) (hc : ∀ c, s.clients c = none) (x : GraphId) : opened x s.log = false := by
  obtain ⟨h1, h2⟩ := C09_open_iff_consumed h x
  cases ho : opened x s.log with
  | false => rfl
  | true =>
    obtain ⟨_, c, hm⟩ := h1.mp ho
    rcases h2 c hm with h3 | h3
    · exact absurd (hd c) h3
    · exact absurd (hc c) h3

/-- The connection is open while subscribed and closed after the drop (events above). -/
example : ∃ s, dropProgram.exec 20 = .ok s ∧ s.connectable ⟨.value, 1⟩ = true ∧
    opened ⟨.value, 1⟩ (s.log.take 8) = true ∧ opened ⟨.value, 1⟩ s.log = false :=
  ⟨_, final_of_isOk (by decide +kernel), by decide +kernel, by decide +kernel, by decide +kernel⟩

/-- Ids are given once, and whether a value has a connection is never changed. -/
def Fixes (a b : St V) : Prop := a.next ≤ b.next ∧ ∀ x : GraphId, x.num < a.next → b.connectable x = a.connectable x

omit [DecidableEq V] in
theorem Fixes.refl (a : St V) : Fixes a a := ⟨Nat.le_refl _, fun _ _ => rfl⟩

omit [DecidableEq V] in
theorem Fixes.trans {a b c : St V} (h1 : Fixes a b) (h2 : Fixes b c) : Fixes a c :=
  ⟨Nat.le_trans h1.1 h2.1, fun x hx => (h2.2 x (Nat.lt_of_lt_of_le hx h1.1)).trans (h1.2 x hx)⟩

omit [DecidableEq V] in
theorem Same.fixes {a b : St V} (h : Same a b) : Fixes a b := ⟨Nat.le_of_eq h.next.symm, fun x _ => by rw [h.connectable]⟩

omit [DecidableEq V] in
theorem Fixes.of_eq {a b : St V} (h1 : b.next = a.next) (h2 : b.connectable = a.connectable) : Fixes a b :=
  ⟨Nat.le_of_eq h1.symm, fun x _ => by rw [h2]⟩

theorem fixes_mstep {lim} {a b : St V} (h : MStep lim a b) : Fixes a b := by
  cases h with
  | newValue v b =>
    refine ⟨Nat.le_succ _, fun x hx => ?_⟩
    have : x ≠ ⟨.value, a.next⟩ := by rintro rfl; exact Nat.lt_irrefl _ hx
    simp [St.addValue, upd, this]
  | newComputed p => exact ⟨Nat.le_succ _, fun _ _ => rfl⟩
  | subscribe h1 h2 =>
    exact Fixes.trans (b := a.addClient _ _ _) ⟨Nat.le_succ _, fun _ _ => rfl⟩ ((same_startRun h1).trans (same_observe h2)).fixes
  | swapOwned h => exact (same_swapOwned h).fixes
  | finishRun _ _ h => exact (same_finishRun h).fixes
  | finishDrop _ _ h1 h2 => exact ((same_finishRun h1).trans (same_dropOne h2)).fixes
  | giveTo h => exact (same_giveTo h).fixes
  | dropOne _ _ h => exact (same_dropOne h).fixes
  | dropReq _ _ => exact .of_eq rfl rfl
  | dropComputed h =>
    unfold St.dropComputed at h
    split at h
    · exact .of_eq (same_setParents h).next (same_setParents h).connectable
    · cases h
  | begin_ _ => exact .of_eq rfl rfl
  | end_ _ => exact .of_eq rfl rfl
  | write h =>
    obtain ⟨old, l, cs, hv, ht, ⟨_, _, rfl⟩ | ⟨_, W⟩⟩ := write_cases h
    · exact .of_eq rfl rfl
    · exact .of_eq W.next W.connectable
  | get h => exact (Same.fixes (same_getNode _ _ _ _ _ _ h)).trans (.of_eq rfl rfl)

theorem contains_fixes (lim) : Contains lim (Fixes : St V → St V → Prop) :=
  ⟨.refl, fun _ _ _ => .trans, fun _ _ => fixes_mstep⟩

theorem fixes_endRun {lim id} {a b : St V} (h : a.endRun lim id = .ok b) : Fixes a b := by
  unfold St.endRun at h
  split at h
  · split at h
    · exact (contains_fixes lim).star (dropAll_steps lim _ _ h)
    · cases h; exact .refl _
  · cases h; exact .refl _

theorem fixes_refreshAll {lim} (cs) {a b : St V} (h : refreshAll lim cs a = .ok b) : Fixes a b := by
  induction cs generalizing a with
  | nil => cases h; exact .refl _
  | cons c cs ih =>
    simp only [refreshAll] at h
    split at h
    · have := ih h; exact ⟨this.1, this.2⟩
    · split at h
      · split at h
        · cases h
        · rename_i h1
          obtain ⟨s0, s1, o, g1, g2, s2, s3, g3, g4, g5⟩ := runClient_steps (contains_fixes lim)
            (fun v s s' hs => (contains_fixes lim).star (runRefreshing_steps hs)) h1
          exact Fixes.trans (.of_eq rfl rfl) ((same_startRun g1).fixes.trans ((same_observe g2).fixes.trans (g3.trans
            ((same_finishRun g4).fixes.trans ((fixes_endRun g5).trans (ih h))))))
      · have := ih h; exact ⟨this.1, this.2⟩

theorem fixes_finishTx {lim cs} {a b : St V} (h : finishTx lim cs a = .ok b) : Fixes a b := by
  unfold finishTx at h
  split at h
  · cases h
  · rename_i h1
    cases h
    exact Fixes.trans (.of_eq rfl rfl) ((fixes_refreshAll _ h1).trans (.of_eq rfl rfl))

/-- **C09 (which values have a connection).** Wherever a value is created, in the main program or in a callback: whatever runs
afterwards, it has a connection exactly if it was created with `with_connect`. -/
theorem C09_created {lim} (v : V) (b : Bool) (k : GraphId → Act V) {o} {s s' : St V}
    (h : (Act.newValue v b k).run lim (finishTx lim) o s = .ok s' ∨ runRefreshing lim (Act.newValue v b k) o s = .ok s') :
    s'.connectable ⟨.value, s.next⟩ = b := by
  have hf : Fixes (s.addValue v b) s' := by
    rcases h with h | h
    · exact run_steps (contains_fixes lim) (fun _ _ _ _ _ h => have := fixes_finishTx h; ⟨this.1, this.2⟩) (k ⟨.value, s.next⟩) h
    · exact (contains_fixes lim).star (runRefreshing_steps (a := k ⟨.value, s.next⟩) h)
  rw [hf.2 _ (Nat.lt_succ_self _)]
  simp [St.addValue, upd]

/-- A value with a connection and one without, both observed: only the first one is opened. -/
example : ∃ s, (Act.newValue 1 true fun x => .newValue 2 false fun y => .newComputed (.read x fun a => .read y fun b => .ret (a + b)) fun c =>
      .subscribe c false false (fun _ => .done) fun _ => .done : Act Nat).exec 20 = .ok s ∧
    opened ⟨.value, 1⟩ s.log = true ∧ opened ⟨.value, 2⟩ s.log = false ∧ s.conn.pc.get ⟨.value, 2⟩ ≠ [] :=
  ⟨_, final_of_isOk (by decide +kernel), by decide +kernel, by decide +kernel, by decide +kernel⟩

end Verif.Reactive

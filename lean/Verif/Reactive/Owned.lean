import Verif.Reactive.Running
import Verif.Reactive.MachineProps
/-!
# Subscriptions made by callbacks

A callback can subscribe in turn, and return the resources of these subscriptions: they
live until the callback is called again, or until its own subscription is dropped
(computed_box.rs:101-146).  Here this is stated about the log of an execution alone.
-/
namespace Verif.Reactive

variable {V : Type}

/-! ## Specification -/

/-- The subscriptions that are running, innermost first: a run begins when the subscription
is made or refreshed. -/
def running (log : List (Ev V)) : List GraphId :=
  log.foldl (fun st e => match e with
    | .subscribed c _ _ => c :: st
    | .refreshed c => c :: st
    | .ran _ => st.tail
    | _ => st) []

/-- `d` was subscribed while the callback of `c` was running; `post` happened since. -/
def Made (log : List (Ev V)) (d c : GraphId) (post : List (Ev V)) : Prop :=
  ∃ pre t b st, log = pre ++ .subscribed d t b :: post ∧ running pre = c :: st

/-- The callback of `c` was called. -/
def Called (c : GraphId) (log : List (Ev V)) : Prop :=
  ∃ v clean vals defs, .deliver c v clean vals defs ∈ log

/-- Callbacks return the resources of all subscriptions they make.  `top` is for the main
program, which can keep its subscriptions in other ways. -/
def Act.Keeps : Act V → (top : Bool) → Prop
  | .done, _ => True
  | .newValue _ _ k, top => ∀ id, (k id).Keeps top
  | .newComputed _ k, top => ∀ id, (k id).Keeps top
  | .subscribe _ _ own cb k, top =>
      (top = true ∨ own = true) ∧ (∀ v, (cb v).Keeps false) ∧ ∀ id, (k id).Keeps top
  | .dropSub _ k, top => k.Keeps top
  | .dropComputed _ k, top => k.Keeps top
  | .txBegin k, top => k.Keeps top
  | .txEnd k, top => k.Keeps top
  | .write _ _ _ k, top => k.Keeps top
  | .get _ k, top => ∀ v, (k v).Keeps top

/-! ## Logs -/

/-- Events that are about neither runs nor calls. -/
def Ev.Plain : Ev V → Prop
  | .subscribed _ _ _ => False
  | .refreshed _ => False
  | .ran _ => False
  | .deliver _ _ _ _ _ => False
  | _ => True

theorem running_append (l k : List (Ev V)) : running (l ++ k) = k.foldl (fun st e => match e with
    | .subscribed c _ _ => c :: st
    | .refreshed c => c :: st
    | .ran _ => st.tail
    | _ => st) (running l) := by
  simp [running]

theorem running_plain {k : List (Ev V)} (hk : ∀ e ∈ k, e.Plain) (l) : running (l ++ k) = running l := by
  induction k generalizing l with
  | nil => simp
  | cons e k ih =>
    rw [show l ++ e :: k = (l ++ [e]) ++ k by simp, ih fun x h => hk x (by simp [h]), running_append]
    have := hk e (by simp)
    cases e <;> first | rfl | exact this.elim

theorem called_append {c} {l k : List (Ev V)} : Called c (l ++ k) ↔ Called c l ∨ Called c k := by
  simp only [Called, List.mem_append]
  constructor
  · rintro ⟨v, a, b, d, h | h⟩
    · exact .inl ⟨v, a, b, d, h⟩
    · exact .inr ⟨v, a, b, d, h⟩
  · rintro (⟨v, a, b, d, h⟩ | ⟨v, a, b, d, h⟩)
    · exact ⟨v, a, b, d, .inl h⟩
    · exact ⟨v, a, b, d, .inr h⟩

theorem not_called_plain {c} {k : List (Ev V)} (hk : ∀ e ∈ k, e.Plain) : ¬ Called c k := by
  rintro ⟨v, a, b, d, h⟩; exact hk _ h

theorem not_called_one {c} {e : Ev V} (h : ∀ v a b d, e ≠ .deliver c v a b d) : ¬ Called c [e] := by
  rintro ⟨v, a, b, d, h'⟩; exact h v a b d (List.mem_singleton.mp h').symm

theorem made_append {l k : List (Ev V)} {d c post} (h : Made (l ++ k) d c post) :
    (∃ p, post = p ++ k ∧ Made l d c p) ∨
    ∃ t b k1 st, k = k1 ++ .subscribed d t b :: post ∧ running (l ++ k1) = c :: st := by
  obtain ⟨pre, t, b, st, he, hr⟩ := h
  rcases List.append_eq_append_iff.mp he with ⟨a, h1, h2⟩ | ⟨a, h1, h2⟩
  · subst h1
    exact .inr ⟨t, b, a, st, h2, hr⟩
  · cases a with
    | nil =>
      simp only [List.append_nil] at h1; subst h1
      exact .inr ⟨t, b, [], st, by simpa using h2.symm, by simpa using hr⟩
    | cons e a =>
      simp only [List.cons_append, List.cons.injEq] at h2
      obtain ⟨rfl, h2⟩ := h2
      exact .inl ⟨a, h2, pre, t, b, st, h1, hr⟩

theorem Made.not_sub {l k : List (Ev V)} {d c post} (h : Made (l ++ k) d c post)
    (hk : ∀ t b, .subscribed d t b ∉ k) : ∃ p, post = p ++ k ∧ Made l d c p := by
  rcases made_append h with h | ⟨t, b, k1, st, rfl, _⟩
  · exact h
  · exact absurd (by simp) (hk t b)

theorem Made.mem {l : List (Ev V)} {d c post} (h : Made l d c post) : ∃ t b, .subscribed d t b ∈ l := by
  obtain ⟨pre, t, b, st, rfl, _⟩ := h
  exact ⟨t, b, by simp⟩

theorem plain_not_sub {k : List (Ev V)} (hk : ∀ e ∈ k, e.Plain) (d t b) : .subscribed d t b ∉ k :=
  fun h => hk _ h

/-! ## Invariant -/

/-- Where the subscription `d` made by `c` is kept. -/
def KeptBy (s : St V) (B : GraphId → Prop) (d c : GraphId) (post : List (Ev V)) : Prop :=
  ∃ cc, s.clients c = some cc ∧ ((d ∈ cc.owned ∧ (B c ∨ ¬ Called c post)) ∨
    (d ∈ cc.fresh ∧ cc.running = true ∧ ¬ Called c post))

/-- `st`: the running subscriptions; `B`: those that were called and still hold what the
previous call returned; `X`: subscriptions that are about to be dropped or given to
somebody. -/
structure Owned (st : List GraphId) (B X : GraphId → Prop) (s : St V) : Prop where
  run : running s.log = st
  stack : ∀ c ∈ st, c.num < s.next ∧ c.kind = .client ∧ ∃ cl, s.clients c = some cl ∧ cl.running = true
  subs : ∀ d t b, .subscribed d t b ∈ s.log → d.num < s.next ∧ (s.clients d ≠ none ∨ .dropped d ∈ s.log)
  live : ∀ c, s.clients c ≠ none → c.num < s.next ∧ c.kind = .client
  cbs : ∀ c cl, s.clients c = some cl → ∀ v, (cl.cb v).Keeps false
  owner : ∀ d c post, Made s.log d c post → c.num < s.next ∧ c.kind = .client ∧ c.num < d.num
  kept : ∀ d c post cd, Made s.log d c post → s.clients d = some cd →
    X d ∨ (cd.running = true ∧ cd.dropReq = true) ∨ KeptBy s B d c post

theorem Owned.weaken {st} {B X Y : GraphId → Prop} {s : St V} (h : Owned st B X s) (hXY : ∀ x, X x → Y x) :
    Owned st B Y s :=
  { h with kept := fun d c post cd h1 h2 => (h.kept d c post cd h1 h2).imp (hXY d) id }

/-- What happens to the log while `st` are running. -/
structure Ext (st : List GraphId) (s s' : St V) : Prop where
  next : s.next ≤ s'.next
  log : ∃ k, s'.log = s.log ++ k ∧ (∀ x ∈ st, ¬ Called x k) ∧
    ∀ d t b, .subscribed d t b ∈ k → s.next ≤ d.num

theorem Ext.refl (st) (s : St V) : Ext st s s :=
  ⟨Nat.le_refl _, [], by simp, by simp [Called], by simp⟩

theorem Ext.trans {st} {a b c : St V} (h1 : Ext st a b) (h2 : Ext st b c) : Ext st a c := by
  obtain ⟨n1, k1, e1, f1, g1⟩ := h1
  obtain ⟨n2, k2, e2, f2, g2⟩ := h2
  refine ⟨Nat.le_trans n1 n2, k1 ++ k2, by rw [e2, e1]; simp, fun x hx h => ?_, fun d t b h => ?_⟩
  · rcases called_append.mp h with h | h
    · exact f1 x hx h
    · exact f2 x hx h
  · rcases List.mem_append.mp h with h | h
    · exact g1 d t b h
    · exact Nat.le_trans n1 (g2 d t b h)

theorem Ext.sub {st st' : List GraphId} {a b : St V} (h : Ext st a b) (hs : ∀ x ∈ st', x ∈ st) : Ext st' a b := by
  obtain ⟨n1, k1, e1, f1, g1⟩ := h
  exact ⟨n1, k1, e1, fun x hx => f1 x (hs x hx), g1⟩

/-- Steps that do not touch what subscriptions hold. -/
structure Near (s s' : St V) : Prop where
  fwd : ∀ x cl, s.clients x = some cl → ∃ cl', s'.clients x = some cl' ∧ cl'.owned = cl.owned ∧
    cl'.fresh = cl.fresh ∧ cl'.running = cl.running ∧ cl'.dropReq = cl.dropReq ∧ cl'.cb = cl.cb
  none : ∀ x, s.clients x = none → s'.clients x = none
  log : ∃ k, s'.log = s.log ++ k ∧ ∀ e ∈ k, e.Plain
  next : s.next ≤ s'.next

theorem Near.bwd {s s' : St V} (h : Near s s') {x cl'} (hc : s'.clients x = some cl') :
    ∃ cl, s.clients x = some cl ∧ cl'.owned = cl.owned ∧
    cl'.fresh = cl.fresh ∧ cl'.running = cl.running ∧ cl'.dropReq = cl.dropReq ∧ cl'.cb = cl.cb := by
  cases hx : s.clients x with
  | none => rw [h.none x hx] at hc; cases hc
  | some cl =>
    obtain ⟨cl2, h1, h2⟩ := h.fwd x cl hx
    rw [h1] at hc; cases hc
    exact ⟨cl, rfl, h2⟩

theorem Near.refl (s : St V) : Near s s :=
  ⟨fun _ cl h => ⟨cl, h, rfl, rfl, rfl, rfl, rfl⟩, fun _ h => h, ⟨[], by simp, by simp⟩, Nat.le_refl _⟩

theorem Near.trans {a b c : St V} (h1 : Near a b) (h2 : Near b c) : Near a c := by
  refine ⟨fun x cl h => ?_, fun x h => h2.none x (h1.none x h), ?_, Nat.le_trans h1.next h2.next⟩
  · obtain ⟨d, e, f1, f2, f3, f4, f5⟩ := h1.fwd x cl h
    obtain ⟨d', e', g1, g2, g3, g4, g5⟩ := h2.fwd x d e
    exact ⟨d', e', g1.trans f1, g2.trans f2, g3.trans f3, g4.trans f4, g5.trans f5⟩
  · obtain ⟨k1, e1, p1⟩ := h1.log
    obtain ⟨k2, e2, p2⟩ := h2.log
    refine ⟨k1 ++ k2, by rw [e2, e1]; simp, fun e he => ?_⟩
    rcases List.mem_append.mp he with h | h
    · exact p1 e h
    · exact p2 e h

theorem near_same {s s' : St V} (hc : s'.clients = s.clients) (hn : s.next ≤ s'.next) {k}
    (hl : s'.log = s.log ++ k) (hk : ∀ e ∈ k, e.Plain) : Near s s' :=
  ⟨fun x cl h => ⟨cl, by rw [hc]; exact h, rfl, rfl, rfl, rfl, rfl⟩, fun x h => by rw [hc]; exact h, ⟨k, hl, hk⟩, hn⟩

theorem Near.ext {st} {s s' : St V} (h : Near s s') : Ext st s s' := by
  obtain ⟨k, hl, hk⟩ := h.log
  exact ⟨h.next, k, hl, fun _ _ => not_called_plain hk, fun d t b h => (plain_not_sub hk d t b h).elim⟩

theorem Owned.near {st} {B X : GraphId → Prop} {s s' : St V} (h : Owned st B X s) (hn : Near s s') :
    Owned st B X s' := by
  obtain ⟨k, hl, hk⟩ := hn.log
  have back : ∀ {d c post}, Made s'.log d c post → ∃ p, post = p ++ k ∧ Made s.log d c p := by
    intro d c post hm
    rw [hl] at hm
    exact hm.not_sub fun t b => plain_not_sub hk d t b
  constructor
  · rw [hl, running_plain hk]; exact h.run
  · intro c hc
    obtain ⟨h1, h2, cl, h3, h4⟩ := h.stack c hc
    obtain ⟨cl', g1, _, _, g4, _⟩ := hn.fwd c cl h3
    exact ⟨Nat.lt_of_lt_of_le h1 hn.next, h2, cl', g1, by rw [g4]; exact h4⟩
  · intro d t b hd
    rw [hl] at hd
    rcases List.mem_append.mp hd with hd | hd
    · obtain ⟨h1, h2⟩ := h.subs d t b hd
      refine ⟨Nat.lt_of_lt_of_le h1 hn.next, ?_⟩
      rcases h2 with h2 | h2
      · left
        obtain ⟨cl, hcl⟩ := Option.ne_none_iff_exists'.mp h2
        obtain ⟨cl', g1, _⟩ := hn.fwd d cl hcl
        rw [g1]; simp
      · right; rw [hl]; simp [h2]
    · exact (plain_not_sub hk d t b hd).elim
  · intro c hc
    obtain ⟨cl', hcl⟩ := Option.ne_none_iff_exists'.mp hc
    obtain ⟨cl, g1, _⟩ := hn.bwd hcl
    have := h.live c (by rw [g1]; simp)
    exact ⟨Nat.lt_of_lt_of_le this.1 hn.next, this.2⟩
  · intro c cl' hcl v
    obtain ⟨cl, g1, _, _, _, _, g5⟩ := hn.bwd hcl
    rw [g5]; exact h.cbs c cl g1 v
  · intro d c post hm
    obtain ⟨p, _, hm⟩ := back hm
    have := h.owner d c p hm
    exact ⟨Nat.lt_of_lt_of_le this.1 hn.next, this.2⟩
  · intro d c post cd' hm hcd
    obtain ⟨p, rfl, hm0⟩ := back hm
    obtain ⟨cd, g1, _, _, g3, g4, _⟩ := hn.bwd hcd
    rcases h.kept d c p cd hm0 g1 with h1 | ⟨h1, h2⟩ | ⟨cc, h1, h2⟩
    · exact .inl h1
    · exact .inr (.inl ⟨by rw [g3]; exact h1, by rw [g4]; exact h2⟩)
    · obtain ⟨cc', e1, e2, e3, e4, _⟩ := hn.fwd c cc h1
      have hnc : ¬ Called c p → ¬ Called c (p ++ k) := by
        intro hp hq
        rcases called_append.mp hq with hq | hq
        · exact hp hq
        · exact not_called_plain hk hq
      refine .inr (.inr ⟨cc', e1, ?_⟩)
      rw [e2, e3, e4]
      rcases h2 with ⟨h2, h3⟩ | ⟨h2, h3, h4⟩
      · exact .inl ⟨h2, h3.imp (fun h => h) hnc⟩
      · exact .inr ⟨h2, h3, hnc h4⟩

/-! ### Steps that are near -/

theorem isConn_plain {e : Ev V} (h : e.isConn = true) : e.Plain := by
  cases e <;> first | exact trivial | cases h

theorem near_setParents {s s' : St V} {X N} (h : s.setParents X N = .ok s') : Near s s' := by
  obtain ⟨k, hl, hk⟩ := setParents_log h
  have hn := (same_setParents h).next
  unfold St.setParents at h
  split at h <;> cases h
  refine ⟨fun x cl hx => ?_, fun x hx => ?_, ⟨k, hl, fun e he => isConn_plain (hk e he)⟩, Nat.le_of_eq hn.symm⟩
  · rw [applyInfo_clients]
    split
    · exact ⟨{ cl with ready := false }, by simp [hx], rfl, rfl, rfl, rfl, rfl⟩
    · exact ⟨cl, hx, rfl, rfl, rfl, rfl, rfl⟩
  · rw [applyInfo_clients]
    split <;> simp [hx]

theorem near_eval {rd : St V → GraphId → Except Err (St V × V)}
    (hrd : ∀ s id s' v, rd s id = .ok (s', v) → Near s s') (p : Prog V) {s ctx s' v ctx'}
    (h : p.eval rd s ctx = .ok (s', v, ctx')) : Near s s' := by
  induction p generalizing s ctx with
  | ret w => simp [Prog.eval] at h; rw [h.1]; exact .refl _
  | read id k ih =>
    simp only [Prog.eval] at h
    split at h
    · cases h
    · rename_i s1 w h1
      exact (hrd _ _ _ _ h1).trans (ih _ h)

theorem near_getNode (n) : ∀ K (s : St V) id s' v, getNode n K s id = .ok (s', v) → Near s s' := by
  induction n with
  | zero => intro K s id s' v h; simp [getNode] at h
  | succ n ih =>
    intro K s id s' v h
    simp only [getNode] at h
    split at h
    · split at h
      · cases h
      · cases h; exact .refl _
    · split at h
      · cases h
      · split at h
        · cases h; exact .refl _
        · split at h
          · cases h
          · rename_i h1
            split at h
            · cases h
            · rename_i h2
              cases h
              exact (near_eval (ih _) _ h1).trans ((near_setParents h2).trans
                (near_same rfl (Nat.le_refl _) (k := []) (by simp [St.mark]) (by simp)))
    · cases h

/-! ### Dropping -/

theorem owned_dropAll {st} {B : GraphId → Prop} (n) : ∀ l X (s s' : St V),
    Owned st B (fun x => X x ∨ x ∈ l) s → St.dropAll n l s = .ok s' →
    Owned st B X s' ∧ Ext st s s' ∧
    ∀ c cl', s'.clients c = some cl' → ∃ cl, s.clients c = some cl ∧ cl'.fresh = cl.fresh := by
  induction n with
  | zero => intro l X s s' _ h; simp [St.dropAll] at h
  | succ n ih =>
    intro l X s s' ho h
    cases l with
    | nil =>
      simp only [St.dropAll, Except.ok.injEq] at h; subst h
      exact ⟨ho.weaken (by simp), .refl _ _, fun c cl h => ⟨cl, h, rfl⟩⟩
    | cons id rest =>
      simp only [St.dropAll] at h
      split at h
      · rename_i hn
        refine ih rest X s s' ?_ h
        refine { ho with kept := fun d c post cd h1 h2 => ?_ }
        rcases ho.kept d c post cd h1 h2 with h3 | h3
        · rcases h3 with h3 | h3
          · exact .inl (.inl h3)
          · rcases List.mem_cons.mp h3 with rfl | h3
            · rw [hn] at h2; cases h2
            · exact .inl (.inr h3)
        · exact .inr h3
      · rename_i cl0 hcl
        split at h
        · rename_i hrun
          -- marked
          have ho1 : Owned st B (fun x => X x ∨ x ∈ rest)
              ({ s with clients := upd s.clients id (some { cl0 with dropReq := true }) }.emit (.released id)) := by
            have back : ∀ {d c post}, Made (s.log ++ [.released id]) d c post →
                ∃ p, post = p ++ [.released id] ∧ Made s.log d c p := fun hm => hm.not_sub (by simp)
            constructor
            · simp only [St.emit]; rw [running_plain (by simp [Ev.Plain])]; exact ho.run
            · intro c hc
              obtain ⟨h1, h2, cl, h3, h4⟩ := ho.stack c hc
              refine ⟨h1, h2, ?_⟩
              simp only [St.emit, upd]
              split
              · rename_i e; exact ⟨_, rfl, hrun⟩
              · exact ⟨cl, h3, h4⟩
            · intro d t b hd
              simp only [St.emit, List.mem_append, List.mem_singleton, reduceCtorEq, or_false] at hd ⊢
              obtain ⟨h1, h2⟩ := ho.subs d t b hd
              refine ⟨h1, h2.imp (fun h => ?_) fun h => h⟩
              simp only [upd]; split
              · simp
              · exact h
            · intro c hc
              simp only [St.emit, upd] at hc
              split at hc
              · rename_i e; subst e; exact ho.live c (by rw [hcl]; simp)
              · exact ho.live c hc
            · intro c cl hc v
              simp only [St.emit, upd] at hc
              split at hc
              · rename_i e; cases hc; exact ho.cbs _ cl0 hcl v
              · exact ho.cbs c cl hc v
            · intro d c post hm
              obtain ⟨p, _, hm⟩ := back hm
              exact ho.owner d c p hm
            · intro d c post cd hm hcd
              obtain ⟨p, rfl, hm0⟩ := back hm
              simp only [St.emit, upd] at hcd
              split at hcd
              · cases hcd; exact .inr (.inl ⟨hrun, rfl⟩)
              · rename_i hne
                have hnc : ¬ Called c p → ¬ Called c (p ++ [.released id]) := by
                  intro hp hq
                  rcases called_append.mp hq with hq | hq
                  · exact hp hq
                  · exact not_called_plain (by simp [Ev.Plain]) hq
                rcases ho.kept d c p cd hm0 hcd with (h1 | h1) | h1 | ⟨cc, h1, h2⟩
                · exact .inl (.inl h1)
                · rcases List.mem_cons.mp h1 with rfl | h1
                  · exact absurd rfl hne
                  · exact .inl (.inr h1)
                · exact .inr (.inl h1)
                · refine .inr (.inr ?_)
                  have h2' : (d ∈ cc.owned ∧ (B c ∨ ¬ Called c (p ++ [.released id]))) ∨
                      (d ∈ cc.fresh ∧ cc.running = true ∧ ¬ Called c (p ++ [.released id])) := by
                    rcases h2 with ⟨h2, h3⟩ | ⟨h2, h3, h4⟩
                    · exact .inl ⟨h2, h3.imp (fun h => h) hnc⟩
                    · exact .inr ⟨h2, h3, hnc h4⟩
                  by_cases e : c = id
                  · subst e; rw [hcl] at h1; cases h1
                    exact ⟨{ cl0 with dropReq := true }, by simp [St.emit, upd], h2'⟩
                  · exact ⟨cc, by simp [St.emit, upd, e, h1], h2'⟩
          obtain ⟨r1, r2, r3⟩ := ih rest X _ s' ho1 h
          refine ⟨r1, Ext.trans (b := _) ?_ r2, fun c cl' hc => ?_⟩
          · exact ⟨Nat.le_refl _, [.released id], rfl, fun x _ => not_called_plain (by simp [Ev.Plain]), by simp⟩
          · obtain ⟨cl, e1, e2⟩ := r3 c cl' hc
            simp only [St.emit, upd] at e1
            split at e1
            · rename_i e; cases e1; subst e; exact ⟨cl0, hcl, e2⟩
            · exact ⟨cl, e1, e2⟩
        · rename_i hrun
          split at h
          · cases h
          rename_i s1 hdr
          unfold St.dropOne at hdr
          have hn := near_setParents hdr
          have ho0 : Owned st B (fun x => X x ∨ x ∈ cl0.owned ++ rest)
              ({ s with clients := upd s.clients id none }.emit (.dropped id)) := by
            have back : ∀ {d c post}, Made (s.log ++ [.dropped id]) d c post →
                ∃ p, post = p ++ [.dropped id] ∧ Made s.log d c p := fun hm => hm.not_sub (by simp)
            constructor
            · simp only [St.emit]; rw [running_plain (by simp [Ev.Plain])]; exact ho.run
            · intro c hc
              obtain ⟨h1, h2, cl, h3, h4⟩ := ho.stack c hc
              refine ⟨h1, h2, cl, ?_, h4⟩
              have : c ≠ id := by
                rintro rfl; rw [hcl] at h3; cases h3; exact hrun h4
              simp [St.emit, upd, this, h3]
            · intro d t b hd
              simp only [St.emit, List.mem_append, List.mem_singleton, reduceCtorEq, or_false] at hd ⊢
              obtain ⟨h1, h2⟩ := ho.subs d t b hd
              refine ⟨h1, ?_⟩
              by_cases e : d = id
              · subst e; exact .inr (.inr rfl)
              · rcases h2 with h2 | h2
                · exact .inl (by simpa [upd, e] using h2)
                · exact .inr (.inl h2)
            · intro c hc
              simp only [St.emit, upd] at hc
              split at hc
              · exact absurd rfl hc
              · exact ho.live c hc
            · intro c cl hc v
              simp only [St.emit, upd] at hc
              split at hc
              · cases hc
              · exact ho.cbs c cl hc v
            · intro d c post hm
              obtain ⟨p, _, hm⟩ := back hm
              exact ho.owner d c p hm
            · intro d c post cd hm hcd
              obtain ⟨p, rfl, hm0⟩ := back hm
              simp only [St.emit, upd] at hcd
              split at hcd
              · cases hcd
              · rename_i hne
                have hnc : ¬ Called c p → ¬ Called c (p ++ [.dropped id]) := by
                  intro hp hq
                  rcases called_append.mp hq with hq | hq
                  · exact hp hq
                  · exact not_called_plain (by simp [Ev.Plain]) hq
                rcases ho.kept d c p cd hm0 hcd with (h1 | h1) | h1 | ⟨cc, h1, h2⟩
                · exact .inl (.inl h1)
                · rcases List.mem_cons.mp h1 with rfl | h1
                  · exact absurd rfl hne
                  · exact .inl (.inr (by simp [h1]))
                · exact .inr (.inl h1)
                · by_cases e : c = id
                  · subst e; rw [hcl] at h1; cases h1
                    rcases h2 with ⟨h2, _⟩ | ⟨_, h3, _⟩
                    · exact .inl (.inr (by simp [h2]))
                    · exact absurd h3 hrun
                  · refine .inr (.inr ⟨cc, by simp [St.emit, upd, e, h1], ?_⟩)
                    rcases h2 with ⟨h2, h3⟩ | ⟨h2, h3, h4⟩
                    · exact .inl ⟨h2, h3.imp (fun h => h) hnc⟩
                    · exact .inr ⟨h2, h3, hnc h4⟩
          obtain ⟨r1, r2, r3⟩ := ih (cl0.owned ++ rest) X s1 s' (ho0.near hn) h
          refine ⟨r1, Ext.trans ?_ (hn.ext.trans r2), fun c cl' hc => ?_⟩
          · exact ⟨Nat.le_refl _, [.dropped id], rfl, fun x _ => not_called_plain (by simp [Ev.Plain]), by simp⟩
          · obtain ⟨cl, e1, e2⟩ := r3 c cl' hc
            obtain ⟨cl2, e3, _, e4, _⟩ := hn.bwd e1
            simp only [St.emit, upd] at e3
            split at e3
            · cases e3
            · exact ⟨cl2, e3, by rw [e2, e4]⟩


/-! ### A run -/

variable [DecidableEq V]

theorem owned_observe {lim id o} {st} {B X : GraphId → Prop} {s s' : St V} (h : Owned (id :: st) B X s)
    (hf : ∀ cl, s.clients id = some cl → cl.fresh = []) (hid : id ∉ st) (hs : s.observe lim id = .ok (s', o)) :
    Owned (id :: st) (fun x => B x ∨ (o ≠ none ∧ x = id)) X s' ∧ Ext st s s' ∧
    ∀ cl, s'.clients id = some cl → cl.fresh = [] := by
  obtain ⟨cl, s1, v, cl1, h1, h2, h3, h4⟩ := observe_cases hs
  have hn := near_getNode _ _ _ _ _ _ h2
  have hf1 : cl1.fresh = [] := by
    obtain ⟨c0, e1, _, e2, _⟩ := hn.bwd h3
    rw [e2]; exact hf c0 e1
  have hn2 : Near s1 { s1 with clients := upd s1.clients id (some { cl1 with prev := some v }) } := by
    refine ⟨fun x c hx => ?_, fun x hx => ?_, ⟨[], by simp, by simp⟩, Nat.le_refl _⟩
    · by_cases e : x = id
      · subst e; rw [h3] at hx; cases hx
        exact ⟨{ cl1 with prev := some v }, by simp [upd], rfl, rfl, rfl, rfl, rfl⟩
      · exact ⟨c, by simp [upd, e, hx], rfl, rfl, rfl, rfl, rfl⟩
    · have : x ≠ id := by rintro rfl; rw [h3] at hx; cases hx
      simp [upd, this, hx]
  have ho := (h.near hn).near hn2
  have he : Ext st s _ := (hn.trans hn2).ext
  generalize hq : ({ s1 with clients := upd s1.clients id (some { cl1 with prev := some v }) } : St V) = s2 at *
  have hf2 : ∀ cl, s2.clients id = some cl → cl.fresh = [] := by
    intro c hc; rw [← hq] at hc; simp [upd] at hc; rw [← hc]; exact hf1
  rcases h4 with ⟨_, rfl, rfl⟩ | ⟨_, _, rfl, rfl⟩
  · have back : ∀ {d c post}, Made (s2.log ++ [.deliver id v (!s1.taint cl1.target) s1.vals s1.defs]) d c post →
        ∃ p, post = p ++ [.deliver id v (!s1.taint cl1.target) s1.vals s1.defs] ∧ Made s2.log d c p :=
      fun hm => hm.not_sub (by simp)
    refine ⟨⟨?_, ho.stack, ?_, ho.live, ho.cbs, ?_, ?_⟩, ?_, hf2⟩
    · simp only [St.emit]; rw [running_append]; exact ho.run
    · intro d t b hd
      simp only [St.emit, List.mem_append, List.mem_singleton, reduceCtorEq, or_false] at hd ⊢
      exact ho.subs d t b hd
    · intro d c post hm
      obtain ⟨p, _, hm0⟩ := back hm
      exact ho.owner d c p hm0
    · intro d c post cd hm hcd
      obtain ⟨p, rfl, hm0⟩ := back hm
      rcases ho.kept d c p cd hm0 hcd with h1 | h1 | ⟨cc, hcc, h2⟩
      · exact .inl h1
      · exact .inr (.inl h1)
      · refine .inr (.inr ⟨cc, hcc, ?_⟩)
        by_cases e : c = id
        · subst e
          rcases h2 with ⟨h2, _⟩ | ⟨h2, _⟩
          · exact .inl ⟨h2, .inl (.inr ⟨by simp, rfl⟩)⟩
          · rw [hf2 cc hcc] at h2; cases h2
        · have hnc : ¬ Called c p → ¬ Called c (p ++ [.deliver id v (!s1.taint cl1.target) s1.vals s1.defs]) := by
            intro hp hq
            rcases called_append.mp hq with hq | hq
            · exact hp hq
            · exact not_called_one (by rintro _ _ _ _ ⟨⟩; exact e rfl) hq
          rcases h2 with ⟨h2, h3⟩ | ⟨h2, h3, h4⟩
          · exact .inl ⟨h2, h3.imp .inl hnc⟩
          · exact .inr ⟨h2, h3, hnc h4⟩
    · refine he.trans ⟨Nat.le_refl _, _, rfl, fun x hx => not_called_one ?_, by simp⟩
      rintro _ _ _ _ ⟨⟩; exact hid hx
  · refine ⟨⟨ho.run, ho.stack, ho.subs, ho.live, ho.cbs, ho.owner, fun d c post cd h1 h2 => ?_⟩, he, hf2⟩
    rcases ho.kept d c post cd h1 h2 with h3 | h3 | ⟨cc, h3, h4⟩
    · exact .inl h3
    · exact .inr (.inl h3)
    · exact .inr (.inr ⟨cc, h3, h4.imp (fun h => ⟨h.1, h.2.imp .inl fun h => h⟩) fun h => h⟩)

omit [DecidableEq V] in
theorem owned_swap {id l} {st} {B X : GraphId → Prop} {s s' : St V}
    (h : Owned st (fun x => B x ∨ x = id) X s) (hs : s.swapOwned id = .ok (s', l)) :
    Owned st B (fun x => X x ∨ x ∈ l) s' ∧ Ext st s s' ∧
    ∀ cl, s'.clients id = some cl → cl.fresh = [] := by
  unfold St.swapOwned at hs
  split at hs <;> cases hs
  rename_i cl hcl
  refine ⟨⟨h.run, ?_, ?_, ?_, ?_, h.owner, ?_⟩, ⟨Nat.le_refl _, [], by simp, by simp [Called], by simp⟩, ?_⟩
  · intro c hc
    obtain ⟨h1, h2, c0, h3, h4⟩ := h.stack c hc
    refine ⟨h1, h2, ?_⟩
    simp only [upd]
    split
    · rename_i e; subst e; rw [hcl] at h3; cases h3; exact ⟨_, rfl, h4⟩
    · exact ⟨c0, h3, h4⟩
  · intro d t b hd
    obtain ⟨h1, h2⟩ := h.subs d t b hd
    refine ⟨h1, h2.imp (fun h => ?_) fun h => h⟩
    simp only [upd]; split
    · simp
    · exact h
  · intro c hc
    simp only [upd] at hc
    split at hc
    · rename_i e; subst e; exact h.live c (by rw [hcl]; simp)
    · exact h.live c hc
  · intro c c0 hc v
    simp only [upd] at hc
    split at hc
    · cases hc; exact h.cbs _ cl hcl v
    · exact h.cbs c c0 hc v
  · intro d c post cd hm hcd
    have : ∃ cd0, s.clients d = some cd0 ∧ cd.running = cd0.running ∧ cd.dropReq = cd0.dropReq := by
      simp only [upd] at hcd
      split at hcd
      · rename_i e; cases hcd; subst e; exact ⟨cl, hcl, rfl, rfl⟩
      · exact ⟨cd, hcd, rfl, rfl⟩
    obtain ⟨cd0, e1, e2, e3⟩ := this
    rcases h.kept d c post cd0 hm e1 with h1 | h1 | ⟨cc, h1, h2⟩
    · exact .inl (.inl h1)
    · exact .inr (.inl (by rw [e2, e3]; exact h1))
    · by_cases e : c = id
      · subst e; rw [hcl] at h1; cases h1
        rcases h2 with ⟨h2, _⟩ | ⟨h2, _, h4⟩
        · exact .inl (.inr h2)
        · exact .inr (.inr ⟨{ cl with owned := cl.fresh, fresh := [] }, by simp [upd], .inl ⟨h2, .inr h4⟩⟩)
      · refine .inr (.inr ⟨cc, by simp [upd, e, h1], h2.imp (fun h => ⟨h.1, h.2.imp (fun h => ?_) fun h => h⟩) fun h => h⟩)
        exact h.resolve_right e
  · intro c hc
    simp [upd] at hc; rw [← hc]

theorem owned_finishRun {id} {st} {B X : GraphId → Prop} {s s1 : St V} (h : Owned (id :: st) B X s)
    (hf : ∀ cl, s.clients id = some cl → cl.fresh = []) (hid : id ∉ st) (h1 : s.finishRun id = .ok s1) :
    ∃ cl, s1.clients id = some cl ∧ Owned st B (fun x => X x ∨ (cl.dropReq = true ∧ x = id)) s1 ∧
      Ext st s s1 := by
  obtain ⟨cl, s0, hcl, hrun, _, hset, rfl⟩ := finishRun_cases h1
  have hn := near_setParents hset
  have ho := h.near hn
  obtain ⟨cl2, hcl2, k1, k2, k3, k4, k5⟩ := hn.fwd id cl hcl
  refine ⟨{ cl with ready := true, running := false }, by simp [St.emit, upd], ?_,
    hn.ext.trans ⟨Nat.le_refl _, [.ran id], rfl, fun x _ => not_called_one (by simp), by simp⟩⟩
  have back : ∀ {d c post}, Made (s0.log ++ [.ran id]) d c post →
      ∃ p, post = p ++ [.ran id] ∧ Made s0.log d c p := fun hm => hm.not_sub (by simp)
  constructor
  · simp only [St.emit]; rw [running_append, ho.run]; rfl
  · intro c hc
    obtain ⟨g1, g2, c0, g3, g4⟩ := ho.stack c (by simp [hc])
    have : c ≠ id := by rintro rfl; exact hid hc
    exact ⟨g1, g2, c0, by simp [St.emit, upd, this, g3], g4⟩
  · intro d t b hd
    simp only [St.emit, List.mem_append, List.mem_singleton, reduceCtorEq, or_false] at hd ⊢
    obtain ⟨g1, g2⟩ := ho.subs d t b hd
    refine ⟨g1, g2.imp (fun h => ?_) fun h => h⟩
    simp only [upd]; split
    · simp
    · exact h
  · intro c hc
    simp only [St.emit, upd] at hc
    split at hc
    · rename_i e; subst e; exact ho.live c (by rw [hcl2]; simp)
    · exact ho.live c hc
  · intro c c0 hc v
    simp only [St.emit, upd] at hc
    split at hc
    · cases hc; exact h.cbs _ cl hcl v
    · exact ho.cbs c c0 hc v
  · intro d c post hm
    obtain ⟨p, _, hm0⟩ := back hm
    exact ho.owner d c p hm0
  · intro d c post cd hm hcd
    obtain ⟨p, rfl, hm0⟩ := back hm
    have hnc : ¬ Called c p → ¬ Called c (p ++ [.ran id]) := by
      intro hp hq
      rcases called_append.mp hq with hq | hq
      · exact hp hq
      · exact not_called_one (by simp) hq
    have : ∃ cd0, s0.clients d = some cd0 ∧ ((cd0.running = true ∧ cd0.dropReq = true) →
        (cl.dropReq = true ∧ d = id) ∨ (cd.running = true ∧ cd.dropReq = true)) := by
      simp only [St.emit, upd] at hcd
      split at hcd
      · rename_i e; cases hcd; subst e
        exact ⟨cl2, hcl2, fun g => .inl ⟨by rw [← k4]; exact g.2, rfl⟩⟩
      · exact ⟨cd, hcd, fun g => .inr g⟩
    obtain ⟨cd0, e1, e2⟩ := this
    rcases ho.kept d c p cd0 hm0 e1 with g1 | g1 | ⟨cc, g1, g2⟩
    · exact .inl (.inl g1)
    · rcases e2 g1 with g | g
      · exact .inl (.inr g)
      · exact .inr (.inl g)
    · by_cases e : c = id
      · subst e; rw [hcl2] at g1; cases g1
        rcases g2 with ⟨g2, g3⟩ | ⟨g2, _⟩
        · refine .inr (.inr ⟨{ cl with ready := true, running := false }, by simp [St.emit, upd], .inl ⟨?_, g3.imp (fun h => h) hnc⟩⟩)
          rw [k1] at g2; exact g2
        · rw [k2, hf cl hcl] at g2; cases g2
      · refine .inr (.inr ⟨cc, by simp [St.emit, upd, e, g1], ?_⟩)
        rcases g2 with ⟨g2, g3⟩ | ⟨g2, g3, g4⟩
        · exact .inl ⟨g2, g3.imp (fun h => h) hnc⟩
        · exact .inr ⟨g2, g3, hnc g4⟩

theorem owned_finish {id lim} {st} {B X : GraphId → Prop} {s s1 s' : St V} (h : Owned (id :: st) B X s)
    (hf : ∀ cl, s.clients id = some cl → cl.fresh = []) (hid : id ∉ st) (h1 : s.finishRun id = .ok s1)
    (h2 : s1.endRun lim id = .ok s') : Owned st B X s' ∧ Ext st s s' := by
  obtain ⟨cl, hcl, ho, he⟩ := owned_finishRun h hf hid h1
  unfold St.endRun at h2
  rw [hcl] at h2
  simp only at h2
  split at h2
  · rename_i hd
    obtain ⟨g1, g2, _⟩ := owned_dropAll lim [id] X s1 s'
      (ho.weaken fun x hx => hx.imp (fun h => h) fun h => by simp [h.2]) h2
    exact ⟨g1, he.trans g2⟩
  · rename_i hd
    cases h2
    exact ⟨ho.weaken fun x hx => hx.elim (fun h => h) fun h => absurd h.1 hd, he⟩

/-- `id` has just begun to run. -/
theorem owned_runClient {lim id call} {st} {B X : GraphId → Prop} {s s0 s' : St V} {Q : St V → Prop}
    (hcall : ∀ v s s', Q s → Owned (id :: st) (fun x => B x ∨ x = id) X s → call v s = .ok s' →
      Owned (id :: st) (fun x => B x ∨ x = id) X s' ∧ Ext (id :: st) s s')
    (hQ : ∀ s1 o, s0.observe lim id = .ok (s1, o) → Q s1)
    (hid : id ∉ st) (h0 : s.startRun id = .ok s0) (ho : Owned (id :: st) B X s0)
    (h : runClient lim call id s = .ok s') : Owned st B X s' ∧ Ext st s0 s' := by
  have hf0 : ∀ cl, s0.clients id = some cl → cl.fresh = [] := by
    intro cl hc
    unfold St.startRun at h0
    split at h0 <;> cases h0
    simp [upd] at hc; rw [← hc]
  simp only [runClient, h0] at h
  split at h
  · cases h
  · rename_i s1 h1
    obtain ⟨g1, g2, g3⟩ := owned_observe ho hf0 hid h1
    split at h
    · cases h
    rename_i s2 h2
    have g1' : Owned (id :: st) B X s1 := by
      refine { g1 with kept := fun d c post cd k1 k2 => ?_ }
      rcases g1.kept d c post cd k1 k2 with k | k | ⟨cc, k, k'⟩
      · exact .inl k
      · exact .inr (.inl k)
      · exact .inr (.inr ⟨cc, k, k'.imp (fun k => ⟨k.1, k.2.imp (fun k => k.elim (fun k => k) fun k => absurd rfl k.1) fun k => k⟩) fun k => k⟩)
    obtain ⟨k1, k2⟩ := owned_finish g1' g3 hid h2 h
    exact ⟨k1, g2.trans k2⟩
  · rename_i s1 v h1
    obtain ⟨g1, g2, g3⟩ := owned_observe ho hf0 hid h1
    have g1' : Owned (id :: st) (fun x => B x ∨ x = id) X s1 := by
      refine { g1 with kept := fun d c post cd k1 k2 => ?_ }
      rcases g1.kept d c post cd k1 k2 with k | k | ⟨cc, k, k'⟩
      · exact .inl k
      · exact .inr (.inl k)
      · exact .inr (.inr ⟨cc, k, k'.imp (fun k => ⟨k.1, k.2.imp (fun k => k.imp (fun k => k) fun k => k.2) fun k => k⟩) fun k => k⟩)
    split at h
    · cases h
    rename_i s2 h2
    obtain ⟨g4, g5⟩ := hcall v s1 s2 (hQ _ _ h1) g1' h2
    split at h
    · cases h
    rename_i s3 old h3
    obtain ⟨g6, g7, g8⟩ := owned_swap g4 h3
    split at h
    · cases h
    rename_i s4 h4
    obtain ⟨g9, g10, g11⟩ := owned_dropAll lim old X s3 s4 g6 h4
    split at h
    · cases h
    rename_i s5 h5
    obtain ⟨k1, k2⟩ := owned_finish g9 (fun cl hc => by
      obtain ⟨c0, e1, e2⟩ := g11 id cl hc
      rw [e2]; exact g8 c0 e1) hid h5 h
    have sub : ∀ x ∈ st, x ∈ id :: st := fun x hx => by simp [hx]
    exact ⟨k1, g2.trans ((g5.sub sub).trans ((g7.sub sub).trans ((g10.sub sub).trans k2)))⟩

/-! ### Programs -/

omit [DecidableEq V] in
theorem owned_start {id} {st} {B X : GraphId → Prop} {s s0 : St V} {cl0} (h : Owned st B X s)
    (hc : s.clients id = some cl0) (hr : cl0.running = false)
    (h0 : (s.emit (.refreshed id)).startRun id = .ok s0) : id ∉ st ∧ Owned (id :: st) B X s0 ∧ Ext st s s0 := by
  have hid : id ∉ st := by
    intro hm
    obtain ⟨_, _, cl, h1, h2⟩ := h.stack id hm
    rw [hc] at h1; cases h1; rw [hr] at h2; cases h2
  unfold St.startRun at h0
  rw [show (s.emit (.refreshed id)).clients id = some cl0 from hc] at h0
  cases h0
  have back : ∀ {d c post}, Made (s.log ++ [.refreshed id]) d c post →
      ∃ p, post = p ++ [.refreshed id] ∧ Made s.log d c p := fun hm => hm.not_sub (by simp)
  refine ⟨hid, ?_, ⟨Nat.le_refl _, [.refreshed id], rfl, fun x _ => not_called_one (by simp), by simp⟩⟩
  constructor
  · simp only [St.emit]; rw [running_append, h.run]; rfl
  · intro c hcm
    rcases List.mem_cons.mp hcm with rfl | hcm'
    · have := h.live c (by rw [hc]; simp)
      exact ⟨this.1, this.2, { cl0 with running := true, fresh := [] }, by simp [upd], rfl⟩
    · obtain ⟨g1, g2, cl, g3, g4⟩ := h.stack c hcm'
      have : c ≠ id := by rintro rfl; exact hid hcm'
      exact ⟨g1, g2, cl, by simp [upd, this, St.emit, g3], g4⟩
  · intro d t b hd
    simp only [St.emit, List.mem_append, List.mem_singleton, reduceCtorEq, or_false] at hd ⊢
    obtain ⟨h1, h2⟩ := h.subs d t b hd
    refine ⟨h1, h2.imp (fun h => ?_) fun h => h⟩
    simp only [upd]; split
    · simp
    · exact h
  · intro c hcl
    simp only [St.emit, upd] at hcl
    split at hcl
    · rename_i e; subst e; exact h.live c (by rw [hc]; simp)
    · exact h.live c hcl
  · intro c cl hcl v
    simp only [St.emit, upd] at hcl
    split at hcl
    · cases hcl; exact h.cbs _ cl0 hc v
    · exact h.cbs c cl hcl v
  · intro d c post hm
    obtain ⟨p, _, hm0⟩ := back hm
    exact h.owner d c p hm0
  · intro d c post cd hm hcd
    obtain ⟨p, rfl, hm0⟩ := back hm
    have hnc : ¬ Called c p → ¬ Called c (p ++ [.refreshed id]) := by
      intro hp hq
      rcases called_append.mp hq with hq | hq
      · exact hp hq
      · exact not_called_one (by simp) hq
    have : ∃ cd0, s.clients d = some cd0 ∧ ((cd0.running = true ∧ cd0.dropReq = true) →
        (cd.running = true ∧ cd.dropReq = true)) := by
      simp only [St.emit, upd] at hcd
      split at hcd
      · rename_i e; cases hcd; subst e; exact ⟨cl0, hc, fun g => ⟨rfl, g.2⟩⟩
      · exact ⟨cd, hcd, fun g => g⟩
    obtain ⟨cd0, e1, e2⟩ := this
    rcases h.kept d c p cd0 hm0 e1 with g1 | g1 | ⟨cc, g1, g2⟩
    · exact .inl g1
    · exact .inr (.inl (e2 g1))
    · by_cases e : c = id
      · subst e; rw [hc] at g1; cases g1
        rcases g2 with ⟨g2, g3⟩ | ⟨_, g3, _⟩
        · exact .inr (.inr ⟨{ cl0 with running := true, fresh := [] }, by simp [upd], .inl ⟨g2, g3.imp (fun h => h) hnc⟩⟩)
        · rw [hr] at g3; cases g3
      · refine .inr (.inr ⟨cc, by simp [upd, e, St.emit, g1], ?_⟩)
        rcases g2 with ⟨g2, g3⟩ | ⟨g2, g3, g4⟩
        · exact .inl ⟨g2, g3.imp (fun h => h) hnc⟩
        · exact .inr ⟨g2, g3, hnc g4⟩

omit [DecidableEq V] in
theorem owned_new {t a cb} {st} {B X : GraphId → Prop} {s s0 : St V} (h : Owned st B X s)
    (hcb : ∀ v, (cb v).Keeps false)
    (h0 : (s.addClient t a cb).startRun ⟨.client, s.next⟩ = .ok s0) :
    (⟨.client, s.next⟩ : GraphId) ∉ st ∧
    Owned (⟨.client, s.next⟩ :: st) B (fun x => X x ∨ x = ⟨.client, s.next⟩) s0 ∧
    s0.log = s.log ++ [.subscribed ⟨.client, s.next⟩ t a] ∧ s0.next = s.next + 1 ∧
    ∀ cl, s0.clients ⟨.client, s.next⟩ = some cl → cl.cb = cb := by
  have hid : (⟨.client, s.next⟩ : GraphId) ∉ st := fun hm => Nat.lt_irrefl _ (h.stack _ hm).1
  have hold : s.clients ⟨.client, s.next⟩ = none := by
    cases hx : s.clients ⟨.client, s.next⟩ with
    | none => rfl
    | some _ => exact absurd (h.live ⟨.client, s.next⟩ (by rw [hx]; simp)).1 (Nat.lt_irrefl _)
  unfold St.startRun at h0
  simp only [St.addClient, St.emit, upd, ↓reduceIte, Except.ok.injEq] at h0
  subst h0
  generalize hi : (⟨.client, s.next⟩ : GraphId) = id at *
  have hnum : id.num = s.next := by rw [← hi]
  have hkind : id.kind = .client := by rw [← hi]
  refine ⟨hid, ?_, rfl, rfl, by intro cl hc; simp [upd] at hc; rw [← hc]⟩
  have ne : ∀ c : GraphId, c.num < s.next → c ≠ id := by
    rintro c hc rfl; omega
  have back : ∀ {d c post}, Made (s.log ++ [.subscribed id t a]) d c post →
      (∃ p, post = p ++ [.subscribed id t a] ∧ Made s.log d c p) ∨ (d = id ∧ c ∈ st) := by
    intro d c post hm
    rcases made_append hm with h1 | ⟨t', b', k1, st', h1, h2⟩
    · exact .inl h1
    · right
      cases k1 with
      | nil =>
        simp only [List.nil_append, List.cons.injEq, Ev.subscribed.injEq] at h1
        refine ⟨h1.1.1.symm, ?_⟩
        rw [List.append_nil, h.run] at h2; rw [h2]; simp
      | cons _ k => simp at h1
  constructor
  · simp only; rw [running_append, h.run]; rfl
  · intro c hc
    rcases List.mem_cons.mp hc with rfl | hc
    · exact ⟨by simp only; omega, hkind, { target := t, all := a, cb := cb, running := true }, by simp [upd], rfl⟩
    · obtain ⟨g1, g2, cl, g3, g4⟩ := h.stack c hc
      exact ⟨by simp only; omega, g2, cl, by simp [upd, ne c g1, g3], g4⟩
  · intro d t' b' hd
    simp only [List.mem_append, List.mem_singleton, reduceCtorEq, or_false] at hd ⊢
    by_cases e : d = id
    · subst e; exact ⟨by omega, .inl (by simp [upd])⟩
    · rcases hd with hd | hd
      · obtain ⟨g1, g2⟩ := h.subs d t' b' hd
        refine ⟨by omega, g2.imp (fun g => by simpa [upd, e] using g) fun g => g⟩
      · cases hd; exact absurd rfl e
  · intro c hc
    simp only [upd] at hc ⊢
    split at hc
    · rename_i e; subst e; exact ⟨by omega, hkind⟩
    · rename_i e
      have := h.live c hc
      exact ⟨by omega, this.2⟩
  · intro c cl hc v
    simp only [upd] at hc
    split at hc
    · cases hc; exact hcb v
    · rename_i e
      exact h.cbs c cl hc v
  · intro d c post hm
    simp only at hm ⊢
    rcases back hm with ⟨p, _, hm0⟩ | ⟨rfl, hm0⟩
    · have := h.owner d c p hm0; exact ⟨by omega, this.2⟩
    · have := h.stack c hm0; exact ⟨by omega, this.2.1, by omega⟩
  · intro d c post cd hm hcd
    simp only [upd] at hm hcd
    rcases back hm with ⟨p, rfl, hm0⟩ | ⟨hm0, _⟩
    · have hnc : ¬ Called c p → ¬ Called c (p ++ [.subscribed id t a]) := by
        intro hp hq
        rcases called_append.mp hq with hq | hq
        · exact hp hq
        · exact not_called_one (by simp) hq
      split at hcd
      · rename_i e; exact .inl (.inr e)
      · rename_i e
        rcases h.kept d c p cd hm0 hcd with g1 | g1 | ⟨cc, g1, g2⟩
        · exact .inl (.inl g1)
        · exact .inr (.inl g1)
        · refine .inr (.inr ⟨cc, ?_, ?_⟩)
          · simp [upd, ne c (h.owner d c p hm0).1, g1]
          · rcases g2 with ⟨g2, g3⟩ | ⟨g2, g3, g4⟩
            · exact .inl ⟨g2, g3.imp (fun h => h) hnc⟩
            · exact .inr ⟨g2, g3, hnc g4⟩
    · exact .inl (.inr hm0)

omit [DecidableEq V] in
theorem owned_give {id c st} {B X : GraphId → Prop} {s s' : St V}
    (h : Owned (c :: st) B (fun x => X x ∨ x = id) s)
    (hm : ∀ c' post, Made s.log id c' post → c' = c ∧ ¬ Called c post)
    (hs : s.giveTo (some c) true id = .ok s') : Owned (c :: st) B X s' ∧ Ext (c :: st) s s' := by
  unfold St.giveTo at hs
  simp only at hs
  split at hs <;> cases hs
  rename_i cl hcl
  have hrun : cl.running = true := by
    obtain ⟨_, _, cl', h1, h2⟩ := h.stack c (by simp)
    rw [hcl] at h1; cases h1; exact h2
  refine ⟨⟨h.run, ?_, ?_, ?_, ?_, h.owner, ?_⟩, ⟨Nat.le_refl _, [], by simp, by simp [Called], by simp⟩⟩
  · intro x hx
    obtain ⟨h1, h2, c0, h3, h4⟩ := h.stack x hx
    refine ⟨h1, h2, ?_⟩
    simp only [upd]
    split
    · exact ⟨_, rfl, hrun⟩
    · exact ⟨c0, h3, h4⟩
  · intro d t b hd
    obtain ⟨h1, h2⟩ := h.subs d t b hd
    refine ⟨h1, h2.imp (fun h => ?_) fun h => h⟩
    simp only [upd]; split
    · simp
    · exact h
  · intro x hx
    simp only [upd] at hx
    split at hx
    · rename_i e; subst e; exact h.live x (by rw [hcl]; simp)
    · exact h.live x hx
  · intro x c0 hc v
    simp only [upd] at hc
    split at hc
    · cases hc; exact h.cbs _ cl hcl v
    · exact h.cbs x c0 hc v
  · intro d c' post cd hmd hcd
    have : ∃ cd0, s.clients d = some cd0 ∧ cd.running = cd0.running ∧ cd.dropReq = cd0.dropReq := by
      simp only [upd] at hcd
      split at hcd
      · rename_i e; cases hcd; subst e; exact ⟨cl, hcl, rfl, rfl⟩
      · exact ⟨cd, hcd, rfl, rfl⟩
    obtain ⟨cd0, e1, e2, e3⟩ := this
    rcases h.kept d c' post cd0 hmd e1 with (h1 | h1) | h1 | ⟨cc, h1, h2⟩
    · exact .inl h1
    · subst h1
      obtain ⟨rfl, h2⟩ := hm c' post hmd
      exact .inr (.inr ⟨{ cl with fresh := cl.fresh ++ [d] }, by simp [upd], .inr ⟨by simp, hrun, h2⟩⟩)
    · exact .inr (.inl (by rw [e2, e3]; exact h1))
    · by_cases e : c' = c
      · subst e; rw [hcl] at h1; cases h1
        refine .inr (.inr ⟨{ cl with fresh := cl.fresh ++ [id] }, by simp [upd], ?_⟩)
        exact h2.imp (fun h => h) fun h => ⟨by simp [h.1], h.2⟩
      · exact .inr (.inr ⟨cc, by simp [upd, e, h1], h2⟩)

/-- The position of running code: the main program, or the callback of the innermost
running subscription. -/
def At (top : Bool) (o : Option GraphId) (st : List GraphId) : Prop :=
  match top with
  | true => o = none ∧ st = []
  | false => ∃ c rest, o = some c ∧ st = c :: rest

theorem owned_run {lim} {fin : List GraphId → St V → Except Err (St V)} {Q : St V → Prop}
    (hQ : ∀ a b : St V, MStep lim a b → Q a → Q b)
    (hQf : ∀ (s : St V) tx cs s', s.tx.down = (tx, some cs) → Q s →
      fin cs ({ s with tx := tx }.emit .end_) = .ok s' → Q s')
    (hfin : ∀ st B X (s : St V) tx cs s', s.tx.down = (tx, some cs) → Q s → Owned st B X s →
      fin cs ({ s with tx := tx }.emit .end_) = .ok s' → Owned st B X s' ∧ Ext st s s')
    (a : Act V) : ∀ {top o st} {B X : GraphId → Prop} {s s'}, a.Keeps top → At top o st → Q s →
      Owned st B X s → a.run lim fin o s = .ok s' → Owned st B X s' ∧ Ext st s s' := by
  have hQstar : ∀ a b : St V, Star (MStep lim) a b → Q a → Q b := fun a b h ha => h.inv (fun _ _ q m => hQ _ _ m q) ha
  have hQrun : ∀ (a : Act V) {o s s'}, a.run lim fin o s = .ok s' → Q s → Q s' := by
    intro a o s s' h
    exact run_steps (R := fun a b => Q a → Q b) ⟨fun _ h => h, fun _ _ _ h1 h2 h => h2 (h1 h), hQ⟩
      (fun s tx cs s' h1 h2 hq => hQf s tx cs s' h1 hq h2) a h
  induction a with
  | done => intro top o st B X s s' _ _ _ ho h; simp [Act.run] at h; subst h; exact ⟨ho, .refl _ _⟩
  | newValue v b k ih =>
    intro top o st B X s s' hk hat hq ho h; simp only [Act.run] at h
    have hn : Near s (s.addValue v b) := near_same rfl (Nat.le_succ _) (k := []) (by simp [St.addValue]) (by simp)
    obtain ⟨g1, g2⟩ := ih _ (hk _) hat (hQ _ _ (.newValue _ _ _) hq) (ho.near hn) h
    exact ⟨g1, hn.ext.trans g2⟩
  | newComputed p k ih =>
    intro top o st B X s s' hk hat hq ho h; simp only [Act.run] at h
    have hn : Near s (s.addComputed p) := near_same rfl (Nat.le_succ _) (k := [_]) rfl (by simp [Ev.Plain])
    obtain ⟨g1, g2⟩ := ih _ (hk _) hat (hQ _ _ (.newComputed _ _) hq) (ho.near hn) h
    exact ⟨g1, hn.ext.trans g2⟩
  | subscribe t a own cb k ihcb ih =>
    intro top o st B X s s' hk hat hq ho h; simp only [Act.run] at h
    obtain ⟨hown, hcb, hk⟩ := hk
    split at h
    · cases h
    rename_i s1 h1
    split at h
    · cases h
    rename_i s2 h2
    have ⟨s0, h0⟩ : ∃ s0, (s.addClient t a cb).startRun ⟨.client, s.next⟩ = .ok s0 := by
      simp [St.startRun, St.addClient, St.emit, upd]
    obtain ⟨f1, f2, f3, f4, f5⟩ := owned_new ho hcb h0
    obtain ⟨g1, g2⟩ := owned_runClient (Q := Q)
      (fun v s s' hq ho hr => ihcb v (hcb v) (top := false) ⟨_, _, rfl, rfl⟩ hq ho hr)
      (fun s1 o1 hs1 => hQ _ _ (.subscribe h0 hs1) hq) f1 h0 f2 h1
    have hq1 : Q s1 := by
      obtain ⟨a0, a1, o', k0, k1, a2, a3, k2, k3, k4⟩ :=
        runClient_steps (R := fun a b => Q a → Q b) ⟨fun _ h => h, fun _ _ _ h1 h2 h => h2 (h1 h), hQ⟩
          (fun v s s' hs => hQrun (cb v) hs) h1
      obtain ⟨a4, k5, k6, -⟩ := finishEnd_steps lim _ _ k3 k4
      exact hQstar _ _ k6 (hQ _ _ k5 (k2 (hQ _ _ (.subscribe k0 k1) hq)))
    have hq2 : Q s2 := hQ _ _ (.giveTo h2) hq1
    have e1 : Ext st s s1 := by
      refine Ext.trans ⟨by omega, _, f3, fun x _ => not_called_one (by simp), ?_⟩ g2
      intro d t' b' hd
      simp only [List.mem_singleton, Ev.subscribed.injEq] at hd
      rw [hd.1]; exact Nat.le_refl _
    -- what is known about the new subscription
    have hmade : ∀ c' post, Made s1.log ⟨.client, s.next⟩ c' post →
        (∃ rest, st = c' :: rest) ∧ (c' ∈ st → ¬ Called c' post) := by
      intro c' post hm
      obtain ⟨_, kk, e2, e3, e4⟩ := g2
      rw [e2] at hm
      obtain ⟨p, rfl, hm1⟩ := hm.not_sub (fun t' b' hc => by
        have := e4 _ t' b' hc; rw [f4] at this; simp only at this; omega)
      rw [f3] at hm1
      rcases made_append hm1 with ⟨p', _, hm2⟩ | ⟨t', b', k1, st', h1, h2⟩
      · obtain ⟨_, _, hx⟩ := hm2.mem
        exact absurd (ho.subs _ _ _ hx).1 (Nat.lt_irrefl _)
      · cases k1 with
        | nil =>
          simp only [List.nil_append, List.cons.injEq] at h1
          rw [List.append_nil, ho.run] at h2
          refine ⟨⟨st', h2⟩, fun hc' hcall => ?_⟩
          rcases called_append.mp hcall with hcall | hcall
          · rw [← h1.2] at hcall; obtain ⟨_, _, _, _, hx⟩ := hcall; cases hx
          · exact e3 c' hc' hcall
        | cons _ k => simp at h1
    cases top with
    | true =>
      obtain ⟨rfl, rfl⟩ := hat
      have : s2 = s1 := by
        unfold St.giveTo at h2; simp only at h2; cases h2; rfl
      subst this
      have g1' : Owned [] B X s2 := by
        refine { g1 with kept := fun d c post cd k1 k2 => ?_ }
        rcases g1.kept d c post cd k1 k2 with (k3 | k3) | k3
        · exact .inl k3
        · subst k3
          obtain ⟨rest, hx⟩ := (hmade c post k1).1
          cases hx
        · exact .inr k3
      obtain ⟨r1, r2⟩ := ih _ (hk _) (top := true) ⟨rfl, rfl⟩ hq2 g1' h
      exact ⟨r1, e1.trans r2⟩
    | false =>
      obtain ⟨c, rest, rfl, rfl⟩ := hat
      have : own = true := by simpa using hown
      subst this
      obtain ⟨r1, r2⟩ := owned_give g1 (fun c' post hm => by
        obtain ⟨⟨_, hx⟩, hy⟩ := hmade c' post hm
        cases hx
        exact ⟨rfl, hy (by simp)⟩) h2
      obtain ⟨r3, r4⟩ := ih _ (hk _) (top := false) ⟨_, _, rfl, rfl⟩ hq2 r1 h
      exact ⟨r3, e1.trans (r2.trans r4)⟩
  | dropSub id k ih =>
    intro top o st B X s s' hk hat hq ho h; simp only [Act.run] at h
    split at h
    · cases h
    rename_i s1 h1
    obtain ⟨g1, g2, _⟩ := owned_dropAll lim [id] X s s1 (ho.weaken fun x hx => .inl hx) h1
    obtain ⟨g3, g4⟩ := ih hk hat (hQstar _ _ (dropAll_steps lim _ _ h1) hq) g1 h
    exact ⟨g3, g2.trans g4⟩
  | dropComputed id k ih =>
    intro top o st B X s s' hk hat hq ho h; simp only [Act.run] at h
    split at h
    · cases h
    rename_i s1 h1
    have hq1 := hQ _ _ (.dropComputed h1) hq
    unfold St.dropComputed at h1
    split at h1
    · have hn : Near s s1 := by
        refine Near.trans ?_ (near_setParents h1)
        exact near_same (k := [.dropped id]) rfl (Nat.le_refl _) rfl (by simp [Ev.Plain])
      obtain ⟨g1, g2⟩ := ih hk hat hq1 (ho.near hn) h
      exact ⟨g1, hn.ext.trans g2⟩
    · cases h1
  | txBegin k ih =>
    intro top o st B X s s' hk hat hq ho h; simp only [Act.run] at h
    split at h
    · cases h
    rename_i tx h1
    have hn : Near s ({ s with tx := tx }.emit .begin_) := near_same (k := [_]) rfl (Nat.le_refl _) rfl (by simp [Ev.Plain])
    obtain ⟨g1, g2⟩ := ih hk hat (hQ _ _ (.begin_ h1) hq) (ho.near hn) h
    exact ⟨g1, hn.ext.trans g2⟩
  | txEnd k ih =>
    intro top o st B X s s' hk hat hq ho h; simp only [Act.run] at h
    split at h
    · rename_i tx h1
      have hn : Near s ({ s with tx := tx }.emit .end_) := near_same (k := [_]) rfl (Nat.le_refl _) rfl (by simp [Ev.Plain])
      obtain ⟨g1, g2⟩ := ih hk hat (hQ _ _ (.end_ h1) hq) (ho.near hn) h
      exact ⟨g1, hn.ext.trans g2⟩
    · rename_i tx cs h1
      split at h
      · cases h
      rename_i s1 h2
      obtain ⟨g1, g2⟩ := hfin st B X s tx cs s1 h1 hq ho h2
      obtain ⟨g3, g4⟩ := ih hk hat (hQf s tx cs s1 h1 hq h2) g1 h
      exact ⟨g3, g2.trans g4⟩
  | write id v b k ih =>
    intro top o st B X s s' hk hat hq ho h; simp only [Act.run] at h
    split at h
    · cases h
    rename_i s1 h1
    have hn : Near s s1 := by
      obtain ⟨old, l, cs, hv, ht, ⟨_, _, rfl⟩ | ⟨_, W⟩⟩ := write_cases h1
      · exact .refl _
      · obtain ⟨_, _, _, _, _, _, _, _, hl⟩ := W.ex
        exact near_same W.clients (Nat.le_of_eq W.next.symm) hl (by simp [Ev.Plain])
    obtain ⟨g1, g2⟩ := ih hk hat (hQ _ _ (.write h1) hq) (ho.near hn) h
    exact ⟨g1, hn.ext.trans g2⟩
  | get id k ih =>
    intro top o st B X s s' hk hat hq ho h; simp only [Act.run] at h
    split at h
    · cases h
    rename_i s1 v h1
    have hn : Near s (s1.emit (.read id v (!s1.taint id) s1.vals s1.defs)) :=
      (near_getNode _ _ _ _ _ _ h1).trans (near_same (k := [_]) rfl (Nat.le_refl _) rfl (by simp [Ev.Plain]))
    obtain ⟨g1, g2⟩ := ih v (hk v) hat (hQ _ _ (.get h1) hq) (ho.near hn) h
    exact ⟨g1, hn.ext.trans g2⟩

theorem owned_refresh {lim} : ∀ cs {st} {B X : GraphId → Prop} {s s' : St V}, Calm s → Owned st B X s →
    refreshAll lim cs s = .ok s' → Owned st B X s' ∧ Ext st s s' ∧ Calm s' := by
  intro cs
  induction cs with
  | nil =>
    intro st B X s s' hq ho h
    simp [refreshAll] at h; subst h; exact ⟨ho, .refl _ _, hq⟩
  | cons c cs ih =>
    intro st B X s s' hq ho h
    have skip : Near s ({ s with todo := cs }.emit (.skipped c)) :=
      near_same (k := [_]) rfl (Nat.le_refl _) rfl (by simp [Ev.Plain])
    simp only [refreshAll] at h
    split at h
    · obtain ⟨g1, g2, g3⟩ := ih (by exact hq) (ho.near skip) h
      exact ⟨g1, skip.ext.trans g2, g3⟩
    · rename_i cl hc
      split at h
      · rename_i hr
        split at h
        · cases h
        rename_i s1 h1
        have hn : Near s { s with todo := cs } := near_same (k := []) rfl (Nat.le_refl _) (by simp) (by simp)
        obtain ⟨a0, a1, o, k0, k1, a2, a3, k2, k3, k4⟩ :=
          runClient_steps (contains_micro lim) (fun v s s' hs => runRefreshing_steps hs) h1
        obtain ⟨a4, k5, k6, k7⟩ := finishEnd_steps lim _ _ k3 k4
        have c0 : CalmBut (· = c) a1 :=
          (calm_startRun (P := (· = c)) k0 (fun x d _ => hq x d) (Or.inl rfl)).flags (flags_observe k1)
        have c2 : CalmBut (· = c) a2 := k2.inv (fun _ _ hc h => calm_mstep h hc) c0
        have c4 : Calm a4 := by
          have := calm_finishRun k3 c2
          have h3 : Calm a3 := fun x d hx => this x d (fun h => h.2 h.1) hx
          rcases k7 with rfl | k7
          · exact h3
          · exact calmBut_none.mp (calm_dropOne k7 (calmBut_none.mpr h3))
        have c5 : Calm s1 :=
          calmBut_none.mp (k6.inv (fun _ _ hc h => calm_mstep h hc) (calmBut_none.mpr c4))
        obtain ⟨f1, f2, f3⟩ := owned_start (ho.near hn) hc (hq c cl hc hr) k0
        obtain ⟨g1, g2⟩ := owned_runClient (Q := fun _ => True)
          (fun v s s' _ ho' hr => owned_run (Q := fun _ => True) (fun _ _ _ _ => trivial) (fun _ _ _ _ _ _ _ => trivial)
            (fun _ _ _ _ _ _ _ _ _ _ hx => by cases hx) (cl.cb v) (ho.cbs c cl hc v) (top := false) ⟨_, _, rfl, rfl⟩ trivial ho' hr)
          (fun _ _ _ => trivial) f1 k0 f2 h1
        obtain ⟨r1, r2, r3⟩ := ih c5 g1 h
        exact ⟨r1, hn.ext.trans (f3.trans (g2.trans r2)), r3⟩
      · obtain ⟨g1, g2, g3⟩ := ih (by exact hq) (ho.near skip) h
        exact ⟨g1, skip.ext.trans g2, g3⟩

theorem owned_exec {lim} {a : Act V} {s : St V} (ha : a.Keeps true) (h : a.exec lim = .ok s) :
    Owned [] (fun _ => False) (fun _ => False) s := by
  have h0 : Owned [] (fun _ => False) (fun _ => False) ({} : St V) := by
    refine ⟨rfl, by simp, by simp, fun c hc => absurd rfl hc, (fun c cl hc => by cases hc), ?_, ?_⟩
    · rintro d c post ⟨pre, t, b, st, h1, _⟩; simp at h1
    · rintro d c post cd ⟨pre, t, b, st, h1, _⟩; simp at h1
  refine (owned_run (Q := Calm) (fun _ _ m hc => calmBut_none.mp (calm_mstep m (calmBut_none.mpr hc)))
    (fun s tx cs s' h1 hq h2 => (finishTx_steps s tx cs s' h1 hq h2).2) ?_ a ha (top := true) ⟨rfl, rfl⟩ (by intro c cl hc; cases hc) h0 h).1
  intro st B X s tx cs s' h1 hq ho h2
  unfold finishTx at h2
  split at h2
  · cases h2
  rename_i s1 h3
  cases h2
  have n1 : Near s ({ ({ s with tx := tx }.emit .end_) with todo := cs }.emit (.finish cs)) :=
    near_same (k := [.end_, .finish cs]) rfl (Nat.le_refl _) (by simp [St.emit]) (by simp [Ev.Plain])
  obtain ⟨g1, g2, _⟩ := owned_refresh cs (by exact hq) (ho.near n1) h3
  have n2 : Near s1 ({ s1 with tx := s1.tx.moveToIdle }.emit .idle) :=
    near_same (k := [_]) rfl (Nat.le_refl _) rfl (by simp [Ev.Plain])
  exact ⟨g1.near n2, n1.ext.trans (g2.trans n2.ext)⟩

/-! ## Theorems -/

/-- **C08 (resources of callbacks).** In a program whose callbacks return the resources of
the subscriptions they make: a subscription `d` that was made by the callback of `c` and has
not been dropped is one of the latest call of that callback, and `c` has not been dropped
either.  In other words, what a callback has subscribed is dropped when the callback is
called again, and when its own subscription is dropped. -/
theorem C08_kept_until_next_call {lim} {a : Act V} {s : St V} (ha : a.Keeps true) (h : a.exec lim = .ok s)
    {pre d t b post c st} (hl : s.log = pre ++ .subscribed d t b :: post) (hr : running pre = c :: st)
    (hd : .dropped d ∉ s.log) : .dropped c ∉ s.log ∧ ¬ Called c post := by
  have ho := owned_exec ha h
  have hm : Made s.log d c post := ⟨pre, t, b, st, hl, hr⟩
  have hlive : s.clients d ≠ none := ((ho.subs d t b (by rw [hl]; simp)).2).resolve_right hd
  obtain ⟨cd, hcd⟩ := Option.ne_none_iff_exists'.mp hlive
  rcases ho.kept d c post cd hm hcd with h1 | ⟨h1, _⟩ | ⟨cc, h1, h2⟩
  · exact h1.elim
  · rw [exec_not_running h hcd] at h1; cases h1
  · constructor
    · intro hdc
      rw [(all_star (exec_steps h)).lv.gone c (ho.owner d c post hm).2.1 hdc] at h1
      cases h1
    · rcases h2 with ⟨_, h2⟩ | ⟨_, h2, _⟩
      · exact h2.resolve_left (fun h => h)
      · rw [exec_not_running h h1] at h2; cases h2

/-- **C08 (nothing is left).** In such a program, once the subscriptions made by the main
program itself have been dropped, every subscription has been dropped, however deeply
callbacks have subscribed in callbacks. -/
theorem C08_nothing_left {lim} {a : Act V} {s : St V} (ha : a.Keeps true) (h : a.exec lim = .ok s)
    (htop : ∀ pre d t b post, s.log = pre ++ .subscribed d t b :: post → running pre = [] → .dropped d ∈ s.log)
    {d t b} (hd : .subscribed d t b ∈ s.log) : .dropped d ∈ s.log := by
  have ho := owned_exec ha h
  have key : ∀ n (d : GraphId) t b, d.num = n → .subscribed d t b ∈ s.log → .dropped d ∈ s.log := by
    intro n
    induction n using Nat.strongRecOn with
    | ind n ih =>
      intro d t b hn hd
      obtain ⟨pre, post, hl⟩ := List.append_of_mem hd
      cases hr : running pre with
      | nil => exact htop pre d t b post hl hr
      | cons c st =>
        have hm : Made s.log d c post := ⟨pre, t, b, st, hl, hr⟩
        refine Classical.byContradiction fun hnd => ?_
        have hlive : s.clients d ≠ none := ((ho.subs d t b hd).2).resolve_right hnd
        obtain ⟨cd, hcd⟩ := Option.ne_none_iff_exists'.mp hlive
        obtain ⟨hc1, hc2, hc3⟩ := ho.owner d c post hm
        rcases ho.kept d c post cd hm hcd with h1 | ⟨h1, _⟩ | ⟨cc, h1, h2⟩
        · exact h1
        · rw [exec_not_running h hcd] at h1; cases h1
        · have hlv := (all_star (exec_steps h)).lv
          have := ih c.num (by omega) c _ _ rfl (hlv.subs c cc h1)
          rw [hlv.gone c hc2 this] at h1; cases h1
  exact key _ d t b rfl hd

/-- Events about the life of subscriptions. -/
def lifeEv : Ev V → Option (String × Nat)
  | .subscribed c _ _ => some ("subscribed", c.num)
  | .ran c => some ("ran", c.num)
  | .refreshed c => some ("refreshed", c.num)
  | .dropped c => some ("dropped", c.num)
  | _ => none

/-- `ownProgram` meets the hypotheses of `C08_nothing_left`: the subscription 3 is the only
one made by the main program. -/
example : ownProgram.Keeps true ∧ ∃ s, ownProgram.exec 20 = .ok s ∧
    s.log.filterMap lifeEv =
      [("subscribed", 3), ("subscribed", 4), ("ran", 4), ("ran", 3),
       ("refreshed", 3), ("subscribed", 5), ("ran", 5), ("dropped", 4), ("ran", 3),
       ("dropped", 3), ("dropped", 5)] :=
  ⟨by simp [ownProgram, Act.Keeps, Act.set], _, final_of_isOk (by decide +kernel), by decide +kernel⟩

/-- Callbacks in callbacks, with two changes: what remains was made by the last calls. -/
def ownTwice : Act (Fin 16) :=
  .newValue 1 false fun x => .newComputed (.read x .ret) fun cx =>
  .subscribe cx false false (fun _ => .subscribe cx false true
    (fun _ => .subscribe cx true true (fun _ => .done) fun _ => .done) fun _ => .done) fun _ =>
  Act.set x 2 <| Act.set x 3 .done

example : ownTwice.Keeps true ∧ ∃ s, ownTwice.exec 30 = .ok s ∧
    s.log.filterMap ownEv =
      [("call", 3), ("call", 4), ("call", 5), ("call", 3), ("call", 6), ("call", 7), ("dropped", 4), ("dropped", 5),
       ("call", 3), ("call", 8), ("call", 9), ("dropped", 6), ("dropped", 7)] :=
  ⟨by simp [ownTwice, Act.Keeps, Act.set], _, final_of_isOk (by decide +kernel), by decide +kernel⟩

end Verif.Reactive

import Verif.Reactive.ClientInv
/-! # Invariants of the log -/
namespace Verif.Reactive

variable {V : Type}

/-! ## Correct logs -/

/-- The event may happen after `pre`. -/
def EvOK (pre : List (Ev V)) : Ev V → Prop
  | .read id v clean vals defs => clean = true → Scratch vals defs id v
  | .deliver c v clean vals defs =>
      (∃ t a, .subscribed c t a ∈ pre ∧ (clean = true → Scratch vals defs t v) ∧
        (a = false → lastDelivered c pre ≠ some v)) ∧
      .dropped c ∉ pre ∧ .released c ∉ pre ∧ Started c pre
  | .subscribed c _ _ => c.kind = .client ∧ (∀ t a, .subscribed c t a ∉ pre) ∧
      .dropped c ∉ pre ∧ .released c ∉ pre ∧ lastDelivered c pre = none
  | .refreshed c => .dropped c ∉ pre ∧ .released c ∉ pre ∧ ∃ t a, .subscribed c t a ∈ pre
  | .skipped c => .dropped c ∈ pre
  | .connect x => opened x pre = false
  | .disconnect x => opened x pre = true
  | _ => True

def LogOK (log : List (Ev V)) : Prop := ∀ pre e post, log = pre ++ e :: post → EvOK pre e

theorem LogOK.nil : LogOK ([] : List (Ev V)) := by
  intro pre e post h; simp at h

theorem LogOK.snoc {log : List (Ev V)} {e} (h : LogOK log) (he : EvOK log e) : LogOK (log ++ [e]) := by
  intro pre e' post heq
  rcases List.eq_nil_or_concat post with rfl | ⟨post', z, rfl⟩
  · have : log = pre ∧ e = e' := by
      have := List.append_inj' heq rfl
      exact ⟨this.1, by simpa using this.2⟩
    obtain ⟨rfl, rfl⟩ := this; exact he
  · have h2 : log ++ [e] = (pre ++ e' :: post') ++ [z] := by rw [heq]; simp
    have := (List.append_inj' h2 rfl).1
    exact h pre e' post' this

theorem lastDelivered_snoc (c : GraphId) (log : List (Ev V)) (e) :
    lastDelivered c (log ++ [e]) = match e with
      | .deliver c' v _ _ _ => if c' = c then some v else lastDelivered c log
      | _ => lastDelivered c log := by
  unfold lastDelivered; rw [List.foldl_append]; rfl

theorem opened_snoc (x : GraphId) (log : List (Ev V)) (e) :
    opened x (log ++ [e]) = match e with
      | .connect y => if y = x then true else opened x log
      | .disconnect y => if y = x then false else opened x log
      | _ => opened x log := by
  unfold opened; rw [List.foldl_append]; rfl

/-! ## External connections -/

/-- Every external source is connected exactly while it has consumers, and the log tells
so. -/
structure XI (s : St V) : Prop where
  conn : ∀ x, s.connected x = opened x s.log
  obs : ∀ x, s.connected x = true ↔ s.connectable x = true ∧ ∃ c, s.conn.E x c
  ok : LogOK s.log

theorem setConnection_xi (s : St V) (id b) (h : (∀ x, s.connected x = opened x s.log) ∧ LogOK s.log) :
    (∀ x, (s.setConnection id b).connected x = opened x (s.setConnection id b).log) ∧
      LogOK (s.setConnection id b).log := by
  unfold St.setConnection
  split
  · split
    · exact h
    · split
      · rename_i hc _
        refine ⟨fun x => ?_, h.2.snoc (by simp only [EvOK]; rw [← h.1]; simpa using hc)⟩
        simp only [St.emit, opened_snoc, upd]
        by_cases hx : x = id
        · subst hx; simp
        · rw [if_neg hx, if_neg (Ne.symm hx)]; exact h.1 x
      · exact h
  · split
    · rename_i hc
      refine ⟨fun x => ?_, h.2.snoc (by simp only [EvOK]; rw [← h.1]; simpa using hc)⟩
      simp only [St.emit, opened_snoc, upd]
      by_cases hx : x = id
      · subst hx; simp
      · rw [if_neg hx, if_neg (Ne.symm hx)]; exact h.1 x
    · exact h

theorem applyInfo_xi (s : St V) (l) (h : (∀ x, s.connected x = opened x s.log) ∧ LogOK s.log) :
    (∀ x, (s.applyInfo l).connected x = opened x (s.applyInfo l).log) ∧
      LogOK (s.applyInfo l).log := by
  induction l generalizing s with
  | nil => exact h
  | cons e l ih =>
    obtain ⟨id, b⟩ := e
    rw [applyInfo_cons]
    apply ih
    unfold St.applyOne
    split
    · exact setConnection_xi s id b h
    · split
      · exact h
      · obtain ⟨_, _, h3, h4⟩ := clearCache_rest s id
        rw [h3, h4]; exact h

theorem XI.push {s s' : St V} {X N nodes} (h : XI s) (hs : s.setParents X N = .ok s')
    (hp : Push s X N s' nodes) (hk : ∀ x, s.connectable x = true → x.kind = .value) : XI s' := by
  have h1 : (∀ x, s'.connected x = opened x s'.log) ∧ LogOK s'.log := by
    unfold St.setParents at hs
    split at hs <;> cases hs
    exact applyInfo_xi _ _ ⟨h.conn, h.ok⟩
  refine ⟨h1.1, fun x => ?_, h1.2⟩
  rw [hp.connected, hp.same.connectable]
  have hne : (∃ c, s'.conn.E x c) ↔ s'.conn.pc.get x ≠ [] := by
    constructor
    · rintro ⟨c, hc⟩ hn; unfold Conn.E at hc; rw [hn] at hc; cases hc
    · intro hn
      cases hh : s'.conn.pc.get x with
      | nil => exact absurd hh hn
      | cons a l => exact ⟨a, by unfold Conn.E; rw [hh]; exact List.mem_cons_self⟩
  split
  · rename_i hx
    rw [hne]
    have := h.obs x
    cases hc : s.connectable x with
    | false =>
      have h2 : s.connected x = false := by
        cases hd : s.connected x with
        | false => rfl
        | true => have := this.mp hd; rw [hc] at this; cases this.1
      simp [h2]
    | true => simp
  · rename_i hx
    rw [h.obs x]
    refine and_congr_right fun hc => ?_
    have hxn : x ∉ nodes := fun hn => hx ⟨hk x hc, hn⟩
    have hsame : ∀ c, s'.conn.E x c ↔ s.conn.E x c := by
      intro c
      constructor
      · intro he
        rcases hp.spec.sub x c he with g | ⟨rfl, g⟩
        · exact g
        · by_cases g' : s.conn.E x c
          · exact g'
          · exact absurd ((hp.spec.mem x).mpr (Or.inr (Or.inl ⟨g, g'⟩))) hxn
      · intro he
        by_cases h' : s'.conn.E x c
        · exact h'
        · exact absurd ((hp.spec.mem x).mpr (Or.inr (Or.inr ⟨c, Or.inl he, h'⟩))) hxn
    exact ⟨fun ⟨c, h⟩ => ⟨c, (hsame c).mpr h⟩, fun ⟨c, h⟩ => ⟨c, (hsame c).mp h⟩⟩

theorem Good.con_value {s : St V} (hg : Good s) : ∀ x, s.connectable x = true → x.kind = .value :=
  fun x hx => (hg.base.vkind x (hg.base.con x hx)).1

theorem getNode_xi {n K} {s s' : St V} {id v} (hg : Good s) (hK : StackOK s K) (h : XI s)
    (hs : getNode n K s id = .ok (s', v)) : XI s' := by
  refine getNode_rel (R := fun a b => XI a → XI b) (fun _ h => h) (fun _ _ _ h1 h2 h => h2 (h1 h))
    ?_ ?_ n K s id s' v hg hK hs h
  · intro s X N s' nodes hg _ _ _ _ hs hp h
    exact h.push hs hp hg.con_value
  · intro s K id ctx v _ _ _ h
    exact ⟨h.conn, h.obs, h.ok⟩

/-- Appending an event that is not about connections. -/
theorem XI.emit {s s' : St V} {e} (h : XI s) (h1 : s'.connected = s.connected)
    (h2 : s'.connectable = s.connectable) (h3 : s'.conn = s.conn) (h4 : s'.log = s.log ++ [e])
    (hc : e.isConn = false) (hok : EvOK s.log e) : XI s' := by
  refine ⟨fun x => ?_, fun x => by rw [h1, h2, h3]; exact h.obs x, by rw [h4]; exact h.ok.snoc hok⟩
  rw [h1, h4, opened_snoc, h.conn]
  cases e <;> first | rfl | cases hc

theorem XI.congr {s s' : St V} (h : XI s) (h1 : s'.connected = s.connected)
    (h2 : s'.connectable = s.connectable) (h3 : s'.conn = s.conn) (h4 : s'.log = s.log) : XI s' :=
  ⟨fun x => by rw [h1, h4]; exact h.conn x, fun x => by rw [h1, h2, h3]; exact h.obs x,
    by rw [h4]; exact h.ok⟩

/-! ## Subscriptions in the log -/

/-- The subscription an event is about. -/
def Ev.about : Ev V → GraphId → Prop
  | .deliver c _ _ _ _, x => c = x
  | .subscribed c _ _, x => c = x
  | .dropped c, x => c = x
  | .released c, x => c = x
  | _, _ => False

structure LV (s : St V) : Prop where
  subs : ∀ c cl, s.clients c = some cl → .subscribed c cl.target cl.all ∈ s.log
  last : ∀ c cl, s.clients c = some cl → lastDelivered c s.log = cl.prev
  gone : ∀ c, c.kind = .client → .dropped c ∈ s.log → s.clients c = none
  rel : ∀ c cl, .released c ∈ s.log → s.clients c = some cl → cl.dropReq = true
  nums : ∀ e ∈ s.log, ∀ c, c.kind = .client → e.about c → c.num < s.next
  lost : ∀ c ∈ s.pending, s.clients c = none → .dropped c ∈ s.log

/-- The data of subscriptions the log depends on. -/
def DataEq (cl' cl : Client V) : Prop :=
  cl'.target = cl.target ∧ cl'.all = cl.all ∧ cl'.prev = cl.prev ∧
    (cl.dropReq = true → cl'.dropReq = true)

theorem lastDelivered_about {c : GraphId} {log k : List (Ev V)} (h : ∀ e ∈ k, ¬ e.about c) :
    lastDelivered c (log ++ k) = lastDelivered c log := by
  induction k generalizing log with
  | nil => simp
  | cons e k ih =>
    have : log ++ e :: k = (log ++ [e]) ++ k := by simp
    rw [this, ih (fun e he => h e (List.mem_cons_of_mem _ he)), lastDelivered_snoc]
    have h0 := h e List.mem_cons_self
    cases e with
    | deliver c' v b x y =>
      have : ¬ c' = c := h0
      simp [this]
    | _ => rfl

/-- Appending events that are not about subscriptions. -/
theorem LV.ext {s s' : St V} {k} (h : LV s) (hl : s'.log = s.log ++ k)
    (hk : ∀ e ∈ k, ∀ c, ¬ e.about c) (hn : s.next ≤ s'.next)
    (hp : ∀ c ∈ s'.pending, c ∈ s.pending ∨ s'.clients c ≠ none)
    (hnone : ∀ c, s'.clients c = none ↔ s.clients c = none)
    (hd : ∀ c cl', s'.clients c = some cl' → ∃ cl, s.clients c = some cl ∧ DataEq cl' cl) :
    LV s' := by
  have hmem : ∀ e : Ev V, (∃ c, e.about c) → (e ∈ s'.log ↔ e ∈ s.log) := by
    rintro e ⟨c, hc⟩
    rw [hl, List.mem_append]
    constructor
    · rintro (h | h)
      · exact h
      · exact absurd hc (hk e h c)
    · exact Or.inl
  refine ⟨?_, ?_, ?_, ?_, ?_, ?_⟩
  · intro c cl' hc
    obtain ⟨cl, h1, h2, h3, h4, h5⟩ := hd c cl' hc
    rw [hmem (.subscribed c _ _) ⟨c, rfl⟩, h2, h3]; exact h.subs c cl h1
  · intro c cl' hc
    obtain ⟨cl, h1, h2, h3, h4, h5⟩ := hd c cl' hc
    rw [hl, lastDelivered_about (fun e he => hk e he c), h4]; exact h.last c cl h1
  · intro c hck hm
    rw [hmem (.dropped c) ⟨c, rfl⟩] at hm
    exact (hnone c).mpr (h.gone c hck hm)
  · intro c cl' hm hc
    rw [hmem (.released c) ⟨c, rfl⟩] at hm
    obtain ⟨cl, h1, h2, h3, h4, h5⟩ := hd c cl' hc
    exact h5 (h.rel c cl hm h1)
  · intro e he c hk hc
    rw [hmem e ⟨c, hc⟩] at he
    exact Nat.lt_of_lt_of_le (h.nums e he c hk hc) hn
  · intro c hc hcl
    rw [hmem (.dropped c) ⟨c, rfl⟩]
    rcases hp c hc with h1 | h1
    · exact h.lost c h1 ((hnone c).mp hcl)
    · exact absurd hcl h1

theorem isConn_about {e : Ev V} (h : e.isConn = true) (c) : ¬ e.about c := by
  cases e <;> simp [Ev.isConn] at h <;> simp [Ev.about]

theorem LV.evalRel {s s' : St V} (h : LV s) (hr : EvalRel s s') : LV s' := by
  obtain ⟨k, h1, h2⟩ := hr.log
  refine h.ext h1 (fun e he c => isConn_about (h2 e he) c) (Nat.le_of_eq hr.same.next.symm) ?_ ?_ ?_
  · intro c hc; rw [pending_same hr.same] at hc; exact Or.inl hc
  · intro c; rw [hr.clients]
  · intro c cl hc; rw [hr.clients] at hc; exact ⟨cl, hc, rfl, rfl, rfl, id⟩

theorem LV.push {s s' : St V} {X N nodes} (h : LV s) (hs : s.setParents X N = .ok s')
    (hp : Push s X N s' nodes) : LV s' := by
  obtain ⟨k, h1, h2⟩ := setParents_log hs
  refine h.ext h1 (fun e he c => isConn_about (h2 e he) c) (Nat.le_of_eq hp.same.next.symm) ?_
    hp.clients_none ?_
  · intro c hc; rw [pending_same hp.same] at hc; exact Or.inl hc
  · intro c cl' hc
    rw [hp.clients] at hc
    split at hc
    · cases hcl : s.clients c with
      | none => rw [hcl] at hc; cases hc
      | some cl => rw [hcl] at hc; cases hc; exact ⟨cl, rfl, rfl, rfl, rfl, id⟩
    · exact ⟨cl', hc, rfl, rfl, rfl, id⟩

/-- Changing other data of one subscription. -/
theorem LV.upd1 {s s' : St V} {id cl cl'} {k} (h : LV s) (hc : s.clients id = some cl)
    (hd : DataEq cl' cl)
    (hcl : s'.clients = upd s.clients id (some cl')) (hl : s'.log = s.log ++ k)
    (hk : ∀ e ∈ k, ∀ c, ¬ e.about c) (hn : s.next ≤ s'.next)
    (hp : ∀ c ∈ s'.pending, c ∈ s.pending) : LV s' := by
  refine h.ext hl hk hn (fun c hc => Or.inl (hp c hc)) ?_ ?_
  · intro c; rw [hcl]; exact upd_none_iff hc c
  · intro c d hcd
    rw [hcl] at hcd
    simp only [upd] at hcd
    split at hcd
    · cases hcd; rename_i e; subst e; exact ⟨cl, hc, hd⟩
    · exact ⟨d, hcd, rfl, rfl, rfl, fun h => h⟩

theorem LV.congr {s s' : St V} {k} (h : LV s) (hcl : s'.clients = s.clients)
    (hl : s'.log = s.log ++ k)
    (hk : ∀ e ∈ k, ∀ c, ¬ e.about c) (hn : s.next ≤ s'.next)
    (hp : ∀ c ∈ s'.pending, c ∈ s.pending ∨ s'.clients c ≠ none) : LV s' :=
  h.ext hl hk hn hp (fun c => by rw [hcl]) (fun c cl hc => by rw [hcl] at hc; exact ⟨cl, hc, rfl, rfl, rfl, id⟩)

/-! ## The transaction monitor -/

def Ev.txNeutral : Ev V → Bool
  | .begin_ | .end_ | .wrote _ _ | .finish _ | .refreshed _ | .skipped _ | .idle => false
  | _ => true

def MonRel (m : Mon) (s : St V) : Prop :=
  match s.tx with
  | .idle => m.phase = .normal ∧ m.level = 0
  | .modification l cs => m.phase = .normal ∧ m.level = l ∧ 0 < l ∧ (∀ c, c ∈ cs ↔ c ∈ m.affected) ∧
      Asc cs ∧ ∀ c ∈ cs, c.kind = .client
  | .refreshing => m.phase = .refreshing s.todo ∧ m.level = 0

/-- The monitor accepts the log. -/
def MI (s : St V) : Prop := ∃ m, Mon.Runs s.log m ∧ MonRel m s

theorem MonRel.phase {m : Mon} {s : St V} (h : MonRel m s) : m.phase ≠ .closing := by
  unfold MonRel at h
  split at h
  · rw [h.1]; simp
  · rw [h.1]; simp
  · rw [h.1]; simp

theorem Mon.step_neutral {m : Mon} (h : m.phase ≠ .closing) {e : Ev V} (he : e.txNeutral = true) :
    m.Step e m := by
  unfold Mon.Step
  split <;> first | rfl | cases he | (exact absurd ‹_› h)

theorem Mon.Runs.neutral {log k : List (Ev V)} {m} (h : Mon.Runs log m) (hp : m.phase ≠ .closing)
    (hk : ∀ e ∈ k, e.txNeutral = true) : Mon.Runs (log ++ k) m := by
  induction k generalizing log with
  | nil => simpa using h
  | cons e k ih =>
    have : log ++ e :: k = (log ++ [e]) ++ k := by simp
    rw [this]
    exact ih (h.snoc (Mon.step_neutral hp (hk e List.mem_cons_self)))
      (fun e he => hk e (List.mem_cons_of_mem _ he))

theorem MI.ext {s s' : St V} {k} (h : MI s) (hl : s'.log = s.log ++ k)
    (hk : ∀ e ∈ k, e.txNeutral = true) (ht : s'.tx = s.tx) (htd : s'.todo = s.todo) : MI s' := by
  obtain ⟨m, h1, h2⟩ := h
  refine ⟨m, by rw [hl]; exact h1.neutral h2.phase hk, ?_⟩
  unfold MonRel at *; rw [ht, htd]; exact h2

theorem isConn_neutral {e : Ev V} (h : e.isConn = true) : e.txNeutral = true := by
  cases e <;> simp [Ev.isConn] at h <;> rfl

theorem MI.evalRel {s s' : St V} (h : MI s) (hr : EvalRel s s') : MI s' := by
  obtain ⟨k, h1, h2⟩ := hr.log
  exact h.ext h1 (fun e he => isConn_neutral (h2 e he)) hr.same.tx hr.same.todo

theorem MI.push {s s' : St V} {X N} (h : MI s) (hs : s.setParents X N = .ok s') : MI s' := by
  obtain ⟨k, h1, h2⟩ := setParents_log hs
  have := same_setParents hs
  exact h.ext h1 (fun e he => isConn_neutral (h2 e he)) this.tx this.todo

/-! ## All together -/

structure All (s : St V) : Prop where
  good : Good s
  ci : CI (fun _ => False) s
  xi : XI s
  lv : LV s
  mi : MI s

end Verif.Reactive

import Verif.Reactive.MachineProps
/-!
# C05: subscribers run after the outermost transaction, once each, in order of creation

The protocol is given by the monitor `Mon` of `LogSpec.lean`; here it is shown that every
log follows it, and what this means is spelled out without the monitor.
-/
namespace Verif.Reactive

variable {V : Type}

/-! ## Specification -/

/-- The subscribers handled in a refresh phase, in this order. -/
def handled (log : List (Ev V)) : List GraphId :=
  log.filterMap fun e => match e with
    | .refreshed c => some c
    | .skipped c => some c
    | _ => none

/-- Every transaction begun so far is over. -/
def Quiescent (log : List (Ev V)) : Prop :=
  ∀ p q, log = p ++ .begin_ :: q → .idle ∈ q

/-- Events that occur only in a transaction, or at its end. -/
def Ev.inTx : Ev V → Bool
  | .begin_ => true
  | .wrote _ _ => true
  | .finish _ => true
  | .idle => true
  | _ => false

/-! ## Reading the monitor -/

theorem Mon.Runs.inv {log : List (Ev V)} {m} {e} (h : Mon.Runs (log ++ [e]) m) :
    ∃ m0, Mon.Runs log m0 ∧ m0.Step e m := by
  generalize hl : log ++ [e] = l at h
  cases h with
  | nil => simp at hl
  | snoc h1 h2 =>
    obtain ⟨rfl, he⟩ := List.append_inj' hl rfl
    simp only [List.cons.injEq, and_true] at he
    subst he; exact ⟨_, h1, h2⟩

theorem Mon.Runs.split {log post : List (Ev V)} {m} (h : Mon.Runs (log ++ post) m) :
    ∃ m0, Mon.Runs log m0 := by
  generalize hl : log ++ post = l at h
  induction h generalizing post with
  | nil => simp at hl; rw [hl.1]; exact ⟨_, .nil⟩
  | @snoc l m e m' h1 h2 ih =>
    rcases List.eq_nil_or_concat post with rfl | ⟨post', z, rfl⟩
    · exact ⟨m', by simp at hl; rw [hl]; exact .snoc h1 h2⟩
    · rw [List.concat_eq_append, ← List.append_assoc] at hl
      exact ih (List.append_inj' hl rfl).1

theorem Mon.Runs.at {pre post : List (Ev V)} {e m} (h : Mon.Runs (pre ++ e :: post) m) :
    ∃ m0 m1, Mon.Runs pre m0 ∧ m0.Step e m1 := by
  rw [show pre ++ e :: post = (pre ++ [e]) ++ post by simp] at h
  obtain ⟨m1, h1⟩ := h.split
  obtain ⟨m0, h2, h3⟩ := h1.inv
  exact ⟨m0, m1, h2, h3⟩

/-- The log of a transaction that is open, or has just been closed. -/
structure OpenTx (log : List (Ev V)) (affected : List GraphId) : Prop where
  ex : ∃ p body, log = p ++ .begin_ :: body ∧ Quiescent p ∧ (∀ cs, .finish cs ∉ body) ∧ .idle ∉ body ∧
    ∀ c, c ∈ affected ↔ ∃ id l, .wrote id l ∈ body ∧ c ∈ l

theorem OpenTx.ext {log : List (Ev V)} {aff aff' e} (h : OpenTx log aff) (h1 : ∀ cs, e ≠ .finish cs) (h2 : e ≠ .idle)
    (h3 : ∀ c, c ∈ aff' ↔ c ∈ aff ∨ ∃ id l, e = .wrote id l ∧ c ∈ l) : OpenTx (log ++ [e]) aff' := by
  obtain ⟨p, body, rfl, g1, g2, g3, g4⟩ := h.ex
  refine ⟨p, body ++ [e], by simp, g1, ?_, ?_, ?_⟩
  · intro cs hm
    rcases List.mem_append.mp hm with h | h
    · exact g2 cs h
    · simp only [List.mem_singleton] at h; exact h1 cs h.symm
  · intro hm
    rcases List.mem_append.mp hm with h | h
    · exact g3 h
    · simp only [List.mem_singleton] at h; exact h2 h.symm
  · intro c
    rw [h3, g4]
    constructor
    · rintro (⟨id, l, h, h'⟩ | ⟨id, l, rfl, h'⟩)
      · exact ⟨id, l, List.mem_append_left _ h, h'⟩
      · exact ⟨id, l, by simp, h'⟩
    · rintro ⟨id, l, h, h'⟩
      rcases List.mem_append.mp h with h | h
      · exact .inl ⟨id, l, h, h'⟩
      · simp only [List.mem_singleton] at h; exact .inr ⟨id, l, h.symm, h'⟩

/-- What the state of the monitor says about the log. -/
def MonSays (log : List (Ev V)) (m : Mon) : Prop :=
  match m.phase with
  | .normal => (m.level = 0 → Quiescent log) ∧ (0 < m.level → OpenTx log m.affected)
  | .closing => m.level = 0 ∧ OpenTx log m.affected
  | .refreshing todo => m.level = 0 ∧ ∃ p cs q, log = p ++ .finish cs :: q ∧ (∀ e ∈ q, e.inTx = false) ∧
      handled q ++ todo = cs ∧ cs.Pairwise (fun a b => a.num < b.num) ∧ OpenTx p cs

theorem Quiescent.ext {log : List (Ev V)} {e} (h : Quiescent log) (he : e ≠ .begin_) : Quiescent (log ++ [e]) := by
  intro p q hl
  rcases List.eq_nil_or_concat q with rfl | ⟨q', z, rfl⟩
  · have := (List.append_inj' hl rfl).2
    simp only [List.cons.injEq, and_true] at this
    exact absurd this he
  · rw [List.concat_eq_append, ← List.cons_append, ← List.append_assoc] at hl
    rw [List.concat_eq_append]
    exact List.mem_append_left _ (h p q' (List.append_inj' hl rfl).1)

theorem OpenTx.congr {log : List (Ev V)} {a b : List GraphId} (h : OpenTx log a) (hab : ∀ c, c ∈ b ↔ c ∈ a) :
    OpenTx log b := by
  obtain ⟨p, body, g0, g1, g2, g3, g4⟩ := h.ex
  exact ⟨p, body, g0, g1, g2, g3, fun c => (hab c).trans (g4 c)⟩

theorem monSays {log : List (Ev V)} {m} (h : Mon.Runs log m) : MonSays log m := by
  induction h with
  | nil =>
    refine ⟨fun _ => ?_, fun h => by simp at h⟩
    intro p q h; simp at h
  | @snoc log m e m' h1 h2 ih =>
    unfold MonSays at ih
    obtain ⟨lvl, aff, ph⟩ := m
    cases ph with
    | normal =>
      obtain ⟨ih1, ih2⟩ := ih
      simp only at ih1 ih2
      have plain : (e ≠ .begin_) → (e ≠ .idle) → (∀ cs, e ≠ .finish cs) → (∀ id l, e ≠ .wrote id l) →
          m' = ⟨lvl, aff, .normal⟩ → MonSays (log ++ [e]) m' := by
        rintro n1 n2 n3 n4 rfl
        refine ⟨fun h => (ih1 h).ext n1, fun h => (ih2 h).ext n3 n2 ?_⟩
        intro c
        exact ⟨.inl, fun h => h.elim (fun x => x) (fun ⟨id, l, hh, _⟩ => absurd hh (n4 id l))⟩
      cases e with
      | begin_ =>
        simp only [Mon.Step] at h2; subst h2
        refine ⟨fun h => by simp at h, fun _ => ?_⟩
        simp only
        by_cases hz : lvl = 0
        · rw [if_pos hz]
          exact ⟨log, [], rfl, ih1 hz, by simp, by simp, by simp⟩
        · rw [if_neg hz]
          exact (ih2 (by omega)).ext (by simp) (by simp) (by simp)
      | end_ =>
        simp only [Mon.Step] at h2; subst h2
        unfold MonSays
        simp only
        by_cases h1 : lvl = 1
        · rw [if_pos h1]
          exact ⟨by omega, (ih2 (by omega)).ext (by simp) (by simp) (by simp)⟩
        · rw [if_neg h1]
          refine ⟨fun h => (ih1 (by omega)).ext (by simp), fun h => ?_⟩
          exact (ih2 (by omega)).ext (by simp) (by simp) (by simp)
      | wrote id cs =>
        simp only [Mon.Step] at h2; obtain ⟨h2, rfl⟩ := h2
        refine ⟨fun h => by simp at h; omega, fun _ => ?_⟩
        refine (ih2 h2).ext (by simp) (by simp) ?_
        intro c
        simp only [List.mem_append]
        constructor
        · rintro (h | h)
          · exact .inl h
          · exact .inr ⟨id, cs, rfl, h⟩
        · rintro (h | ⟨_, _, h, h'⟩)
          · exact .inl h
          · cases h; exact .inr h'
      | finish cs => exact absurd h2 (by simp [Mon.Step])
      | refreshed cs => exact absurd h2 (by simp [Mon.Step])
      | skipped cs => exact absurd h2 (by simp [Mon.Step])
      | idle => exact absurd h2 (by simp [Mon.Step])
      | read => exact plain (by simp) (by simp) (by simp) (by simp) (by simpa [Mon.Step] using h2)
      | deliver => exact plain (by simp) (by simp) (by simp) (by simp) (by simpa [Mon.Step] using h2)
      | subscribed => exact plain (by simp) (by simp) (by simp) (by simp) (by simpa [Mon.Step] using h2)
      | defined => exact plain (by simp) (by simp) (by simp) (by simp) (by simpa [Mon.Step] using h2)
      | ran => exact plain (by simp) (by simp) (by simp) (by simp) (by simpa [Mon.Step] using h2)
      | released => exact plain (by simp) (by simp) (by simp) (by simp) (by simpa [Mon.Step] using h2)
      | dropped => exact plain (by simp) (by simp) (by simp) (by simp) (by simpa [Mon.Step] using h2)
      | connect => exact plain (by simp) (by simp) (by simp) (by simp) (by simpa [Mon.Step] using h2)
      | disconnect => exact plain (by simp) (by simp) (by simp) (by simp) (by simpa [Mon.Step] using h2)
    | closing =>
      simp only at ih
      cases e with
      | finish cs =>
        simp only [Mon.Step] at h2
        obtain ⟨a1, a2, a3, rfl⟩ := h2
        exact ⟨ih.1, log, cs, [], rfl, by simp, by simp [handled], a3, ih.2.congr a1⟩
      | _ => exact absurd h2 (by simp [Mon.Step])
    | refreshing todo =>
      simp only at ih
      obtain ⟨ih0, p, cs, q, rfl, q1, q2, q3, q4⟩ := ih
      have plain : e.inTx = false → handled [e] = [] →
          m' = ⟨lvl, aff, .refreshing todo⟩ → MonSays (p ++ .finish cs :: q ++ [e]) m' := by
        rintro n1 n2 rfl
        refine ⟨ih0, p, cs, q ++ [e], by simp, ?_, ?_, q3, q4⟩
        · intro x hx
          rcases List.mem_append.mp hx with h | h
          · exact q1 x h
          · simp only [List.mem_singleton] at h; subst h; exact n1
        · unfold handled at n2 q2 ⊢; rw [List.filterMap_append, n2, List.append_nil]; exact q2
      have served : ∀ c rest, todo = c :: rest → e.inTx = false → handled [e] = [c] →
          m' = ⟨lvl, aff, .refreshing rest⟩ → MonSays (p ++ .finish cs :: q ++ [e]) m' := by
        rintro c rest rfl n1 n2 rfl
        refine ⟨ih0, p, cs, q ++ [e], by simp, ?_, ?_, q3, q4⟩
        · intro x hx
          rcases List.mem_append.mp hx with h | h
          · exact q1 x h
          · simp only [List.mem_singleton] at h; subst h; exact n1
        · unfold handled at n2 q2 ⊢; rw [List.filterMap_append, n2, ← q2]; simp
      cases e with
      | begin_ => exact absurd h2 (by simp [Mon.Step])
      | wrote => exact absurd h2 (by simp [Mon.Step])
      | finish => exact absurd h2 (by simp [Mon.Step])
      | refreshed c =>
        simp only [Mon.Step] at h2
        obtain ⟨rest, h3, h4⟩ := h2
        exact served c rest h3 rfl rfl h4
      | skipped c =>
        simp only [Mon.Step] at h2
        obtain ⟨rest, h3, h4⟩ := h2
        exact served c rest h3 rfl rfl h4
      | idle =>
        simp only [Mon.Step] at h2
        obtain ⟨h3, rfl⟩ := h2
        refine ⟨fun _ => ?_, fun h => ?_⟩
        · intro p' q' hl
          rcases List.eq_nil_or_concat q' with rfl | ⟨q'', z, rfl⟩
          · have := (List.append_inj' hl rfl).2
            simp at this
          · rw [List.concat_eq_append] at hl ⊢
            rw [← List.cons_append, ← List.append_assoc p'] at hl
            have := (List.append_inj' hl rfl).2
            simp only [List.cons.injEq, and_true] at this
            subst this; simp
        · simp only at h; omega
      | end_ => exact plain rfl rfl (by simpa [Mon.Step] using h2)
      | read => exact plain rfl rfl (by simpa [Mon.Step] using h2)
      | deliver => exact plain rfl rfl (by simpa [Mon.Step] using h2)
      | subscribed => exact plain rfl rfl (by simpa [Mon.Step] using h2)
      | defined => exact plain rfl rfl (by simpa [Mon.Step] using h2)
      | ran => exact plain rfl rfl (by simpa [Mon.Step] using h2)
      | released => exact plain rfl rfl (by simpa [Mon.Step] using h2)
      | dropped => exact plain rfl rfl (by simpa [Mon.Step] using h2)
      | connect => exact plain rfl rfl (by simpa [Mon.Step] using h2)
      | disconnect => exact plain rfl rfl (by simpa [Mon.Step] using h2)

/-- Between `finish` and the next `idle`. -/
theorem mon_between {pre mid : List (Ev V)} {cs m} (h : Mon.Runs (pre ++ .finish cs :: mid) m) (hm : .idle ∉ mid) :
    ∃ todo, m.phase = .refreshing todo ∧ handled mid ++ todo = cs := by
  generalize hl : pre ++ .finish cs :: mid = log at h
  induction h generalizing mid with
  | nil => simp at hl
  | @snoc log m e m' h1 h2 ih =>
    rcases List.eq_nil_or_concat mid with rfl | ⟨mid', z, rfl⟩
    · obtain ⟨rfl, he⟩ := List.append_inj' hl rfl
      simp only [List.cons.injEq, and_true] at he
      subst he
      unfold Mon.Step at h2
      obtain ⟨lvl, aff, ph⟩ := m
      cases ph with
      | normal => exact absurd h2 (by simp)
      | closing => simp only at h2; rw [h2.2.2.2]; exact ⟨cs, rfl, rfl⟩
      | refreshing t => exact absurd h2 (by simp)
    · rw [List.concat_eq_append] at hl hm ⊢
      rw [← List.cons_append, ← List.append_assoc] at hl
      obtain ⟨hl1, hl2⟩ := List.append_inj' hl rfl
      simp only [List.cons.injEq, and_true] at hl2
      subst hl2
      obtain ⟨todo, g1, g2⟩ := ih (fun h => hm (List.mem_append_left _ h)) hl1
      have hz : z ≠ .idle := by rintro rfl; exact hm (by simp)
      obtain ⟨lvl, aff, ph⟩ := m
      simp only at g1; subst g1
      have keep : handled [z] = [] → m' = ⟨lvl, aff, .refreshing todo⟩ →
          ∃ todo, m'.phase = .refreshing todo ∧ handled (mid' ++ [z]) ++ todo = cs := by
        rintro n2 rfl
        refine ⟨todo, rfl, ?_⟩
        unfold handled at n2 g2 ⊢; rw [List.filterMap_append, n2, List.append_nil]; exact g2
      have served : ∀ c rest, todo = c :: rest → handled [z] = [c] → m' = ⟨lvl, aff, .refreshing rest⟩ →
          ∃ todo, m'.phase = .refreshing todo ∧ handled (mid' ++ [z]) ++ todo = cs := by
        rintro c rest rfl n2 rfl
        refine ⟨rest, rfl, ?_⟩
        unfold handled at n2 g2 ⊢; rw [List.filterMap_append, n2, ← g2]; simp
      cases z with
      | begin_ => exact absurd h2 (by simp [Mon.Step])
      | wrote => exact absurd h2 (by simp [Mon.Step])
      | finish => exact absurd h2 (by simp [Mon.Step])
      | refreshed c =>
        simp only [Mon.Step] at h2
        obtain ⟨rest, h3, h4⟩ := h2
        exact served c rest h3 rfl h4
      | skipped c =>
        simp only [Mon.Step] at h2
        obtain ⟨rest, h3, h4⟩ := h2
        exact served c rest h3 rfl h4
      | idle => exact absurd rfl hz
      | end_ => exact keep rfl (by simpa [Mon.Step] using h2)
      | read => exact keep rfl (by simpa [Mon.Step] using h2)
      | deliver => exact keep rfl (by simpa [Mon.Step] using h2)
      | subscribed => exact keep rfl (by simpa [Mon.Step] using h2)
      | defined => exact keep rfl (by simpa [Mon.Step] using h2)
      | ran => exact keep rfl (by simpa [Mon.Step] using h2)
      | released => exact keep rfl (by simpa [Mon.Step] using h2)
      | dropped => exact keep rfl (by simpa [Mon.Step] using h2)
      | connect => exact keep rfl (by simpa [Mon.Step] using h2)
      | disconnect => exact keep rfl (by simpa [Mon.Step] using h2)

/-! ## C05 -/

variable [DecidableEq V]

/-- **C05 (protocol).** The log of every program is accepted by the monitor. -/
theorem C05_protocol {lim} {a : Act V} {s : St V} (h : a.exec lim = .ok s) : ∃ m, Mon.Runs s.log m := by
  obtain ⟨m, h1, _⟩ := (all_star (exec_steps h)).mi
  exact ⟨m, h1⟩

/-- **C05 (never during a transaction).** A callback is called only as the first call of a
subscription that has just been created, or in a refresh of its subscription, and
refreshes happen only after the end of an outermost transaction: since its end (`finish`)
nothing was written and no transaction was opened, and the subscription was in the list
of the affected ones. -/
theorem C05_callbacks_only_after_transactions {lim} {a : Act V} {s : St V} (h : a.exec lim = .ok s)
    {pre c v clean vals defs post} (hl : s.log = pre ++ .deliver c v clean vals defs :: post) :
    (∃ before t all mid, pre = before ++ .subscribed c t all :: mid ∧ ∀ e ∈ mid, e.isConn = true) ∨
    (∃ p cs q mid, pre = p ++ .finish cs :: (q ++ .refreshed c :: mid) ∧ c ∈ cs ∧
      (∀ e ∈ q, e.inTx = false) ∧ ∀ e ∈ mid, e.isConn = true) := by
  have ha := all_star (exec_steps h)
  obtain ⟨_, _, _, before, e, mid, rfl, h2, h3⟩ := ha.xi.ok pre _ post hl
  rcases h3 with rfl | ⟨t, al, rfl⟩
  · right
    obtain ⟨m, hm, _⟩ := ha.mi
    rw [hl, List.append_assoc, List.cons_append] at hm
    obtain ⟨m0, m1, g1, g2⟩ := hm.at
    have hs := monSays g1
    obtain ⟨lvl, aff, ph⟩ := m0
    cases ph with
    | normal => exact absurd g2 (by simp [Mon.Step])
    | closing => exact absurd g2 (by simp [Mon.Step])
    | refreshing todo =>
      simp only [Mon.Step] at g2
      obtain ⟨rest, rfl, _⟩ := g2
      obtain ⟨_, p, cs, q, rfl, k1, k2, _⟩ := hs
      exact ⟨p, cs, q, mid, by simp, by rw [← k2]; simp, k1, h2⟩
  · exact .inl ⟨before, t, al, mid, rfl, h2⟩

/-- **C05 (exactly once, in order of creation).** Between the end of an outermost
transaction with the affected subscribers `cs` and the end of its refresh phase, exactly
the subscribers `cs` are handled, each once, in order of creation; the ones that are
skipped have been dropped before. -/
theorem C05_each_affected_once_in_order {lim} {a : Act V} {s : St V} (h : a.exec lim = .ok s)
    {pre cs mid post} (hl : s.log = pre ++ .finish cs :: (mid ++ .idle :: post)) (hm : .idle ∉ mid) :
    handled mid = cs ∧ cs.Pairwise (fun a b => a.num < b.num) ∧
    ∀ c, .skipped c ∈ mid → .dropped c ∈ pre ++ .finish cs :: mid := by
  have ha := all_star (exec_steps h)
  obtain ⟨m, hM, _⟩ := ha.mi
  have hl' : s.log = (pre ++ .finish cs :: mid) ++ .idle :: post := by rw [hl]; simp
  rw [hl'] at hM
  obtain ⟨m0, m1, g1, g2⟩ := hM.at
  obtain ⟨todo, g3, g4⟩ := mon_between g1 hm
  obtain ⟨lvl, aff, ph⟩ := m0
  simp only at g3; subst g3
  simp only [Mon.Step] at g2
  obtain ⟨rfl, _⟩ := g2
  refine ⟨by simpa using g4, ?_, ?_⟩
  · have hM2 := hM
    rw [List.append_assoc, List.cons_append] at hM2
    obtain ⟨n0, n1, k1, k2⟩ := hM2.at
    obtain ⟨lvl', aff', ph'⟩ := n0
    cases ph' with
    | normal => exact absurd k2 (by simp [Mon.Step])
    | closing => simp only [Mon.Step] at k2; exact k2.2.2.1
    | refreshing todo => exact absurd k2 (by simp [Mon.Step])
  · intro c hc
    obtain ⟨x, y, rfl⟩ := List.append_of_mem hc
    have := ha.xi.ok (pre ++ .finish cs :: x) (.skipped c) (y ++ .idle :: post) (by rw [hl]; simp)
    have : .dropped c ∈ pre ++ .finish cs :: x := this
    rcases List.mem_append.mp this with h | h
    · exact List.mem_append_left _ h
    · refine List.mem_append_right _ ?_
      rcases List.mem_cons.mp h with h | h
      · cases h
      · exact List.mem_cons_of_mem _ (List.mem_append_left _ h)

/-- **C05 (the affected ones).** The subscribers handled at the end of an outermost
transaction are those affected by some write of this transaction, which began when no
other transaction was open; nested transactions inside of it did not handle any. -/
theorem C05_affected_are_collected {lim} {a : Act V} {s : St V} (h : a.exec lim = .ok s)
    {pre cs post} (hl : s.log = pre ++ .finish cs :: post) :
    ∃ p body, pre = p ++ .begin_ :: body ∧ Quiescent p ∧ (∀ cs', .finish cs' ∉ body) ∧
      (∀ c, .refreshed c ∉ body) ∧
      ∀ c, c ∈ cs ↔ ∃ id l, .wrote id l ∈ body ∧ c ∈ l := by
  have ha := all_star (exec_steps h)
  obtain ⟨m, hM, _⟩ := ha.mi
  rw [hl] at hM
  obtain ⟨m0, m1, g1, g2⟩ := hM.at
  have hs := monSays g1
  obtain ⟨lvl, aff, ph⟩ := m0
  cases ph with
  | normal => exact absurd g2 (by simp [Mon.Step])
  | refreshing todo => exact absurd g2 (by simp [Mon.Step])
  | closing =>
    simp only [Mon.Step] at g2
    obtain ⟨p, body, rfl, k1, k2, k3, k4⟩ := (hs.2.congr g2.1).ex
    refine ⟨p, body, rfl, k1, k2, ?_, k4⟩
    intro c hc
    obtain ⟨x, y, rfl⟩ := List.append_of_mem hc
    rw [List.append_assoc, List.cons_append, List.append_assoc, List.cons_append] at hM
    rw [show p ++ Ev.begin_ :: (x ++ Ev.refreshed c :: (y ++ Ev.finish cs :: post)) =
      (p ++ Ev.begin_ :: x) ++ Ev.refreshed c :: (y ++ Ev.finish cs :: post) by simp] at hM
    obtain ⟨n0, n1, j1, j2⟩ := hM.at
    have hs' := monSays j1
    obtain ⟨lvl', aff', ph'⟩ := n0
    cases ph' with
    | normal => exact absurd j2 (by simp [Mon.Step])
    | closing => exact absurd j2 (by simp [Mon.Step])
    | refreshing todo =>
      obtain ⟨_, p', cs', q', e1, e2, _⟩ := hs'
      -- the last event inside of a transaction before the refresh is a `finish`
      rcases List.append_eq_append_iff.mp e1 with ⟨z, z1, z2⟩ | ⟨z, z1, z2⟩
      · cases z with
        | nil => simp at z2
        | cons w z =>
          simp only [List.cons_append, List.cons.injEq] at z2
          obtain ⟨rfl, z2⟩ := z2
          exact k2 cs' (by rw [z2]; simp)
      · cases z with
        | nil => simp at z2
        | cons w z =>
          simp only [List.cons_append, List.cons.injEq] at z2
          have := e2 .begin_ (by rw [z2.2]; simp)
          cases this

omit [DecidableEq V] in
/-- Position of two marked elements in a list. -/
theorem two_splits {α : Type} {a b c d : List α} {x y : α} (h : a ++ x :: b = c ++ y :: d) :
    (∃ z, c = a ++ x :: z ∧ b = z ++ y :: d) ∨ (a = c ∧ x = y ∧ b = d) ∨ (∃ z, a = c ++ y :: z ∧ d = z ++ x :: b) := by
  rcases List.append_eq_append_iff.mp h with ⟨z, z1, z2⟩ | ⟨z, z1, z2⟩
  · cases z with
    | nil => simp at z2; exact .inr (.inl ⟨by simpa using z1.symm, z2.1, z2.2⟩)
    | cons w z =>
      simp only [List.cons_append, List.cons.injEq] at z2
      exact .inl ⟨z, by rw [z1, z2.1], z2.2⟩
  · cases z with
    | nil => simp at z2; exact .inr (.inl ⟨by simpa using z1, z2.1.symm, z2.2.symm⟩)
    | cons w z =>
      simp only [List.cons_append, List.cons.injEq] at z2
      exact .inr (.inr ⟨z, by rw [z1, z2.1], z2.2⟩)

omit [DecidableEq V] in
theorem first_mem {α : Type} {x : α} {l : List α} (h : x ∈ l) : ∃ a b, l = a ++ x :: b ∧ x ∉ a := by
  induction l with
  | nil => cases h
  | cons y l ih =>
    by_cases hxy : x = y
    · exact ⟨[], l, by rw [hxy]; rfl, by simp⟩
    · rcases List.mem_cons.mp h with h | h
      · exact absurd h hxy
      · obtain ⟨a, b, rfl, h2⟩ := ih h
        exact ⟨y :: a, b, rfl, by simp [hxy, h2]⟩

/-- **C05 (no affected subscriber is forgotten).** In a program that ends outside of
transactions, every write is followed by the end of its outermost transaction, and there
all subscribers affected by the write are handled (`C05_each_affected_once_in_order`). -/
theorem C05_every_write_is_handled {lim} {a : Act V} {s : St V} (h : a.exec lim = .ok s) (hidle : s.tx = .idle)
    {pre id l post} (hl : s.log = pre ++ .wrote id l :: post) :
    ∃ mid cs mid' post', post = mid ++ .finish cs :: (mid' ++ .idle :: post') ∧
      .idle ∉ mid ∧ .idle ∉ mid' ∧ (∀ c ∈ l, c ∈ cs) ∧ handled mid' = cs := by
  have ha := all_star (exec_steps h)
  obtain ⟨m, hM, hrel⟩ := ha.mi
  unfold MonRel at hrel
  rw [hidle] at hrel
  have hq : Quiescent s.log := by
    have := monSays hM
    unfold MonSays at this
    rw [hrel.1] at this
    exact this.1 hrel.2
  have hM1 := hM
  rw [hl] at hM1
  obtain ⟨m0, m1, g1, g2⟩ := hM1.at
  have hs := monSays g1
  obtain ⟨lvl, aff, ph⟩ := m0
  cases ph with
  | closing => exact absurd g2 (by simp [Mon.Step])
  | refreshing todo => exact absurd g2 (by simp [Mon.Step])
  | normal =>
    simp only [Mon.Step] at g2
    obtain ⟨p, body, rfl, k1, k2, k3, k4⟩ := (hs.2 g2.1).ex
    have hi := hq p (body ++ .wrote id l :: post) (by rw [hl]; simp)
    have hi : .idle ∈ post := by
      rcases List.mem_append.mp hi with h | h
      · exact absurd h k3
      · rcases List.mem_cons.mp h with h | h
        · cases h
        · exact h
    obtain ⟨mid, rest, rfl, hmid⟩ := first_mem hi
    have hM2 := hM
    rw [hl, show p ++ Ev.begin_ :: body ++ Ev.wrote id l :: (mid ++ Ev.idle :: rest) =
      (p ++ Ev.begin_ :: (body ++ Ev.wrote id l :: mid)) ++ Ev.idle :: rest by simp] at hM2
    obtain ⟨n0, n1, j1, j2⟩ := hM2.at
    have hs2 := monSays j1
    obtain ⟨lvl', aff', ph'⟩ := n0
    cases ph' with
    | normal => exact absurd j2 (by simp [Mon.Step])
    | closing => exact absurd j2 (by simp [Mon.Step])
    | refreshing todo =>
      simp only [Mon.Step] at j2
      obtain ⟨rfl, _⟩ := j2
      obtain ⟨_, p', cs, q, e1, e2, e3, e4, e5⟩ := hs2
      obtain ⟨p2, body2, f1, f2, f3, f4, f5⟩ := e5.ex
      -- the write comes before this `finish`
      have e1' : (p ++ Ev.begin_ :: body) ++ Ev.wrote id l :: mid = p' ++ Ev.finish cs :: q := by
        rw [← e1]; simp
      rcases two_splits e1' with ⟨z, z1, z2⟩ | ⟨_, z2, _⟩ | ⟨z, z1, z2⟩
      · -- and after the beginning of this transaction
        have hz : .wrote id l ∈ body2 := by
          rw [f1] at z1
          rcases two_splits z1 with ⟨w, w1, w2⟩ | ⟨_, w2, _⟩ | ⟨w, w1, w2⟩
          · rw [w2]; simp
          · cases w2
          · exfalso
            have := f2 p (body ++ .wrote id l :: w) (by rw [w1]; simp)
            rcases List.mem_append.mp this with h | h
            · exact k3 h
            · rcases List.mem_cons.mp h with h | h
              · cases h
              · exact hmid (by rw [z2, w2]; simp [h])
        refine ⟨z, cs, q, rest, by rw [z2]; simp, ?_, ?_, ?_, by simpa using e3⟩
        · intro h; exact hmid (by rw [z2]; exact List.mem_append_left _ h)
        · intro h; have := e2 _ h; cases this
        · intro c hc; exact (f5 c).mpr ⟨id, l, hz, hc⟩
      · cases z2
      · have := e2 (.wrote id l) (by rw [z2]; simp)
        cases this

/-- **C05 (who is affected).** A `set` marks exactly the subscribers that depend on the
value, directly or through computeds, and forgets the cached values of exactly the
computeds that depend on it. -/
theorem C05_set_affects_dependents {lim} {a : Act V} {s s' : St V} (_h : a.exec lim = .ok s) {id v}
    (hw : s.write id v false = .ok s') :
    s'.vals = upd s.vals id (some v) ∧
    ∃ cs, s'.log = s.log ++ [.wrote id cs] ∧
      (∀ c, c ∈ cs ↔ c.kind = .client ∧ Relation.TransGen (fun p c => c ∈ s.conn.pc.get p) id c) ∧
      ∀ x, (x.kind = .computed → Relation.TransGen (fun p c => c ∈ s.conn.pc.get p) id x → s'.cache x = none) ∧
        (¬ Relation.TransGen (fun p c => c ∈ s.conn.pc.get p) id x → s'.cache x = s.cache x) := by
  obtain ⟨old, l, cs, hv, ht, ⟨hb, _⟩ | ⟨_, W⟩⟩ := write_cases hw
  · cases hb
  · obtain ⟨l, cs, deps, w1, w2, w3, w4, w5, w6⟩ := W.ex
    refine ⟨W.vals, _, w6, ?_, ?_⟩
    · intro c
      simp only [List.mem_filter, decide_eq_true_eq]
      rw [w2]; exact ⟨fun ⟨h1, h2⟩ => ⟨h2, h1⟩, fun ⟨h1, h2⟩ => ⟨h2, h1⟩⟩
    · intro x
      rw [w4]
      exact ⟨fun h1 h2 => if_pos ⟨h1, (w2 x).mpr h2⟩, fun h1 => if_neg fun h2 => h1 ((w2 x).mp h2.2)⟩

/-- Three subscribers, created in this order, of computeds that depend on `x` or `y`; a
transaction with a nested one sets both several times. -/
def threeSubs : Act (Fin 16) :=
  .newValue 1 false fun x => .newValue 2 false fun y =>
  .newComputed (.read y .ret) fun cy =>
  .newComputed (.read x .ret) fun cx =>
  .newComputed (.read cx fun a => .read cy fun b => .ret (a + b)) fun sum =>
  .subscribe sum false false (fun _ => .done) fun _ =>
  .subscribe cy false false (fun _ => .done) fun c =>
  .subscribe cx false false (fun _ => .done) fun _ =>
  .txBegin <| Act.set x 3 <| .txBegin <| Act.set y 4 <| Act.set x 5 <| .txEnd <| .dropSub c <| .txEnd .done

/-- What happens at the end of the transaction: subscribers 6 and 8 are refreshed in this
order, 7 was dropped. -/
def summary (log : List (Ev V)) : List (String × Nat) :=
  log.filterMap fun e => match e with
    | .finish cs => some ("finish", cs.length)
    | .refreshed c => some ("refreshed", c.num)
    | .skipped c => some ("skipped", c.num)
    | .deliver c _ _ _ _ => some ("deliver", c.num)
    | .idle => some ("idle", 0)
    | _ => none

example : ∃ s, threeSubs.exec 30 = .ok s ∧ s.tx = .idle ∧ summary s.log =
    [("deliver", 6), ("deliver", 7), ("deliver", 8), ("finish", 3), ("refreshed", 6), ("deliver", 6),
      ("skipped", 7), ("refreshed", 8), ("deliver", 8), ("idle", 0)] :=
  ⟨_, final_of_isOk (by decide +kernel), by decide +kernel, by decide +kernel⟩

end Verif.Reactive

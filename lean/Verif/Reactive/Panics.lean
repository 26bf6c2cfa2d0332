import Verif.Reactive.Tx
import Verif.Reactive.GraphLemmas
/-!
# C88: after a panic

Every call from the browser runs in a transaction (`wasm_callback`, lib.rs:458-485). The program is compiled for `wasm32-unknown-unknown`, where a panic is a trap: nothing is unwound, no destructor is run, the browser
reports an exception and calls the same program again for the next event. This file models what is left of the transaction by such a call, and what later calls do.

Sources: `crates/vertigo/src/lib.rs`, `crates/vertigo/src/computed/dependencies/mod.rs`, `.../transaction_state.rs`, `crates/vertigo/src/computed/struct_mut/value_mut.rs`.

Simplifications: `level` is a natural number (a `u16` in the code: 65535 traps are needed to make a difference); callbacks of `on_after_transaction` do not panic and open no transaction (the one of the library sends the
changes of the document); which subscribers depend on a value is part of the program (the links are in `Verif.Reactive.Machine`).
-/
namespace Verif.Reactive.Panics

/-! ## Model -/

/-- What a callback does, up to its end or its panic. -/
inductive Code where
  | done
  | panic
  /-- `report_set` (dependencies/mod.rs:66-84): these subscribers depend on the value -/
  | write (clients : List GraphId) (k : Code)
  /-- `transaction(body)` (dependencies/mod.rs:43-64), also `Value::set` and `change`; `subs` is what the subscribers do if they are called at its end -/
  | tx (body : Code) (subs : GraphId → Code) (k : Code)

/-- What can be observed. -/
inductive Ev where
  /-- a value was set, on which these subscribers depend -/
  | wrote (clients : List GraphId)
  /-- the refresh of a subscriber began -/
  | called (c : GraphId)
  /-- `fire_end` (dependencies/mod.rs:61): the changes of the document are sent (driver.rs:79-81) -/
  | shown
  deriving DecidableEq

structure App where
  tx : TxState := .idle
  log : List Ev := []

/-- `up` (transaction_state.rs:33-53); `none` is the panic. -/
def up : TxState → Option TxState
  | .idle => some (.modification 1 [])
  | .modification level clients => some (.modification (level + 1) clients)
  | .refreshing => none

/-- The loop dependencies/mod.rs:56-58. -/
def refreshAll (call : GraphId → App → Bool × App) : List GraphId → App → Bool × App
  | [], s => (true, s)
  | c :: cs, s =>
      match call c { s with log := s.log ++ [.called c] } with
      | (true, s) => refreshAll call cs s
      | (false, s) => (false, s)

/-- Runs code; `false` if it has trapped. When `up` panics, `move_to_void` has taken the state and not put it back (value_mut.rs:41-46), so that the default is left, `Idle` (transaction_state.rs:16-20). -/
def Code.run : Code → App → Bool × App
  | .done, s => (true, s)
  | .panic, s => (false, s)
  | .write clients k, s => k.run { tx := s.tx.addClients clients, log := s.log ++ [.wrote clients] }
  | .tx body subs k, s =>
      match up s.tx with
      | none => (false, { s with tx := .idle })
      | some t =>
          match body.run { s with tx := t } with
          | (false, s) => (false, s)
          | (true, s) =>
              match s.tx.down with
              | (t, none) => k.run { s with tx := t }
              | (t, some clients) =>
                  match refreshAll (fun c => (subs c).run) clients { s with tx := t } with
                  | (false, s) => (false, s)
                  | (true, s) => k.run { tx := s.tx.moveToIdle, log := s.log ++ [.shown] }

/-- One call of `wasm_callback`: the code of the callback, and of the subscribers. -/
structure Entry where
  body : Code
  subs : GraphId → Code

/-- lib.rs:458-485. -/
def enter (s : App) (e : Entry) : App := ((Code.tx e.body e.subs .done).run s).2

/-- The calls of the browser, one after the other. -/
def play (s : App) (es : List Entry) : App := es.foldl enter s

/-! ## Specification -/

/-- The callback panics by itself, also inside of a transaction in it (subscribers are not called before the callback has returned). -/
inductive Code.Panics : Code → Prop
  | panic : Panics .panic
  | write {clients k} : Panics k → Panics (.write clients k)
  | body {body subs k} : Panics body → Panics (.tx body subs k)
  | next {body subs k} : Panics k → Panics (.tx body subs k)

/-- The callback sets a value on which `c` depends. -/
inductive Code.Affects (c : GraphId) : Code → Prop
  | here {clients k} : c ∈ clients → Affects c (.write clients k)
  | write {clients k} : Affects c k → Affects c (.write clients k)
  | body {body subs k} : Affects c body → Affects c (.tx body subs k)
  | next {body subs k} : Affects c k → Affects c (.tx body subs k)

/-- A subscriber panics before it opens a transaction. -/
inductive Code.Breaks : Code → Prop
  | panic : Breaks .panic
  | write {clients k} : Breaks k → Breaks (.write clients k)

/-- A subscriber opens a transaction, which is a panic too. -/
inductive Code.Opens : Code → Prop
  | tx {body subs k} : Opens (.tx body subs k)
  | write {clients k} : Opens k → Opens (.write clients k)

/-- Neither the callback nor a subscriber that is called panics. -/
def Entry.Quiet (e : Entry) : Prop := ¬ e.body.Panics ∧ ∀ c, e.body.Affects c → ¬ (e.subs c).Breaks ∧ ¬ (e.subs c).Opens

/-- Something that the user can notice: a subscriber is called, or the document is changed. -/
def Ev.Noticed : Ev → Prop
  | .wrote _ => False
  | _ => True

/-! ## Proofs -/

/-- The callback, inside of its transaction. -/
theorem body_run (b : Code) : ∀ (s : App) (l : Nat) (cs : List GraphId), 0 < l → s.tx = .modification l cs →
    ∃ evs l' cs', (b.run s).2.log = s.log ++ evs ∧ (∀ x ∈ evs, ¬ x.Noticed) ∧ (b.run s).2.tx = .modification l' cs' ∧ l ≤ l' ∧
      ((b.run s).1 = false ↔ b.Panics) ∧ ((b.run s).1 = true → l' = l ∧ ∀ c, c ∈ cs' ↔ c ∈ cs ∨ b.Affects c) := by
  induction b with
  | done => exact fun s l cs hl ht => ⟨[], l, cs, by simp [Code.run], by simp, ht, Nat.le_refl _, by simp only [Code.run, Bool.true_eq_false, false_iff]; exact fun h => (by cases h),
      fun _ => ⟨rfl, fun c => ⟨.inl, fun h => h.elim id fun h => by cases h⟩⟩⟩
  | panic => exact fun s l cs hl ht => ⟨[], l, cs, by simp [Code.run], by simp, ht, Nat.le_refl _, by simp only [Code.run, true_iff]; exact .panic, by simp [Code.run]⟩
  | write clients k ih =>
      intro s l cs hl ht
      obtain ⟨evs, l', cs', h1, h2, h3, h4, h5, h6⟩ := ih { tx := s.tx.addClients clients, log := s.log ++ [.wrote clients] } l (sExtend cs clients) hl (by rw [ht]; rfl)
      refine ⟨.wrote clients :: evs, l', cs', ?_, ?_, h3, h4, ?_, ?_⟩
      · simp only [Code.run, h1, List.append_assoc, List.singleton_append]
      · intro x hx
        rcases List.mem_cons.mp hx with rfl | hx
        · exact id
        · exact h2 x hx
      · simp only [Code.run, h5]
        exact ⟨.write, fun h => by cases h; assumption⟩
      · intro h
        obtain ⟨e, h6⟩ := h6 h
        refine ⟨e, fun c => ?_⟩
        rw [h6, mem_sExtend]
        constructor
        · rintro ((h | h) | h)
          · exact .inl h
          · exact .inr (.here h)
          · exact .inr (.write h)
        · rintro (h | h)
          · exact .inl (.inl h)
          · cases h with
            | here h => exact .inl (.inr h)
            | write h => exact .inr h
  | tx body subs k ihb _ ihk =>
      intro s l cs hl ht
      obtain ⟨evs, l', cs', h1, h2, h3, h4, h5, h6⟩ := ihb { s with tx := .modification (l + 1) cs } (l + 1) cs (by omega) rfl
      have hup : up s.tx = some (.modification (l + 1) cs) := by rw [ht]; rfl
      simp only [Code.run, hup]
      generalize hr : body.run { s with tx := .modification (l + 1) cs } = r at *
      obtain ⟨ok, s1⟩ := r
      cases ok with
      | false =>
          exact ⟨evs, l', cs', h1, h2, h3, by omega, ⟨fun _ => .body (h5.mp rfl), fun _ => rfl⟩, by simp⟩
      | true =>
          obtain ⟨rfl, h7⟩ := h6 rfl
          have hd : s1.tx.down = (.modification l cs', none) := by
            simp only at h3
            rw [h3]
            simp only [TxState.down, Nat.add_sub_cancel]
            rw [if_neg (by omega)]
          simp only [hd]
          obtain ⟨evs2, l2, cs2, k1, k2, k3, k4, k5, k6⟩ := ihk { s1 with tx := .modification l cs' } l cs' hl rfl
          refine ⟨evs ++ evs2, l2, cs2, ?_, ?_, k3, k4, ?_, ?_⟩
          · rw [k1]
            simp only at h1 ⊢
            rw [h1, List.append_assoc]
          · intro x hx
            exact (List.mem_append.mp hx).elim (h2 x) (k2 x)
          · rw [k5]
            refine ⟨.next, fun h => ?_⟩
            cases h with
            | body h => exact absurd (h5.mpr h) (by simp)
            | next h => exact h
          · intro h
            obtain ⟨e, k6⟩ := k6 h
            refine ⟨e, fun c => ?_⟩
            rw [k6, h7]
            constructor
            · rintro ((h | h) | h)
              · exact .inl h
              · exact .inr (.body h)
              · exact .inr (.next h)
            · rintro (h | h)
              · exact .inl (.inl h)
              · cases h with
                | body h => exact .inl (.inr h)
                | next h => exact .inr h

/-- A subscriber. -/
theorem sub_run (b : Code) : ∀ (s : App), s.tx = .refreshing →
    (∃ evs, (b.run s).2.log = s.log ++ evs ∧ ∀ x ∈ evs, ¬ x.Noticed) ∧
      ((b.Breaks ∧ (b.run s).1 = false ∧ (b.run s).2.tx = .refreshing) ∨ (b.Opens ∧ (b.run s).1 = false ∧ (b.run s).2.tx = .idle) ∨
        ((¬ b.Breaks ∧ ¬ b.Opens) ∧ (b.run s).1 = true ∧ (b.run s).2.tx = .refreshing)) := by
  induction b with
  | done => exact fun s ht => ⟨⟨[], by simp [Code.run], by simp⟩, .inr (.inr ⟨⟨fun h => (by cases h), fun h => (by cases h)⟩, rfl, ht⟩)⟩
  | panic => exact fun s ht => ⟨⟨[], by simp [Code.run], by simp⟩, .inl ⟨.panic, rfl, ht⟩⟩
  | write clients k ih =>
      intro s ht
      obtain ⟨⟨evs, h1, h2⟩, h3⟩ := ih { tx := s.tx.addClients clients, log := s.log ++ [.wrote clients] } (by rw [ht]; rfl)
      refine ⟨⟨.wrote clients :: evs, ?_, ?_⟩, ?_⟩
      · simp only [Code.run, h1, List.append_assoc, List.singleton_append]
      · intro x hx
        rcases List.mem_cons.mp hx with rfl | hx
        · exact id
        · exact h2 x hx
      · simp only [Code.run]
        rcases h3 with ⟨a, b⟩ | ⟨a, b⟩ | ⟨⟨a, a'⟩, b⟩
        · exact .inl ⟨.write a, b⟩
        · exact .inr (.inl ⟨.write a, b⟩)
        · exact .inr (.inr ⟨⟨fun h => (by cases h; exact a (by assumption)), fun h => (by cases h; exact a' (by assumption))⟩, b⟩)
  | tx body subs k =>
      intro s ht
      simp only [Code.run, ht, up]
      exact ⟨⟨[], by simp, by simp⟩, .inr (.inl ⟨.tx, trivial, trivial⟩)⟩

/-- All subscribers. -/
theorem refreshAll_run (subs : GraphId → Code) (cs : List GraphId) : ∀ (s : App), s.tx = .refreshing →
    ((refreshAll (fun c => (subs c).run) cs s).1 = true ∧ (refreshAll (fun c => (subs c).run) cs s).2.tx = .refreshing ∧ (∀ c ∈ cs, ¬ (subs c).Breaks ∧ ¬ (subs c).Opens) ∧
      ∃ evs, (refreshAll (fun c => (subs c).run) cs s).2.log = s.log ++ evs ∧ Ev.shown ∉ evs ∧ ∀ c, Ev.called c ∈ evs ↔ c ∈ cs) ∨
    ((refreshAll (fun c => (subs c).run) cs s).1 = false ∧ ((refreshAll (fun c => (subs c).run) cs s).2.tx = .refreshing ∧ (∃ c ∈ cs, (subs c).Breaks) ∨
      (refreshAll (fun c => (subs c).run) cs s).2.tx = .idle ∧ ∃ c ∈ cs, (subs c).Opens) ∧
      ∃ evs, (refreshAll (fun c => (subs c).run) cs s).2.log = s.log ++ evs ∧ Ev.shown ∉ evs) := by
  induction cs with
  | nil => exact fun s ht => .inl ⟨rfl, ht, by simp, [], by simp [refreshAll]⟩
  | cons c cs ih =>
      intro s ht
      obtain ⟨⟨evs, h1, h2⟩, h3⟩ := sub_run (subs c) { s with log := s.log ++ [.called c] } ht
      simp only [refreshAll]
      generalize hr : (subs c).run { s with log := s.log ++ [.called c] } = r at *
      obtain ⟨ok, s1⟩ := r
      have hns : Ev.shown ∉ Ev.called c :: evs := by
        intro h
        rcases List.mem_cons.mp h with h | h
        · cases h
        · exact h2 _ h trivial
      have hlog : s1.log = s.log ++ (Ev.called c :: evs) := by
        simp only at h1
        rw [h1]
        simp
      rcases h3 with ⟨a, rfl, b⟩ | ⟨a, rfl, b⟩ | ⟨a, rfl, b⟩
      · exact .inr ⟨rfl, .inl ⟨b, c, List.mem_cons_self .., a⟩, _, hlog, hns⟩
      · exact .inr ⟨rfl, .inr ⟨b, c, List.mem_cons_self .., a⟩, _, hlog, hns⟩
      · simp only
        rcases ih s1 b with ⟨k1, k2, k3, evs2, k4, k5, k6⟩ | ⟨k1, k2, evs2, k4, k5⟩
        · refine .inl ⟨k1, k2, ?_, (Ev.called c :: evs) ++ evs2, ?_, ?_, ?_⟩
          · intro d hd
            rcases List.mem_cons.mp hd with rfl | hd
            · exact a
            · exact k3 d hd
          · rw [k4, hlog, List.append_assoc]
          · rw [List.mem_append]
            exact fun h => h.elim hns k5
          · intro d
            rw [List.mem_append, k6, List.mem_cons, List.mem_cons]
            constructor
            · rintro ((h | h) | h)
              · cases h; exact .inl rfl
              · exact absurd trivial (h2 _ h)
              · exact .inr h
            · rintro (rfl | h)
              · exact .inl (.inl rfl)
              · exact .inr h
        · refine .inr ⟨k1, ?_, (Ev.called c :: evs) ++ evs2, by rw [k4, hlog, List.append_assoc], ?_⟩
          · rcases k2 with ⟨x, d, hd, y⟩ | ⟨x, d, hd, y⟩
            · exact .inl ⟨x, d, List.mem_cons_of_mem _ hd, y⟩
            · exact .inr ⟨x, d, List.mem_cons_of_mem _ hd, y⟩
          · rw [List.mem_append]
            exact fun h => h.elim hns k5

/-- One call of the browser, when no transaction is open. -/
theorem enter_idle (s : App) (e : Entry) (ht : s.tx = .idle) : ∃ evs, (enter s e).log = s.log ++ evs ∧
    ((e.body.Panics ∧ (∃ l cs, 0 < l ∧ (enter s e).tx = .modification l cs) ∧ ∀ x ∈ evs, ¬ x.Noticed) ∨
     (¬ e.body.Panics ∧ (∃ c, e.body.Affects c ∧ (e.subs c).Breaks) ∧ (enter s e).tx = .refreshing ∧ Ev.shown ∉ evs) ∨
     (¬ e.body.Panics ∧ (∃ c, e.body.Affects c ∧ (e.subs c).Opens) ∧ (enter s e).tx = .idle ∧ Ev.shown ∉ evs) ∨
     (e.Quiet ∧ (enter s e).tx = .idle ∧ ∃ evs', evs = evs' ++ [.shown] ∧ Ev.shown ∉ evs' ∧ ∀ c, Ev.called c ∈ evs' ↔ e.body.Affects c)) := by
  obtain ⟨evs, l, cs, h1, h2, h3, h4, h5, h6⟩ := body_run e.body { s with tx := .modification 1 [] } 1 [] (by omega) rfl
  have hup : up s.tx = some (.modification 1 []) := by rw [ht]; rfl
  simp only [enter, Code.run, hup]
  generalize hr : e.body.run { s with tx := .modification 1 [] } = r at *
  obtain ⟨ok, s1⟩ := r
  cases ok with
  | false => exact ⟨evs, h1, .inl ⟨h5.mp rfl, ⟨l, cs, by omega, h3⟩, h2⟩⟩
  | true =>
      have hp : ¬ e.body.Panics := fun h => absurd (h5.mpr h) (by simp)
      obtain ⟨rfl, h7⟩ := h6 rfl
      have hd : s1.tx.down = (.refreshing, some cs) := by
        simp only at h3
        rw [h3]
        rfl
      have hmem : ∀ c, c ∈ cs ↔ e.body.Affects c := fun c => by rw [h7]; simp
      simp only [hd]
      have hsh : Ev.shown ∉ evs := fun h => h2 _ h trivial
      simp only at h1
      generalize hq : refreshAll (fun c => (e.subs c).run) cs { s1 with tx := .refreshing } = q
      have hall := refreshAll_run e.subs cs { s1 with tx := .refreshing } rfl
      rw [hq] at hall
      obtain ⟨ok2, s2⟩ := q
      rcases hall with ⟨rfl, k2, k3, evs2, k4, k5, k6⟩ | ⟨rfl, k2, evs2, k4, k5⟩
      · refine ⟨evs ++ evs2 ++ [.shown], ?_, .inr (.inr (.inr ⟨⟨hp, fun c hc => k3 c ((hmem c).mpr hc)⟩, ?_, evs ++ evs2, rfl, ?_, ?_⟩))⟩
        · simp only at k4 ⊢
          rw [k4, h1]
          simp
        · simp only at k2 ⊢
          rw [k2]
          rfl
        · rw [List.mem_append]
          exact fun h => h.elim hsh k5
        · intro c
          rw [List.mem_append, k6, hmem]
          exact ⟨fun h => h.elim (fun h => absurd trivial (h2 _ h)) id, .inr⟩
      · refine ⟨evs ++ evs2, ?_, ?_⟩
        · simp only at k4 ⊢
          rw [k4, h1]
          simp
        · have hns : Ev.shown ∉ evs ++ evs2 := by
            rw [List.mem_append]
            exact fun h => h.elim hsh k5
          rcases k2 with ⟨x, c, hc, y⟩ | ⟨x, c, hc, y⟩
          · exact .inr (.inl ⟨hp, ⟨c, (hmem c).mp hc, y⟩, x, hns⟩)
          · exact .inr (.inr (.inl ⟨hp, ⟨c, (hmem c).mp hc, y⟩, x, hns⟩))

theorem play_frozen (es : List Entry) : ∀ (s : App) (l : Nat) (cs : List GraphId), 0 < l → s.tx = .modification l cs →
    ∃ evs, (play s es).log = s.log ++ evs ∧ ∀ x ∈ evs, ¬ x.Noticed := by
  induction es with
  | nil => exact fun s l cs _ _ => ⟨[], by simp [play], by simp⟩
  | cons e es ih =>
      intro s l cs hl ht
      obtain ⟨evs, l', cs', h1, h2, h3, h4, _⟩ := body_run (.tx e.body e.subs .done) s l cs hl ht
      obtain ⟨evs2, k1, k2⟩ := ih (enter s e) l' cs' (by omega) h3
      refine ⟨evs ++ evs2, ?_, fun x hx => (List.mem_append.mp hx).elim (h2 x) (k2 x)⟩
      show (play (enter s e) es).log = _
      rw [k1, show (enter s e).log = _ from h1, List.append_assoc]

theorem refreshAll_log (subs : GraphId → Code) (cs : List GraphId) (ih : ∀ c (t : TxState) (log : List Ev),
      (subs c).run ⟨t, log⟩ = (((subs c).run ⟨t, []⟩).1, ⟨((subs c).run ⟨t, []⟩).2.tx, log ++ ((subs c).run ⟨t, []⟩).2.log⟩)) :
    ∀ (t : TxState) (log : List Ev), refreshAll (fun c => (subs c).run) cs ⟨t, log⟩ =
      ((refreshAll (fun c => (subs c).run) cs ⟨t, []⟩).1,
        ⟨(refreshAll (fun c => (subs c).run) cs ⟨t, []⟩).2.tx, log ++ (refreshAll (fun c => (subs c).run) cs ⟨t, []⟩).2.log⟩) := by
  induction cs with
  | nil => intro t log; simp [refreshAll]
  | cons c cs ihc =>
      intro t log
      simp only [refreshAll, List.nil_append]
      rw [ih c t (log ++ [Ev.called c]), ih c t [Ev.called c]]
      cases h : ((subs c).run ⟨t, []⟩).1
      · simp
      · simp only
        rw [ihc _ (log ++ [Ev.called c] ++ _), ihc _ ([Ev.called c] ++ _)]
        simp

/-- The past does not matter but for the state of the transaction. -/
theorem run_log (b : Code) : ∀ (t : TxState) (log : List Ev), b.run ⟨t, log⟩ = ((b.run ⟨t, []⟩).1, ⟨(b.run ⟨t, []⟩).2.tx, log ++ (b.run ⟨t, []⟩).2.log⟩) := by
  induction b with
  | done => intro t log; simp [Code.run]
  | panic => intro t log; simp [Code.run]
  | write clients k ih =>
      intro t log
      simp only [Code.run, List.nil_append]
      rw [ih _ (log ++ _), ih _ [_]]
      simp
  | tx body subs k ihb ihs ihk =>
      intro t log
      simp only [Code.run]
      cases up t with
      | none => simp
      | some t' =>
          simp only
          rw [ihb t' log]
          cases h : (body.run ⟨t', []⟩).1
          · rw [show body.run ⟨t', []⟩ = (false, (body.run ⟨t', []⟩).2) from by rw [← h]]
          · rw [show body.run ⟨t', []⟩ = (true, (body.run ⟨t', []⟩).2) from by rw [← h]]
            simp only
            cases hd : (body.run ⟨t', []⟩).2.tx.down with
            | mk t2 o =>
                cases o with
                | none =>
                    simp only
                    rw [ihk t2 (log ++ _), ihk t2 (body.run ⟨t', []⟩).2.log]
                    simp
                | some clients =>
                    simp only
                    rw [refreshAll_log subs clients ihs t2 (log ++ _), refreshAll_log subs clients ihs t2 (body.run ⟨t', []⟩).2.log]
                    cases h2 : (refreshAll (fun c => (subs c).run) clients ⟨t2, []⟩).1
                    · simp
                    · simp only
                      rw [ihk _ (log ++ _ ++ _ ++ _), ihk _ (_ ++ _)]
                      simp

theorem play_log (es : List Entry) : ∀ (s : App), (play s es).tx = (play ⟨s.tx, []⟩ es).tx ∧ (play s es).log = s.log ++ (play ⟨s.tx, []⟩ es).log := by
  induction es with
  | nil => intro s; simp [play]
  | cons e es ih =>
      intro s
      have h1 : enter s e = ⟨(enter ⟨s.tx, []⟩ e).tx, s.log ++ (enter ⟨s.tx, []⟩ e).log⟩ := by
        unfold enter
        rw [run_log _ s.tx s.log]
      have h2 := ih (enter s e)
      have h3 := ih (enter ⟨s.tx, []⟩ e)
      have e1 : ∀ t, play t (e :: es) = play (enter t e) es := fun _ => rfl
      rw [e1, e1, h2.1, h2.2, h3.1, h3.2, h1]
      simp

theorem play_append (s : App) (a b : List Entry) : play s (a ++ b) = play (play s a) b := List.foldl_append

theorem play_quiet (es : List Entry) (h : ∀ e ∈ es, e.Quiet) : ∀ (s : App), s.tx = .idle → (play s es).tx = .idle := by
  induction es with
  | nil => exact fun s hs => hs
  | cons e es ih =>
      intro s hs
      refine ih (fun x hx => h x (List.mem_cons_of_mem _ hx)) _ ?_
      have hq := h e (List.mem_cons_self ..)
      obtain ⟨_, _, h1 | h1 | h1 | h1⟩ := enter_idle s e hs
      · exact absurd h1.1 hq.1
      · obtain ⟨c, hc, hb⟩ := h1.2.1
        exact absurd hb (hq.2 c hc).1
      · exact h1.2.2.1
      · exact h1.2.1

/-! ## Theorems -/

/-- **C88**, without panics: after every call of the browser, all subscribers that depend on what was set have been called, no others, and then the changes are shown. -/
theorem C88_working_partial (before : List Entry) (hb : ∀ x ∈ before, x.Quiet) (e : Entry) (he : e.Quiet) :
    ∃ evs, (play {} (before ++ [e])).log = (play {} before).log ++ evs ++ [.shown] ∧ Ev.shown ∉ evs ∧ ∀ c, Ev.called c ∈ evs ↔ e.body.Affects c := by
  have hi := play_quiet before hb {} rfl
  rw [play_append]
  obtain ⟨evs, hl, h1 | h1 | h1 | h1⟩ := enter_idle (play {} before) e hi
  · exact absurd h1.1 he.1
  · obtain ⟨c, hc, hx⟩ := h1.2.1
    exact absurd hx (he.2 c hc).1
  · obtain ⟨c, hc, hx⟩ := h1.2.1
    exact absurd hx (he.2 c hc).2
  · obtain ⟨evs', rfl, h2, h3⟩ := h1.2.2
    exact ⟨evs', by rw [List.append_assoc]; exact hl, h2, h3⟩

/-- **C88**, violated: after a panic of a callback, whatever the browser calls later, no subscriber is ever called again, and no change of the document is ever shown again. -/
theorem C88_frozen_violated (before : List Entry) (hb : ∀ x ∈ before, x.Quiet) (e : Entry) (he : e.body.Panics) (after : List Entry) :
    ∃ evs, (play {} (before ++ e :: after)).log = (play {} before).log ++ evs ∧ ∀ x ∈ evs, ¬ x.Noticed := by
  have hi := play_quiet before hb {} rfl
  rw [play_append]
  show ∃ evs, (play (enter (play {} before) e) after).log = _ ∧ _
  obtain ⟨evs, hl, h1 | h1 | h1 | h1⟩ := enter_idle (play {} before) e hi
  · obtain ⟨_, ⟨l, cs, h2, h3⟩, h4⟩ := h1
    obtain ⟨evs2, k1, k2⟩ := play_frozen after _ l cs h2 h3
    exact ⟨evs ++ evs2, by rw [k1, hl, List.append_assoc], fun x hx => (List.mem_append.mp hx).elim (h4 x) (k2 x)⟩
  · exact absurd he h1.1
  · exact absurd he h1.1
  · exact absurd he h1.1.1

/-- **C88**, violated: after a panic of a subscriber the changes are not shown, and the next call of the browser is lost altogether. After that, the program works as if it had just been started. -/
theorem C88_lost_violated (before : List Entry) (hb : ∀ x ∈ before, x.Quiet) (e : Entry) (he : ¬ e.body.Panics)
    (hs : ∃ c, e.body.Affects c ∧ (e.subs c).Breaks) (ho : ∀ c, e.body.Affects c → ¬ (e.subs c).Opens) (lost : Entry) (after : List Entry) :
    ∃ evs, (play {} (before ++ e :: lost :: after)).log = (play {} before).log ++ evs ++ (play {} after).log ∧ Ev.shown ∉ evs ∧
      (play {} (before ++ [e])).log = (play {} before).log ++ evs := by
  have hi := play_quiet before hb {} rfl
  rw [play_append, play_append]
  show ∃ evs, (play (enter (enter (play {} before) e) lost) after).log = _ ∧ _ ∧ (enter (play {} before) e).log = _
  obtain ⟨evs, hl, h1 | h1 | h1 | h1⟩ := enter_idle (play {} before) e hi
  · exact absurd h1.1 he
  · refine ⟨evs, ?_, h1.2.2.2, hl⟩
    have h2 : enter (enter (play {} before) e) lost = ⟨.idle, (enter (play {} before) e).log⟩ := by
      generalize enter (play {} before) e = m at h1 ⊢
      simp only [enter, Code.run, h1.2.2.1, up]
    rw [h2, (play_log after _).2, hl]
  · obtain ⟨c, hc, hx⟩ := h1.2.1
    exact absurd hx (ho c hc)
  · obtain ⟨c, hc, hx⟩ := hs
    exact absurd hx (h1.1.2 c hc).1

/-- **C88**, if the panic is that of a subscriber that opens a transaction: the changes are not shown, but from the next call on the program works as if it had just been started. -/
theorem C88_recovers_partial (before : List Entry) (hb : ∀ x ∈ before, x.Quiet) (e : Entry) (he : ¬ e.body.Panics)
    (hs : ∀ c, e.body.Affects c → ¬ (e.subs c).Breaks) (after : List Entry) :
    (play {} (before ++ e :: after)).log = (play {} (before ++ [e])).log ++ (play {} after).log := by
  have hi := play_quiet before hb {} rfl
  rw [play_append, play_append]
  show (play (enter (play {} before) e) after).log = (enter (play {} before) e).log ++ _
  have ht : (enter (play {} before) e).tx = .idle := by
    obtain ⟨evs, hl, h1 | h1 | h1 | h1⟩ := enter_idle (play {} before) e hi
    · exact absurd h1.1 he
    · obtain ⟨c, hc, hx⟩ := h1.2.1
      exact absurd hx (hs c hc)
    · exact h1.2.2.1
    · exact h1.2.1
  rw [(play_log after _).2, ht]

/-! ## The theorems apply -/

/-- A click that sets a value with one subscriber. -/
def click : Entry := ⟨.tx (.write [⟨.client, 3⟩] .done) (fun _ => .done) .done, fun _ => .done⟩
/-- The same, and then a panic. -/
def broken : Entry := ⟨.tx (.write [⟨.client, 3⟩] .done) (fun _ => .done) .panic, fun _ => .done⟩
/-- The subscriber panics. -/
def brokenSub : Entry := ⟨.tx (.write [⟨.client, 3⟩] .done) (fun _ => .done) .done, fun _ => .panic⟩
/-- The subscriber sets a value. -/
def setting : Entry := ⟨.tx (.write [⟨.client, 3⟩] .done) (fun _ => .done) .done, fun _ => .tx (.write [] .done) (fun _ => .done) .done⟩

example : (play {} [click, click]).log = [.wrote [⟨.client, 3⟩], .called ⟨.client, 3⟩, .shown, .wrote [⟨.client, 3⟩], .called ⟨.client, 3⟩, .shown] := by decide +kernel
example : (play {} [click, broken, click, click]).log =
    [.wrote [⟨.client, 3⟩], .called ⟨.client, 3⟩, .shown, .wrote [⟨.client, 3⟩], .wrote [⟨.client, 3⟩], .wrote [⟨.client, 3⟩]] := by decide +kernel
example : (play {} [brokenSub, click, click]).log = [.wrote [⟨.client, 3⟩], .called ⟨.client, 3⟩, .wrote [⟨.client, 3⟩], .called ⟨.client, 3⟩, .shown] := by decide +kernel
example : (play {} [setting, click]).log = [.wrote [⟨.client, 3⟩], .called ⟨.client, 3⟩, .wrote [⟨.client, 3⟩], .called ⟨.client, 3⟩, .shown] := by decide +kernel

example : click.Quiet := by
  refine ⟨?_, fun c _ => ⟨?_, ?_⟩⟩
  · intro h
    cases h with
    | body h => cases h with | write h => cases h
    | next h => cases h
  · intro h; cases h
  · intro h; cases h
example : broken.body.Panics := .next .panic
example : ¬ brokenSub.body.Panics ∧ brokenSub.body.Affects ⟨.client, 3⟩ ∧ (brokenSub.subs ⟨.client, 3⟩).Breaks ∧ ∀ c, ¬ (brokenSub.subs c).Opens := by
  refine ⟨?_, .body (.here (by simp)), .panic, fun c h => by cases h⟩
  intro h
  cases h with
  | body h => cases h with | write h => cases h
  | next h => cases h
example : ∀ c, ¬ (setting.subs c).Breaks := fun c h => by cases h

end Verif.Reactive.Panics

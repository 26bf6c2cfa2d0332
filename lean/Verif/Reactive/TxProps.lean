import Verif.Reactive.Tx
import Verif.Reactive.GraphLemmas
/-!
# C06: the transaction state machine

`open_` is the beginning of `Dependencies::transaction` (mod.rs:43-44), `close` its
end (mod.rs:50-60) with subscribers that do not open transactions themselves (those
that do are covered by `C06_panic_iff`).
-/
namespace Verif.Reactive

inductive TxOp where
  | open_
  | close
  /-- `report_set` with these affected subscribers (mod.rs:66-84). -/
  | affect (clients : List GraphId)

/-- dependencies/mod.rs:43-64 seen by the state machine. -/
def TxState.step (s : TxState) : TxOp → Except Err TxState
  | .open_ => s.up
  | .affect cs => .ok (s.addClients cs)
  | .close =>
      match s.down with
      | (s, none) => .ok s
      | (s, some _) => .ok s.moveToIdle

def TxState.run (s : TxState) : List TxOp → Except Err TxState
  | [] => .ok s
  | op :: ops =>
      match s.step op with
      | .ok s => s.run ops
      | .error e => .error e

/-! ## Specification: number of open transactions -/

/-- Number of transactions open after `ops`, starting with `n` open ones; `none` when
a transaction is closed that was never opened, or more than 65535 are nested. -/
def nesting (n : Nat) : List TxOp → Option Nat
  | [] => some n
  | .open_ :: ops => if n < 65535 then nesting (n + 1) ops else none
  | .close :: ops => match n with
    | 0 => none
    | n + 1 => nesting n ops
  | .affect _ :: ops => nesting n ops

/-- The state has nesting level `n`. -/
def TxState.hasLevel : TxState → Nat → Prop
  | .idle, n => n = 0
  | .modification l _, n => l = n ∧ 0 < n
  | .refreshing, _ => False

/-- **C06.** A properly bracketed use of transactions, to any depth up to 65535, never
panics; afterwards the state's level is the number of open transactions, and the
state is idle exactly when all of them are closed. -/
theorem C06_level_counts_open (ops : List TxOp) (n : Nat) (h : nesting 0 ops = some n) :
    ∃ s, TxState.run .idle ops = .ok s ∧ s.hasLevel n ∧ (s = .idle ↔ n = 0) := by
  have gen : ∀ (ops : List TxOp) m n s, TxState.hasLevel s m → nesting m ops = some n →
      ∃ s', s.run ops = .ok s' ∧ s'.hasLevel n := by
    intro ops
    induction ops with
    | nil => intro m n s h1 h2; simp [nesting] at h2; subst h2; exact ⟨s, rfl, h1⟩
    | cons op ops ih =>
      intro m n s h1 h2
      cases op with
      | open_ =>
        simp only [nesting] at h2
        split at h2
        · rename_i hm
          cases s with
          | idle =>
            simp only [TxState.hasLevel] at h1; subst h1
            exact ih 1 n (.modification 1 []) ⟨rfl, Nat.one_pos⟩ h2
          | modification l c =>
            obtain ⟨rfl, h1⟩ := h1
            have : l + 1 < 65536 := by omega
            simp only [TxState.run, TxState.step, TxState.up, this, ↓reduceIte]
            exact ih _ n _ ⟨rfl, by omega⟩ h2
          | refreshing => exact h1.elim
        · cases h2
      | close =>
        cases m with
        | zero => simp [nesting] at h2
        | succ m =>
          simp only [nesting] at h2
          cases s with
          | idle => simp [TxState.hasLevel] at h1
          | modification l c =>
            obtain ⟨rfl, h1⟩ := h1
            simp only [TxState.run, TxState.step, TxState.down, Nat.add_sub_cancel]
            by_cases hm : m = 0
            · subst hm
              simp only [↓reduceIte]
              exact ih 0 n .idle rfl h2
            · simp only [hm, ↓reduceIte]
              exact ih m n _ ⟨rfl, by omega⟩ h2
          | refreshing => exact h1.elim
      | affect cs =>
        simp only [nesting] at h2
        refine ih m n (s.addClients cs) ?_ h2
        cases s <;> simpa [TxState.addClients, TxState.hasLevel] using h1
  obtain ⟨s, h1, h2⟩ := gen ops 0 n .idle rfl h
  refine ⟨s, h1, h2, ?_⟩
  cases s with
  | idle => simp [TxState.hasLevel] at h2; simp [h2]
  | modification l c => have := h2.2; simp; omega
  | refreshing => exact h2.elim

/-- **C06 (collected subscribers).** In a transaction whose body is properly bracketed,
closing it hands out exactly the subscribers reported since it was opened, each once,
in id order. -/
theorem C06_outermost_hands_out (body : List TxOp) (s : TxState)
    (hb : nesting 0 body = some 0) (h : TxState.run .idle (.open_ :: body) = .ok s) :
    ∃ cs, s.down = (.refreshing, some cs) ∧
      cs.Pairwise GraphId.lt ∧ ∀ x, x ∈ cs ↔ ∃ l, TxOp.affect l ∈ body ∧ x ∈ l := by
  have gen : ∀ (ops : List TxOp) m n c, nesting m ops = some n → Asc c →
      TxState.run (.modification (m + 1) c) ops = .ok s →
      ∃ c', s = .modification (n + 1) c' ∧ Asc c' ∧
        ∀ x, x ∈ c' ↔ x ∈ c ∨ ∃ l, TxOp.affect l ∈ ops ∧ x ∈ l := by
    intro ops
    induction ops with
    | nil =>
      intro m n c h1 h2 h3
      simp [nesting] at h1; subst h1
      simp only [TxState.run, Except.ok.injEq] at h3
      exact ⟨c, h3.symm, h2, by simp⟩
    | cons op ops ih =>
      intro m n c h1 h2 h3
      cases op with
      | open_ =>
        simp only [nesting] at h1
        split at h1
        · simp only [TxState.run, TxState.step, TxState.up] at h3
          split at h3
          · rename_i hs
            split at hs
            · cases hs
              obtain ⟨c', e1, e2, e3⟩ := ih _ _ _ h1 h2 h3
              exact ⟨c', e1, e2, by intro x; simp [e3 x]⟩
            · cases hs
          · cases h3
        · cases h1
      | close =>
        cases m with
        | zero => simp [nesting] at h1
        | succ m =>
          simp only [nesting] at h1
          simp only [TxState.run, TxState.step, TxState.down, Nat.add_sub_cancel,
            Nat.add_eq_zero_iff, Nat.one_ne_zero, and_false, ↓reduceIte] at h3
          obtain ⟨c', e1, e2, e3⟩ := ih _ _ _ h1 h2 h3
          exact ⟨c', e1, e2, by intro x; simp [e3 x]⟩
      | affect cs =>
        simp only [nesting] at h1
        simp only [TxState.run, TxState.step, TxState.addClients] at h3
        obtain ⟨c', e1, e2, e3⟩ := ih _ _ _ h1 (asc_sExtend h2) h3
        refine ⟨c', e1, e2, ?_⟩
        intro x
        rw [e3 x, mem_sExtend]
        simp only [List.mem_cons, TxOp.affect.injEq]
        constructor
        · rintro ((h | h) | ⟨l, h, hx⟩)
          · exact Or.inl h
          · exact Or.inr ⟨cs, Or.inl rfl, h⟩
          · exact Or.inr ⟨l, Or.inr h, hx⟩
        · rintro (h | ⟨l, rfl | h, hx⟩)
          · exact Or.inl (Or.inl h)
          · exact Or.inl (Or.inr hx)
          · exact Or.inr ⟨l, h, hx⟩
  obtain ⟨c', rfl, e2, e3⟩ := gen body 0 0 [] hb (by simp) h
  refine ⟨c', by simp [TxState.down], e2, ?_⟩
  intro x; simp [e3 x]

/-- Two nested transactions, three reports: both report the same subscriber. -/
example : nesting 0 [.affect [⟨.client, 5⟩], .open_, .affect [⟨.client, 3⟩, ⟨.client, 5⟩], .close] = some 0 ∧
    (TxState.run .idle [.open_, .affect [⟨.client, 5⟩], .open_, .affect [⟨.client, 3⟩, ⟨.client, 5⟩], .close]) =
      .ok (.modification 1 [⟨.client, 3⟩, ⟨.client, 5⟩]) := ⟨rfl, rfl⟩

/-- **C06 (the only panic).** From any state, opening a transaction panics exactly when
subscribers are being refreshed; closing and reporting never panic. -/
theorem C06_panic_iff (s : TxState) (op : TxOp) :
    s.step op = .error .panic ↔ s = .refreshing ∧ op = .open_ := by
  cases op with
  | open_ => 
    cases s <;> simp [TxState.step, TxState.up]
    split <;> simp
  | close => simp only [TxState.step]; split <;> simp
  | affect cs => simp [TxState.step]

end Verif.Reactive

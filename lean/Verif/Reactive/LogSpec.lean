import Verif.Reactive.Spec
/-!
# Specification: what can be read off the log of an execution
-/
namespace Verif.Reactive

variable {V : Type}

/-- The value most recently given to the callback of the subscription `c`. -/
def lastDelivered (c : GraphId) (log : List (Ev V)) : Option V :=
  log.foldl (fun acc e => match e with
    | .deliver c' v _ _ _ => if c' = c then some v else acc
    | _ => acc) none

/-- Is a connection of the external source `x` open? -/
def opened (x : GraphId) (log : List (Ev V)) : Bool :=
  log.foldl (fun acc e => match e with
    | .connect y => if y = x then true else acc
    | .disconnect y => if y = x then false else acc
    | _ => acc) false

/-- Events about external connections. -/
def Ev.isConn : Ev V → Bool
  | .connect _ => true
  | .disconnect _ => true
  | _ => false

/-- The callback of `c` is called as part of a run of its subscription that has just
begun: only external connections may have been opened or closed since. -/
def Started (c : GraphId) (pre : List (Ev V)) : Prop :=
  ∃ before e mid, pre = before ++ e :: mid ∧ (∀ x ∈ mid, x.isConn = true) ∧
    (e = .refreshed c ∨ ∃ t a, e = .subscribed c t a)

/-! ## Transactions -/

/-- Phase of the transaction monitor. -/
inductive Phase where
  | normal
  /-- The outermost transaction has just been closed. -/
  | closing
  /-- These subscribers are still to be refreshed, in this order. -/
  | refreshing (todo : List GraphId)
  deriving DecidableEq

/-- State of the transaction monitor: nesting depth, and the subscribers affected by
writes since the outermost transaction was opened. -/
structure Mon where
  level : Nat := 0
  affected : List GraphId := []
  phase : Phase := .normal

/-- One event of a correct log. -/
def Mon.Step (m : Mon) (e : Ev V) (m' : Mon) : Prop :=
  match m.phase, e with
  | .normal, .begin_ =>
      m' = { m with level := m.level + 1, affected := if m.level = 0 then [] else m.affected }
  | .normal, .end_ =>
      m' = { m with level := m.level - 1, phase := if m.level = 1 then .closing else .normal }
  | .normal, .wrote _ cs => 0 < m.level ∧ m' = { m with affected := m.affected ++ cs }
  | .normal, .finish _ => False
  | .normal, .refreshed _ => False
  | .normal, .skipped _ => False
  | .normal, .idle => False
  | .normal, _ => m' = m
  | .closing, .finish cs =>
      (∀ c, c ∈ cs ↔ c ∈ m.affected) ∧ (∀ c ∈ cs, c.kind = .client) ∧
      cs.Pairwise (fun a b => a.num < b.num) ∧ m' = { m with phase := .refreshing cs }
  | .closing, _ => False
  | .refreshing todo, .refreshed c => ∃ rest, todo = c :: rest ∧ m' = { m with phase := .refreshing rest }
  | .refreshing todo, .skipped c => ∃ rest, todo = c :: rest ∧ m' = { m with phase := .refreshing rest }
  | .refreshing todo, .idle => todo = [] ∧ m' = { m with phase := .normal }
  | .refreshing _, .begin_ => False
  | .refreshing _, .wrote _ _ => False
  | .refreshing _, .finish _ => False
  | .refreshing _, _ => m' = m

/-- The monitor accepts the log and ends in the given state. -/
inductive Mon.Runs : List (Ev V) → Mon → Prop where
  | nil : Mon.Runs [] {}
  | snoc {log m e m'} : Mon.Runs log m → m.Step e m' → Mon.Runs (log ++ [e]) m'

end Verif.Reactive

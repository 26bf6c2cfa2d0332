import Verif.Reactive.Graph
/-!
# Model of the transaction state machine

Source: `crates/vertigo/src/computed/dependencies/transaction_state.rs`.
-/
namespace Verif.Reactive

/-- Why an execution of the model stops. -/
inductive Err where
  /-- A Rust panic: transaction opened while refreshing (transaction_state.rs:48). -/
  | panic
  /-- The u16 nesting counter overflows (transaction_state.rs:45; a panic in debug
  builds). -/
  | overflow
  /-- The program does something no Rust program can do (reads a node that does not
  exist any more). -/
  | bad
  /-- The given recursion limit of the model was exceeded (a stack overflow, for
  instance because of a cyclic definition). -/
  | deep
  deriving Repr, DecidableEq

/-- transaction_state.rs:5-14. -/
inductive TxState where
  | idle
  | modification (level : Nat) (clients : List GraphId)
  | refreshing
  deriving Repr, DecidableEq

/-- transaction_state.rs:33-53. -/
def TxState.up : TxState → Except Err TxState
  | .idle => .ok (.modification 1 [])
  | .modification level clients =>
      if level + 1 < 65536 then .ok (.modification (level + 1) clients) else .error .overflow
  | .refreshing => .error .panic

/-- transaction_state.rs:55-79.  `level - 1` at level 0 would be an underflow; the
level is never 0 (`TxState.Ok`).  The `log::error!` branches keep the state. -/
def TxState.down : TxState → TxState × Option (List GraphId)
  | .idle => (.idle, none)
  | .modification level clients =>
      if level - 1 = 0 then (.refreshing, some clients)
      else (.modification (level - 1) clients, none)
  | .refreshing => (.refreshing, none)

/-- transaction_state.rs:81-99. -/
def TxState.moveToIdle : TxState → TxState
  | .idle => .idle
  | .modification l c => .modification l c
  | .refreshing => .idle

/-- transaction_state.rs:101-110. -/
def TxState.addClients (s : TxState) (clients : List GraphId) : TxState :=
  match s with
  | .modification level c => .modification level (sExtend c clients)
  | s => s

end Verif.Reactive

import Verif.Watch.Model
/-!
# C62: specification

What the steps of a run mean, and when there is nothing left to do. Nothing here uses the functions of the model.
-/
namespace Verif.Watch

/-- The files of an event matter if one of them is not below an excluded directory. -/
def Matters (excludes : List Path) (paths : List Path) : Prop := ∃ p ∈ paths, ∀ e ∈ excludes, ¬ e <+: p

instance : Decidable (Matters excludes paths) := by unfold Matters; infer_instance

/-- How many edits of files that matter there are in a run. -/
def edits (excludes : List Path) : List Step → Nat
  | [] => 0
  | .edit paths :: steps => (if Matters excludes paths then 1 else 0) + edits excludes steps
  | _ :: steps => edits excludes steps

/-- Every event was reported, and the loop has seen it. -/
def Quiet (w : World) : Prop := w.events = [] ∧ w.woken = false

/-- Every event was reported, the loop has seen it, nothing is being built and the server was checked. -/
def Settled (w : World) : Prop := Quiet w ∧ ∀ t ∈ w.tasks, t.phase = .serving false

/-- A task is inside of a build, or is starting the server. -/
def Task.AtWork (t : Task) : Prop := (∃ since, t.phase = .building since) ∨ ∃ checking, t.phase = .starting checking

/-- The loop never goes on while something is being built: no edit is noticed before the build of the one before is finished. -/
def Calm (w : World) : List Step → Prop
  | [] => True
  | .loop :: steps => (w.woken = true → ∀ t ∈ w.tasks, ¬ t.AtWork) ∧ Calm (w.step .loop) steps
  | s :: steps => Calm (w.step s) steps

/-- Nothing is left to do on a connection: the helper has seen everything that was sent, the stream is not going to be polled,
and no message is on the way. -/
def Conn.Idle (c : Conn) (w : World) : Prop := c.seen = w.sent ∧ c.woken = false ∧ c.wire = []

/-- The messages that tell a version. -/
def versions (messages : List String) : List String := messages.filter fun m => m ≠ "Building" ∧ m ≠ "Errors"

/-! Instances, for examples. -/

instance : Decidable (Quiet w) := by unfold Quiet; infer_instance

instance : Decidable (Settled w) := by unfold Settled; infer_instance

instance (t : Task) : Decidable t.AtWork :=
  match t with
  | ⟨_, _, .sleeping⟩ => .isFalse (by simp [Task.AtWork])
  | ⟨_, _, .building n⟩ => .isTrue (.inl ⟨n, rfl⟩)
  | ⟨_, _, .starting c⟩ => .isTrue (.inr ⟨c, rfl⟩)
  | ⟨_, _, .serving _⟩ => .isFalse (by simp [Task.AtWork])

def decideCalm : (w : World) → (steps : List Step) → Decidable (Calm w steps)
  | _, [] => .isTrue trivial
  | w, .loop :: steps => by
      have := decideCalm (w.step .loop) steps
      unfold Calm; infer_instance
  | w, .edit p :: steps => decideCalm (w.step (.edit p)) steps
  | w, .event :: steps => decideCalm (w.step .event) steps
  | w, .task v s :: steps => decideCalm (w.step (.task v s)) steps
  | w, .visit :: steps => decideCalm (w.step .visit) steps
  | w, .page i s :: steps => decideCalm (w.step (.page i s)) steps
  | w, .close i :: steps => decideCalm (w.step (.close i)) steps

instance : Decidable (Calm w steps) := decideCalm w steps

instance (c : Conn) (w : World) : Decidable (c.Idle w) := by unfold Conn.Idle; infer_instance

end Verif.Watch

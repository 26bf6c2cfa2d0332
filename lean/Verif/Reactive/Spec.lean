import Verif.Reactive.Machine
/-!
# Specification: evaluation from scratch, without any cache
-/
namespace Verif.Reactive

/-- `Den vals defs (.inl id) v`: node `id` has the value `v`, where a value node has its
current content and a computed node has the result of running its closure on the values
of the nodes it reads. `Den vals defs (.inr p) v`: the closure `p` returns `v`. -/
inductive Den {V : Type} (vals : GraphId → Option V) (defs : GraphId → Option (Prog V)) :
    (GraphId ⊕ Prog V) → V → Prop where
  | value {id v} : id.kind = .value → vals id = some v → Den vals defs (.inl id) v
  | computed {id p v} : id.kind = .computed → defs id = some p → Den vals defs (.inr p) v →
      Den vals defs (.inl id) v
  | ret {v} : Den vals defs (.inr (.ret v)) v
  | read {id w k v} : Den vals defs (.inl id) w → Den vals defs (.inr (k w)) v →
      Den vals defs (.inr (.read id k)) v

/-- The value of a node computed from scratch from the current contents of all values. -/
abbrev Scratch {V : Type} (vals : GraphId → Option V) (defs : GraphId → Option (Prog V))
    (id : GraphId) (v : V) : Prop := Den vals defs (.inl id) v

/-- From-scratch evaluation is deterministic. -/
theorem Den.det {V : Type} {vals : GraphId → Option V} {defs : GraphId → Option (Prog V)} {x v w}
    (h1 : Den vals defs x v) (h2 : Den vals defs x w) : v = w := by
  induction h1 generalizing w with
  | value hk hv =>
    cases h2 with
    | value _ hw => rw [hv] at hw; exact Option.some.inj hw
    | computed hk' _ _ => rw [hk] at hk'; cases hk'
  | computed hk hd _ ih =>
    cases h2 with
    | value hk' _ => rw [hk] at hk'; cases hk'
    | computed _ hd' hp => rw [hd] at hd'; cases hd'; exact ih hp
  | ret => cases h2; rfl
  | read _ _ ih1 ih2 =>
    cases h2 with
    | read ha hb => have := ih1 ha; subst this; exact ih2 hb

end Verif.Reactive

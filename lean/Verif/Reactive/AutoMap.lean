/-!
# C12: AutoMap

Source: `crates/vertigo/src/computed/auto_map.rs`.
-/
namespace Verif.AutoMap

variable {K V : Type} [DecidableEq K]

/-- What the constructor function given to `AutoMap::new` does: it may look up other
entries of the map it receives (auto_map.rs:6) and finally returns the new entry. -/
inductive Mk (K V : Type) where
  | ret (v : V)
  | get (key : K) (cont : V → Mk K V)

/-- auto_map.rs:26-30.  `values` is the `HashMap`.  `calls` (keys of the constructor
calls so far), `active` (constructor calls in progress) and `reentrant` (a constructor
asked for the very key it was constructing) are ghost state. -/
structure St (K V : Type) where
  values : K → Option V := fun _ => none
  calls : List K := []
  active : List K := []
  reentrant : Bool := false

/-- Run a constructor body; `look` looks up another key. -/
def Mk.run (look : St K V → K → Option (St K V × V)) : Mk K V → St K V → Option (St K V × V)
  | .ret v, s => some (s, v)
  | .get key cont, s =>
      match look s key with
      | none => none
      | some (s, v) => (cont v).run look s

/-- auto_map.rs:53-68 (`get`).  `create n key` is the body of the `n`-th constructor
call (so that a constructor may return a different object each time).  `fuel` limits
the nesting of constructor calls; `none` means it was exceeded. -/
def get (create : Nat → K → Mk K V) : Nat → St K V → K → Option (St K V × V)
  | 0, _, _ => none
  | fuel + 1, s, key =>
      match s.values key with
      | some v => some (s, v)
      | none =>
          let s1 : St K V := { s with
            calls := s.calls ++ [key]
            active := key :: s.active
            reentrant := s.reentrant || decide (key ∈ s.active) }
          match (create s.calls.length key).run (get create fuel) s1 with
          | none => none
          | some (s2, v) =>
              some ({ s2 with
                values := fun x => if x = key then some v else s2.values x
                active := s2.active.tail }, v)

/-- A sequence of lookups and their results. -/
def lookups (create : Nat → K → Mk K V) (fuel : Nat) :
    St K V → List K → Option (St K V × List V)
  | s, [] => some (s, [])
  | s, key :: keys =>
      match get create fuel s key with
      | none => none
      | some (s, v) =>
          match lookups create fuel s keys with
          | none => none
          | some (s, vs) => some (s, v :: vs)

/-- What a lookup may do to the map. -/
structure Grow (s s' : St K V) : Prop where
  keep : ∀ k v, s.values k = some v → s'.reentrant = false → s'.values k = some v
  active : s'.active = s.active
  mono : s.reentrant = true → s'.reentrant = true

structure Inv (s : St K V) : Prop where
  nodup : s.calls.Nodup
  called : ∀ k, k ∈ s.calls ↔ (k ∈ s.active ∨ s.values k ≠ none)
  act : ∀ k ∈ s.active, s.values k = none

omit [DecidableEq K] in
theorem Grow.trans {a b c : St K V} (h1 : Grow a b) (h2 : Grow b c) : Grow a c :=
  ⟨fun k v h hr => h2.keep k v (h1.keep k v h (by
      cases hb : b.reentrant
      · rfl
      · rw [h2.mono hb] at hr; cases hr)) hr,
    h2.active.trans h1.active, fun h => h2.mono (h1.mono h)⟩

omit [DecidableEq K] in
theorem Mk.run_spec {look : St K V → K → Option (St K V × V)}
    (hl : ∀ s k s' v, look s k = some (s', v) →
      Grow s s' ∧ (s'.reentrant = false → Inv s → Inv s' ∧ s'.values k = some v))
    (m : Mk K V) {s s' v} (h : m.run look s = some (s', v)) :
    Grow s s' ∧ (s'.reentrant = false → Inv s → Inv s') := by
  induction m generalizing s with
  | ret w => simp [Mk.run] at h; obtain ⟨rfl, rfl⟩ := h; exact ⟨⟨fun _ _ h _ => h, rfl, id⟩, fun _ h => h⟩
  | get key cont ih =>
    simp only [Mk.run] at h
    split at h
    · cases h
    · rename_i s1 w hs
      obtain ⟨g1, i1⟩ := hl _ _ _ _ hs
      obtain ⟨g2, i2⟩ := ih w h
      refine ⟨g1.trans g2, fun hr hi => i2 hr (i1 ?_ hi).1⟩
      cases hb : s1.reentrant
      · rfl
      · rw [g2.mono hb] at hr; cases hr

theorem get_spec (create : Nat → K → Mk K V) (fuel) : ∀ s k s' v,
    get create fuel s k = some (s', v) →
      Grow s s' ∧ (s'.reentrant = false → Inv s → Inv s' ∧ s'.values k = some v) := by
  induction fuel with
  | zero => intro s k s' v h; simp [get] at h
  | succ fuel ih =>
    intro s k s' v h
    simp only [get] at h
    split at h
    · rename_i w hw
      cases h
      exact ⟨⟨fun _ _ h _ => h, rfl, id⟩, fun _ hi => ⟨hi, hw⟩⟩
    · rename_i hnone
      split at h
      · cases h
      · rename_i s2 w hrun
        cases h
        obtain ⟨g, i⟩ := Mk.run_spec ih _ hrun
        have hact : s2.active = k :: s.active := g.active
        refine ⟨⟨?_, by simp [hact], ?_⟩, ?_⟩
        · intro x y hx hr
          simp only
          split
          · subst_vars; rw [hnone] at hx; cases hx
          · exact g.keep x y hx hr
        · intro h; exact g.mono (by simp [h])
        · intro hr hi
          have hr2 : s2.reentrant = false := hr
          have hre : k ∉ s.active := by
            intro hk
            have := g.mono (by simp [hk])
            rw [this] at hr2; cases hr2
          have hi2 : Inv s2 := by
            apply i hr2
            refine ⟨?_, ?_, ?_⟩
            · rw [List.nodup_append]
              refine ⟨hi.nodup, by simp, ?_⟩
              intro a ha b hb heq
              simp at hb; subst hb; subst heq
              rcases (hi.called a).mp ha with h | h
              · exact hre h
              · exact h hnone
            · intro x
              simp only [List.mem_append, List.mem_cons, List.not_mem_nil, or_false, hi.called x]
              constructor
              · rintro ((h | h) | h)
                · exact Or.inl (Or.inr h)
                · exact Or.inr h
                · exact Or.inl (Or.inl h)
              · rintro ((h | h) | h)
                · exact Or.inr h
                · exact Or.inl (Or.inl h)
                · exact Or.inl (Or.inr h)
            · intro x hx
              rcases List.mem_cons.mp hx with rfl | hx
              · exact hnone
              · exact hi.act x hx
          refine ⟨⟨hi2.nodup, ?_, ?_⟩, by simp⟩
          · intro x
            simp only [hact, List.tail_cons, hi2.called x, List.mem_cons]
            by_cases hx : x = k
            · subst hx; simp
            · simp [hx]
          · intro x hx
            simp only [hact, List.tail_cons] at hx
            have : x ≠ k := by rintro rfl; exact hre hx
            simp only [this, ↓reduceIte]
            exact hi2.act x (by rw [hact]; exact List.mem_cons_of_mem _ hx)

theorem lookups_spec (create : Nat → K → Mk K V) (fuel) : ∀ (keys : List K) s s' vs,
    lookups create fuel s keys = some (s', vs) →
      Grow s s' ∧ (s'.reentrant = false → Inv s → Inv s' ∧
        keys.map s'.values = vs.map some) := by
  intro keys
  induction keys with
  | nil =>
    intro s s' vs h; simp [lookups] at h; obtain ⟨rfl, rfl⟩ := h
    exact ⟨⟨fun _ _ h _ => h, rfl, id⟩, fun _ h => ⟨h, rfl⟩⟩
  | cons k keys ih =>
    intro s s' vs h
    simp only [lookups] at h
    split at h
    · cases h
    · rename_i s1 v h1
      split at h
      · cases h
      · rename_i s2 vs' h2
        cases h
        obtain ⟨g1, i1⟩ := get_spec create fuel _ _ _ _ h1
        obtain ⟨g2, i2⟩ := ih _ _ _ h2
        refine ⟨g1.trans g2, fun hr hi => ?_⟩
        have hr1 : s1.reentrant = false := by
          cases hb : s1.reentrant
          · rfl
          · rw [g2.mono hb] at hr; cases hr
        obtain ⟨j1, j2⟩ := i1 hr1 hi
        obtain ⟨j3, j4⟩ := i2 hr j1
        exact ⟨j3, by simp [j4, g2.keep _ _ j2 hr]⟩

/-- **C12.** For every constructor (which may itself look up other entries) and every
sequence of lookups, provided no constructor asks for the key it is constructing: no
key's constructor is called twice, equal keys get the identical entry, every lookup
returns what the map holds at the end, and no constructor is called for a key nobody
holds an entry for. -/
theorem C12_created_once (create : Nat → K → Mk K V) (fuel : Nat) (keys : List K)
    (s : St K V) (vs : List V) (h : lookups create fuel {} keys = some (s, vs))
    (hre : s.reentrant = false) :
    s.calls.Nodup ∧ keys.map s.values = vs.map some ∧
    (∀ i j (hi : i < keys.length) (hj : j < keys.length), keys[i] = keys[j] → vs[i]? = vs[j]?) ∧
    (∀ k, k ∈ s.calls ↔ s.values k ≠ none) := by
  obtain ⟨g, i⟩ := lookups_spec create fuel keys _ _ _ h
  obtain ⟨i1, i2⟩ := i hre ⟨by simp, by simp, by simp⟩
  refine ⟨i1.nodup, i2, ?_, ?_⟩
  · intro i j hi hj he
    have e1 := congrArg (·[i]?) i2
    have e2 := congrArg (·[j]?) i2
    simp only [List.getElem?_map, List.getElem?_eq_getElem hi, List.getElem?_eq_getElem hj,
      Option.map_some, he] at e1 e2
    have := e1.symm.trans e2
    revert this
    cases vs[i]? <;> cases vs[j]? <;> simp
  · intro k
    have : s.active = [] := g.active
    rw [i1.called k, this]; simp

/-- **C12 (other keys).** A lookup never changes or removes an entry that exists. -/
theorem C12_entries_persist (create : Nat → K → Mk K V) (fuel : Nat) (s s' : St K V) (key : K) (v : V)
    (h : get create fuel s key = some (s', v)) (hre : s'.reentrant = false)
    (k : K) (w : V) (hk : s.values k = some w) : s'.values k = some w :=
  (get_spec create fuel _ _ _ _ h).1.keep k w hk hre

/-- Entry `n` looks up entry `n - 1` while it is constructed; entries carry the number
of the constructor call. -/
def chain : Nat → Nat → Mk Nat (Nat × Nat)
  | n, 0 => .ret (0, n)
  | n, k + 1 => .get k (fun _ => .ret (k + 1, n))

example : ∃ s, lookups chain 5 {} [2, 0, 2, 1] = some (s, [(2, 0), (0, 2), (2, 0), (1, 1)]) ∧
    s.reentrant = false ∧ s.calls = [2, 1, 0] := ⟨_, rfl, rfl, rfl⟩

/-- The proviso is needed: a constructor that looks up its own key (and returns when
called again) is called twice for it, and two lookups see different entries. -/
theorem C12_reentrant_violated :
    ∃ (create : Nat → Nat → Mk Nat Nat) (s : St Nat Nat) (seen : List Nat),
      lookups create 5 {} [7, 7] = some (s, seen) ∧ s.calls = [7, 7] :=
  ⟨fun n k => if n = 0 then .get k (fun v => .ret (v + 1)) else .ret 0, _, _, rfl, rfl⟩

end Verif.AutoMap

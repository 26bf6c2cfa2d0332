import Verif.Dom.BrowserInv
import Mathlib.Data.List.Induction
/-!
# C25: suspense handlers

Source: `crates/vertigo/src/driver_module/dom_suspense/{dom_connection,node_paths,dom_suspense_mod}.rs`.
-/
namespace Verif.Driver.Suspense

open Verif.Dom (Id fupd Up)

/-- dom_connection.rs.  The index `child` is never read by the code and not modelled. -/
abbrev Conn := Id → Option Id

/-- dom_connection.rs:17-20, 34-38. -/
def Conn.setParent (c : Conn) (node parent : Id) : Conn := fupd c node (some parent)

/-- dom_connection.rs:22-24, 26-32. -/
def Conn.remove (c : Conn) (node : Id) : Conn := fupd c node none

/-- `BTreeMap::insert`. -/
def insertSorted {α : Type} (k : Id) (v : α) : List (Id × α) → List (Id × α)
  | [] => [(k, v)]
  | e :: l => if k < e.1 then (k, v) :: e :: l else e :: insertSorted k v l

def mapInsert {α : Type} (k : Id) (v : α) (l : List (Id × α)) : List (Id × α) :=
  insertSorted k v (l.filter (·.1 ≠ k))

/-- `BTreeMap::remove`. -/
def mapRemove {α : Type} (k : Id) (l : List (Id × α)) : List (Id × α) := l.filter (·.1 ≠ k)

/-- node_paths.rs:50-72: the loop with `max_level = n`; `none` is the panic. -/
def calculatePath (c : Conn) : Nat → Id → Option (List Id)
  | 0, _ => none
  | n + 1, current =>
      match c current with
      | some parent =>
          match calculatePath c n parent with
          | none => none
          | some path => some (current :: path)
      | none => some [current]

/-- node_paths.rs:5-8. -/
structure NodePaths where
  paths : List (Id × List Id) := []
  allNodes : List Id := []

/-- node_paths.rs:74-83. -/
def calculateAllNodes (paths : List (Id × List Id)) : List Id := paths.flatMap (·.2)

/-- node_paths.rs:19-21 (loop). -/
def refreshAll (c : Conn) : List (Id × List Id) → Option (List (Id × List Id))
  | [] => some []
  | (id, _) :: l =>
      match calculatePath c 500 id, refreshAll c l with
      | some p, some l => some ((id, p) :: l)
      | _, _ => none

/-- node_paths.rs:18-24. -/
def NodePaths.refresh (n : NodePaths) (c : Conn) : Option NodePaths :=
  match refreshAll c n.paths with
  | none => none
  | some paths => some { paths, allNodes := calculateAllNodes paths }

/-- node_paths.rs:27-37. -/
def NodePaths.remove (n : NodePaths) (id : Id) : NodePaths × Bool :=
  if n.paths.any (·.1 = id) then
    let paths := mapRemove id n.paths
    ({ paths, allNodes := calculateAllNodes paths }, true)
  else (n, false)

/-- node_paths.rs:39-43. -/
def NodePaths.insert (n : NodePaths) (c : Conn) (id : Id) : Option NodePaths :=
  match calculatePath c 500 id with
  | none => none
  | some p =>
      let paths := mapInsert id p n.paths
      some { paths, allNodes := calculateAllNodes paths }

/-- dom_suspense_mod.rs:7-17. `calls` are the calls of the handlers, so far (the callbacks do
not come back to this module: they set a class attribute). -/
structure State where
  conn : Conn := fun _ => none
  suspense : NodePaths := {}
  layer : NodePaths := {}
  layerCallback : List (Id × Bool) := []
  calls : List (Id × Bool) := []

/-- dom_suspense_mod.rs:29-40. -/
def refreshSubscribers (c : Conn) (all : List Id) : List (Id × Bool) → List (Id × Bool) × List (Id × Bool)
  | [] => ([], [])
  | (id, last) :: l =>
      let (l', calls) := refreshSubscribers c all l
      match c id with
      | none => ((id, last) :: l', calls)
      | some p =>
          let show_ := decide (p ∈ all)
          if last ≠ show_ then ((id, show_) :: l', (id, show_) :: calls) else ((id, last) :: l', calls)

/-- dom_suspense_mod.rs:42-47. -/
def State.refreshPaths (s : State) : Option State :=
  match s.suspense.refresh s.conn, s.layer.refresh s.conn with
  | some sus, some lay =>
      let (cbs, calls) := refreshSubscribers s.conn sus.allNodes s.layerCallback
      some { s with suspense := sus, layer := lay, layerCallback := cbs, calls := s.calls ++ calls }
  | _, _ => none

/-- dom_suspense_mod.rs:49-52. -/
def State.setNodeSuspense (s : State) (id : Id) : Option State :=
  match s.suspense.insert s.conn id with
  | none => none
  | some sus => { s with suspense := sus }.refreshPaths

/-- dom_suspense_mod.rs:54-58. -/
def State.setParent (s : State) (node parent : Id) : Option State :=
  { s with conn := s.conn.setParent node parent }.refreshPaths

/-- dom_suspense_mod.rs:60-68. -/
def State.remove (s : State) (node : Id) : Option State :=
  let (sus, a) := s.suspense.remove node
  let (lay, b) := s.layer.remove node
  let s := { s with conn := s.conn.remove node, suspense := sus, layer := lay }
  if a || b then s.refreshPaths else some s

/-- dom_suspense_mod.rs:70-89. -/
def State.setLayerCallback (s : State) (node : Id) : Option State :=
  let show_ := decide (node ∈ s.suspense.allNodes)
  let s := { s with
    calls := s.calls ++ [(node, show_)]
    layerCallback := mapInsert node show_ s.layerCallback }
  match s.layer.insert s.conn node with
  | none => none
  | some lay => { s with layer := lay }.refreshPaths

/-- dom_suspense_mod.rs:92-99. -/
def State.removeLayerCallback (s : State) (node : Id) : Option State :=
  let s := { s with layerCallback := mapRemove node s.layerCallback }
  let (lay, b) := s.layer.remove node
  let s := { s with layer := lay }
  if b then s.refreshPaths else some s

/-- The calls: a `<vertigo-suspense />` element is created (dom.rs:172-174), a node is
attached (dom.rs:234), a node is removed, a handler is registered / unregistered. -/
inductive Op where
  | marker (id : Id)
  | attach (node parent : Id)
  | remove (node : Id)
  | handler (node : Id)
  | noHandler (node : Id)
  deriving DecidableEq

def State.step (s : State) : Op → Option State
  | .marker id => s.setNodeSuspense id
  | .attach n p => s.setParent n p
  | .remove n => s.remove n
  | .handler n => s.setLayerCallback n
  | .noHandler n => s.removeLayerCallback n

def State.run (s : State) : List Op → Option State
  | [] => some s
  | o :: os =>
      match s.step o with
      | none => none
      | some s => s.run os

/-! ## Specification: what a history means -/

/-- The parent of each node. -/
def parentStep (f : Id → Option Id) : Op → Id → Option Id
  | .attach n p => fupd f n (some p)
  | .remove n => fupd f n none
  | _ => f
def parentAfter (h : List Op) : Id → Option Id := h.foldl parentStep fun _ => none

/-- The existing markers. -/
def markedStep (f : Id → Bool) : Op → Id → Bool
  | .marker n => fupd f n true
  | .remove n => fupd f n false
  | _ => f
def markedAfter (h : List Op) : Id → Bool := h.foldl markedStep fun _ => false

/-- The nodes with a registered handler. -/
def handlerStep (f : Id → Bool) : Op → Id → Bool
  | .handler n => fupd f n true
  | .noHandler n => fupd f n false
  | _ => f
def handlerAfter (h : List Op) : Id → Bool := h.foldl handlerStep fun _ => false

/-- Nodes that got a handler and have neither been removed nor lost it. -/
def layeredStep (f : Id → Bool) : Op → Id → Bool
  | .handler n => fupd f n true
  | .noHandler n => fupd f n false
  | .remove n => fupd f n false
  | _ => f
def layeredAfter (h : List Op) : Id → Bool := h.foldl layeredStep fun _ => false

/-- `x` is in the sub-tree of `y` (which includes `y`). -/
inductive Below (f : Id → Option Id) : Id → Id → Prop where
  | refl (x) : Below f x x
  | up {x p y} : f x = some p → Below f p y → Below f x y

/-- The last thing a handler has been told. -/
def told (calls : List (Id × Bool)) (id : Id) : Option Bool :=
  (calls.reverse.find? (·.1 = id)).map (·.2)

/-- Every handler of an attached node knows whether there is a marker in the sub-tree of the
parent of its node. -/
def Exact (h : List Op) (calls : List (Id × Bool)) : Prop :=
  ∀ n p, handlerAfter h n = true → parentAfter h n = some p →
    ∃ b, told calls n = some b ∧ (b = true ↔ ∃ m, markedAfter h m = true ∧ Below (parentAfter h) m p)

/-- Everything but the removal of an ordinary node, or of a handler that is gone with its
node. -/
def Refreshes (h : List Op) : Op → Prop
  | .remove n => markedAfter h n = true ∨ layeredAfter h n = true
  | .noHandler n => layeredAfter h n = true
  | _ => True

/-- There is no marker in the sub-tree of a node. -/
def Plain (h : List Op) (n : Id) : Prop := ∀ m, markedAfter h m = true → ¬ Below (parentAfter h) m n

/-! ## Proofs -/

theorem mem_insertSorted {α : Type} {k : Id} {v : α} {l : List (Id × α)} {e} :
    e ∈ insertSorted k v l ↔ e = (k, v) ∨ e ∈ l := by
  induction l with
  | nil => simp [insertSorted]
  | cons x l ih =>
    simp only [insertSorted]
    split
    · simp
    · simp only [List.mem_cons, ih]
      constructor
      · rintro (h | h | h) <;> simp [h]
      · rintro (h | h | h) <;> simp [h]

theorem mem_mapInsert {α : Type} {k : Id} {v : α} {l : List (Id × α)} {e} :
    e ∈ mapInsert k v l ↔ e = (k, v) ∨ (e ∈ l ∧ e.1 ≠ k) := by
  simp [mapInsert, mem_insertSorted]

theorem mem_mapRemove {α : Type} {k : Id} {l : List (Id × α)} {e} : e ∈ mapRemove k l ↔ e ∈ l ∧ e.1 ≠ k := by
  simp [mapRemove]

theorem mem_calculatePath {c : Conn} : ∀ {n x p}, calculatePath c n x = some p → ∀ y, y ∈ p ↔ Below c x y := by
  intro n
  induction n with
  | zero => intro x p h; cases h
  | succ n ih =>
    intro x p h y
    simp only [calculatePath] at h
    split at h
    · rename_i q hq
      split at h
      · cases h
      rename_i path hp
      cases h
      rw [List.mem_cons, ih hp]
      constructor
      · rintro (rfl | h)
        · exact .refl _
        · exact .up hq h
      · intro h
        cases h with
        | refl => exact .inl rfl
        | up h1 h2 => rw [hq] at h1; cases h1; exact .inr h2
    · rename_i hq
      cases h
      simp only [List.mem_singleton]
      constructor
      · rintro rfl; exact .refl _
      · intro h
        cases h with
        | refl => rfl
        | up h1 h2 => rw [hq] at h1; cases h1

/-- The limit: a node and at most 499 ancestors. -/
theorem calculatePath_some_iff {c : Conn} : ∀ {n x}, (∃ p, calculatePath c n x = some p) ↔ ∃ l, Up c x l ∧ l.length ≤ n := by
  intro n
  induction n with
  | zero =>
    intro x
    constructor
    · rintro ⟨p, h⟩; cases h
    · rintro ⟨l, h, hl⟩; cases h <;> simp at hl
  | succ n ih =>
    intro x
    simp only [calculatePath]
    cases hx : c x with
    | none =>
      simp only
      exact ⟨fun _ => ⟨[x], .top hx, by simp⟩, fun _ => ⟨_, rfl⟩⟩
    | some p =>
      simp only
      constructor
      · rintro ⟨q, h⟩
        split at h
        · cases h
        rename_i path hp
        obtain ⟨l, h1, h2⟩ := ih.mp ⟨path, hp⟩
        exact ⟨x :: l, .up hx h1, by simpa using h2⟩
      · rintro ⟨l, h, hl⟩
        cases h with
        | top h1 => rw [hx] at h1; cases h1
        | up h1 h2 =>
          rw [hx] at h1; cases h1
          obtain ⟨path, hp⟩ := ih.mpr ⟨_, h2, by simpa using hl⟩
          rw [hp]; exact ⟨_, rfl⟩

/-- Keys of a map of paths. -/
def keys {α : Type} (l : List (Id × α)) : List Id := l.map (·.1)

theorem refreshAll_spec {c : Conn} : ∀ {l l'}, refreshAll c l = some l' →
    keys l' = keys l ∧ ∀ y, y ∈ calculateAllNodes l' ↔ ∃ m ∈ keys l, Below c m y := by
  intro l
  induction l with
  | nil => intro l' h; cases h; simp [keys, calculateAllNodes]
  | cons e l ih =>
    intro l' h
    obtain ⟨id, old⟩ := e
    simp only [refreshAll] at h
    split at h
    · rename_i p l1 h1 h2
      cases h
      obtain ⟨k1, k2⟩ := ih h2
      refine ⟨by simp [keys] at k1 ⊢; exact k1, fun y => ?_⟩
      simp only [calculateAllNodes, List.flatMap_cons, List.mem_append, mem_calculatePath h1]
      rw [show (y ∈ l1.flatMap (·.2)) ↔ _ from k2 y]
      simp only [keys, List.map_cons, List.mem_cons, exists_eq_or_imp]
    · cases h

theorem refreshAll_some_iff {c : Conn} : ∀ {l}, (∃ l', refreshAll c l = some l') ↔ ∀ m ∈ keys l, ∃ u, Up c m u ∧ u.length ≤ 500 := by
  intro l
  induction l with
  | nil => simp [refreshAll, keys]
  | cons e l ih =>
    obtain ⟨id, old⟩ := e
    simp only [keys, List.map_cons, List.mem_cons, forall_eq_or_imp] at ih ⊢
    rw [← ih, ← calculatePath_some_iff]
    simp only [refreshAll]
    cases calculatePath c 500 id with
    | none => simp
    | some p =>
      cases refreshAll c l with
      | none => simp
      | some l' => simp

theorem told_append (a b : List (Id × Bool)) (n : Id) : told (a ++ b) n = (told b n).or (told a n) := by
  simp only [told, List.reverse_append, List.find?_append]
  cases b.reverse.find? (·.1 = n) <;> simp

theorem told_nil (n : Id) : told [] n = none := rfl

theorem told_singleton (k : Id) (b : Bool) (n : Id) : told [(k, b)] n = if k = n then some b else none := by
  simp only [told, List.reverse_singleton, List.find?_singleton]
  by_cases h : k = n <;> simp [h]

theorem told_cons (k : Id) (b : Bool) (l : List (Id × Bool)) (n : Id) :
    told ((k, b) :: l) n = (told l n).or (if k = n then some b else none) := by
  rw [← told_singleton, ← told_append]; rfl

/-- What a round of notifications does. -/
theorem refreshSubscribers_spec (c : Conn) (all : List Id) : ∀ (l : List (Id × Bool)), (keys l).Nodup →
    keys (refreshSubscribers c all l).1 = keys l ∧
    (∀ n b, (n, b) ∈ (refreshSubscribers c all l).1 → (∀ p, c n = some p → b = decide (p ∈ all)) ∧
      ∃ b0, (n, b0) ∈ l ∧ (told (refreshSubscribers c all l).2 n = some b ∨
        (told (refreshSubscribers c all l).2 n = none ∧ b = b0))) ∧
    (∀ n, n ∉ keys l → told (refreshSubscribers c all l).2 n = none) := by
  intro l
  induction l with
  | nil => intro _; exact ⟨rfl, by simp [refreshSubscribers], by simp [refreshSubscribers, told]⟩
  | cons e l ih =>
    intro hn
    obtain ⟨id, last⟩ := e
    simp only [keys, List.map_cons, List.nodup_cons] at hn
    obtain ⟨k1, k2, k3⟩ := ih hn.2
    have hid := k3 id hn.1
    have hkeys : ∀ n b, (n, b) ∈ (refreshSubscribers c all l).1 → n ∈ keys l := by
      intro n b h
      rw [← k1]; exact List.mem_map.mpr ⟨_, h, rfl⟩
    simp only [refreshSubscribers]
    cases hc : c id with
    | none =>
      simp only
      refine ⟨by simp [keys] at k1 ⊢; exact k1, ?_, ?_⟩
      · intro n b h
        rcases List.mem_cons.mp h with h | h
        · cases h
          exact ⟨fun p hp => (by rw [hc] at hp; cases hp), last, by simp, .inr ⟨hid, rfl⟩⟩
        · obtain ⟨h1, b0, h2, h3⟩ := k2 n b h
          exact ⟨h1, b0, by simp [h2], h3⟩
      · intro n hn'
        exact k3 n (fun h => hn' (by simp [keys] at h ⊢; exact .inr h))
    | some p =>
      simp only
      split
      · rename_i hne
        refine ⟨by simp [keys] at k1 ⊢; exact k1, ?_, ?_⟩
        · intro n b h
          rcases List.mem_cons.mp h with h | h
          · cases h
            refine ⟨fun q hq => by rw [hc] at hq; cases hq; rfl, last, by simp, .inl ?_⟩
            simp only [told_cons, hid]; simp
          · obtain ⟨h1, b0, h2, h3⟩ := k2 n b h
            have hne' : id ≠ n := by rintro rfl; exact hn.1 (hkeys _ _ h)
            refine ⟨h1, b0, by simp [h2], ?_⟩
            simp only [told_cons]
            simpa [hne'] using h3
        · intro n hn'
          simp only [keys, List.map_cons, List.mem_cons, not_or] at hn'
          simp only [told_cons]
          rw [k3 n hn'.2]
          simp [Ne.symm hn'.1]
      · rename_i heq
        have heq : last = decide (p ∈ all) := by simpa using heq
        refine ⟨by simp [keys] at k1 ⊢; exact k1, ?_, ?_⟩
        · intro n b h
          rcases List.mem_cons.mp h with h | h
          · cases h
            exact ⟨fun q hq => by rw [hc] at hq; cases hq; exact heq, last, by simp, .inr ⟨hid, rfl⟩⟩
          · obtain ⟨h1, b0, h2, h3⟩ := k2 n b h
            exact ⟨h1, b0, by simp [h2], h3⟩
        · intro n hn'
          exact k3 n (fun h => hn' (by simp [keys] at h ⊢; exact .inr h))

/-- The state belongs to the history. -/
structure SInv (h : List Op) (s : State) : Prop where
  conn : s.conn = parentAfter h
  marked : ∀ m, m ∈ keys s.suspense.paths ↔ markedAfter h m = true
  layered : ∀ m, m ∈ keys s.layer.paths ↔ layeredAfter h m = true
  handlers : ∀ n, n ∈ keys s.layerCallback ↔ handlerAfter h n = true
  nodup : (keys s.layerCallback).Nodup
  told : ∀ n b, (n, b) ∈ s.layerCallback → told s.calls n = some b

theorem fold_snoc {α : Type} (f : α → Op → α) (a : α) (h : List Op) (o : Op) : (h ++ [o]).foldl f a = f (h.foldl f a) o := by
  simp

theorem refreshPaths_inv {h : List Op} {s s' : State} (hs : s.refreshPaths = some s') (inv : SInv h s) :
    SInv h s' ∧ Exact h s'.calls := by
  unfold State.refreshPaths at hs
  split at hs
  rotate_left
  · cases hs
  rename_i sus lay h1 h2
  obtain ⟨r1, r2, r3⟩ := refreshSubscribers_spec s.conn sus.allNodes s.layerCallback inv.nodup
  generalize refreshSubscribers s.conn sus.allNodes s.layerCallback = R at hs r1 r2 r3
  obtain ⟨cbs, calls⟩ := R
  simp only [Option.some.injEq] at hs
  subst hs
  unfold NodePaths.refresh at h1 h2
  split at h1
  · cases h1
  rename_i paths1 e1
  split at h2
  · cases h2
  rename_i paths2 e2
  cases h1; cases h2
  obtain ⟨k1, a1⟩ := refreshAll_spec e1
  obtain ⟨k2, a2⟩ := refreshAll_spec e2
  simp only at r1 r2 r3 ⊢
  have htold : ∀ n b, (n, b) ∈ cbs → Suspense.told (s.calls ++ calls) n = some b := by
    intro n b hm
    obtain ⟨_, b0, h0, h3⟩ := r2 n b hm
    rw [told_append]
    rcases h3 with h3 | ⟨h3, rfl⟩
    · rw [h3]; rfl
    · rw [h3, inv.told _ _ h0]; rfl
  refine ⟨⟨inv.conn, by simp only [k1]; exact inv.marked, by simp only [k2]; exact inv.layered, by simp only [r1]; exact inv.handlers,
    by simp only [r1]; exact inv.nodup, htold⟩, ?_⟩
  intro n p hn hp
  have hk : n ∈ keys cbs := by rw [r1]; exact (inv.handlers n).mpr hn
  obtain ⟨⟨n', b⟩, hm, rfl⟩ := List.mem_map.mp hk
  obtain ⟨h1, _⟩ := r2 _ b hm
  refine ⟨b, htold _ _ hm, ?_⟩
  rw [h1 p (by rw [inv.conn]; exact hp), decide_eq_true_eq, a1, inv.conn]
  simp only [inv.marked]

theorem keys_mapInsert {α : Type} {k : Id} {v : α} {l : List (Id × α)} {n} : n ∈ keys (mapInsert k v l) ↔ n = k ∨ n ∈ keys l := by
  simp only [keys, List.mem_map, mem_mapInsert]
  constructor
  · rintro ⟨e, h | h, rfl⟩
    · exact .inl (by rw [h])
    · exact .inr ⟨e, h.1, rfl⟩
  · rintro (rfl | ⟨e, h, rfl⟩)
    · exact ⟨(n, v), .inl rfl, rfl⟩
    · by_cases hk : e.1 = k
      · exact ⟨(k, v), .inl rfl, hk.symm⟩
      · exact ⟨e, .inr ⟨h, hk⟩, rfl⟩

theorem keys_mapRemove {α : Type} {k : Id} {l : List (Id × α)} {n} : n ∈ keys (mapRemove k l) ↔ n ≠ k ∧ n ∈ keys l := by
  simp only [keys, List.mem_map, mem_mapRemove]
  constructor
  · rintro ⟨e, h, rfl⟩; exact ⟨h.2, e, h.1, rfl⟩
  · rintro ⟨hn, e, h, rfl⟩; exact ⟨e, ⟨h, hn⟩, rfl⟩

theorem nodup_mapRemove {α : Type} {k : Id} {l : List (Id × α)} (h : (keys l).Nodup) : (keys (mapRemove k l)).Nodup :=
  h.sublist (List.Sublist.map _ List.filter_sublist)

theorem nodup_insertSorted {α : Type} {k : Id} {v : α} {l : List (Id × α)} (h : (keys l).Nodup) (hk : k ∉ keys l) :
    (keys (insertSorted k v l)).Nodup := by
  induction l with
  | nil => simp [insertSorted, keys]
  | cons e l ih =>
    simp only [keys, List.map_cons, List.nodup_cons, List.mem_cons, not_or] at h hk
    simp only [insertSorted]
    split
    · simp only [keys, List.map_cons, List.nodup_cons, List.mem_cons, not_or]
      exact ⟨hk, h⟩
    · simp only [keys, List.map_cons, List.nodup_cons]
      refine ⟨fun hm => ?_, ih h.2 hk.2⟩
      obtain ⟨x, hx, e'⟩ := List.mem_map.mp hm
      rcases mem_insertSorted.mp hx with rfl | hx
      · exact hk.1 e'
      · exact h.1 (List.mem_map.mpr ⟨x, hx, e'⟩)

theorem nodup_mapInsert {α : Type} {k : Id} {v : α} {l : List (Id × α)} (h : (keys l).Nodup) : (keys (mapInsert k v l)).Nodup :=
  nodup_insertSorted (nodup_mapRemove (k := k) h) (fun hm => (keys_mapRemove.mp hm).1 rfl)

theorem remove_keys (n : NodePaths) (id : Id) :
    (∀ m, m ∈ keys (n.remove id).1.paths ↔ m ≠ id ∧ m ∈ keys n.paths) ∧ ((n.remove id).2 = true ↔ id ∈ keys n.paths) := by
  have hany : n.paths.any (·.1 = id) = true ↔ id ∈ keys n.paths := by
    simp only [List.any_eq_true, decide_eq_true_eq, keys, List.mem_map]
  unfold NodePaths.remove
  split
  · rename_i h
    exact ⟨fun m => keys_mapRemove, by simp [hany.mp h]⟩
  · rename_i h
    refine ⟨fun m => ⟨fun hm => ⟨?_, hm⟩, fun hm => hm.2⟩, by simp; exact fun h' => h (hany.mpr h')⟩
    rintro rfl; exact h (hany.mpr hm)

theorem fupd_true {f : Id → Bool} {k m : Id} : fupd f k true m = true ↔ m = k ∨ f m = true := by
  simp only [fupd]; split <;> simp [*]
theorem fupd_false {f : Id → Bool} {k m : Id} : fupd f k false m = true ↔ m ≠ k ∧ f m = true := by
  simp only [fupd]; split <;> simp [*]

theorem SInv.step {h : List Op} {s s' : State} (inv : SInv h s) {o : Op} (hs : s.step o = some s') :
    SInv (h ++ [o]) s' ∧ (Refreshes h o → Exact (h ++ [o]) s'.calls) ∧ (¬ Refreshes h o → s'.calls = s.calls) := by
  have hp : parentAfter (h ++ [o]) = parentStep (parentAfter h) o := by simp only [parentAfter, fold_snoc]
  have hm : markedAfter (h ++ [o]) = markedStep (markedAfter h) o := by simp only [markedAfter, fold_snoc]
  have hh : handlerAfter (h ++ [o]) = handlerStep (handlerAfter h) o := by simp only [handlerAfter, fold_snoc]
  have hl : layeredAfter (h ++ [o]) = layeredStep (layeredAfter h) o := by simp only [layeredAfter, fold_snoc]
  cases o with
  | marker id =>
    simp only [parentStep, markedStep, handlerStep, layeredStep] at hp hm hh hl
    simp only [State.step, State.setNodeSuspense, NodePaths.insert] at hs
    split at hs
    · cases hs
    rename_i sus he
    split at he
    · cases he
    cases he
    have := refreshPaths_inv (h := h ++ [.marker id]) hs
      ⟨by rw [hp]; exact inv.conn, fun m => by rw [hm, fupd_true, keys_mapInsert, inv.marked], by rw [hl]; exact inv.layered,
        by rw [hh]; exact inv.handlers, inv.nodup, inv.told⟩
    exact ⟨this.1, fun _ => this.2, fun hn => absurd trivial hn⟩
  | attach n p =>
    simp only [parentStep, markedStep, handlerStep, layeredStep] at hp hm hh hl
    simp only [State.step, State.setParent] at hs
    have := refreshPaths_inv (h := h ++ [.attach n p]) hs
      ⟨by rw [hp, Conn.setParent, inv.conn], by rw [hm]; exact inv.marked, by rw [hl]; exact inv.layered,
        by rw [hh]; exact inv.handlers, inv.nodup, inv.told⟩
    exact ⟨this.1, fun _ => this.2, fun hn => absurd trivial hn⟩
  | handler n =>
    simp only [parentStep, markedStep, handlerStep, layeredStep] at hp hm hh hl
    simp only [State.step, State.setLayerCallback, NodePaths.insert] at hs
    split at hs
    · cases hs
    rename_i lay he
    split at he
    · cases he
    cases he
    have := refreshPaths_inv (h := h ++ [.handler n]) hs
      ⟨by rw [hp]; exact inv.conn, by rw [hm]; exact inv.marked, fun m => by rw [hl, fupd_true, keys_mapInsert, inv.layered],
        fun m => by rw [hh, fupd_true, keys_mapInsert, inv.handlers], nodup_mapInsert inv.nodup, ?_⟩
    · exact ⟨this.1, fun _ => this.2, fun hn => absurd trivial hn⟩
    · intro m b hb
      simp only at hb ⊢
      rw [told_append, told_singleton]
      rcases mem_mapInsert.mp hb with e | ⟨h1, h2⟩
      · cases e; simp
      · have : n ≠ m := Ne.symm h2
        simp [this, inv.told m b h1]
  | remove n =>
    simp only [parentStep, markedStep, handlerStep, layeredStep] at hp hm hh hl
    simp only [State.step, State.remove] at hs
    obtain ⟨a1, a2⟩ := remove_keys s.suspense n
    obtain ⟨b1, b2⟩ := remove_keys s.layer n
    have inv' : SInv (h ++ [.remove n]) { s with conn := s.conn.remove n, suspense := (s.suspense.remove n).1, layer := (s.layer.remove n).1 } :=
      ⟨by rw [hp, Conn.remove, inv.conn], fun m => by rw [hm, fupd_false, a1, inv.marked],
        fun m => by rw [hl, fupd_false, b1, inv.layered], by rw [hh]; exact inv.handlers, inv.nodup, inv.told⟩
    split at hs
    · have := refreshPaths_inv hs inv'
      refine ⟨this.1, fun _ => this.2, fun hn => ?_⟩
      rename_i hb
      exact absurd (by
        simp only [Bool.or_eq_true, a2, b2, inv.marked, inv.layered] at hb
        exact hb) hn
    · rename_i hb
      cases hs
      refine ⟨inv', fun hr => ?_, fun _ => rfl⟩
      exact absurd (by
        simp only [Bool.or_eq_true, a2, b2, inv.marked, inv.layered]
        exact hr) hb
  | noHandler n =>
    simp only [parentStep, markedStep, handlerStep, layeredStep] at hp hm hh hl
    simp only [State.step, State.removeLayerCallback] at hs
    obtain ⟨b1, b2⟩ := remove_keys s.layer n
    have inv' : SInv (h ++ [.noHandler n]) { s with layerCallback := mapRemove n s.layerCallback, layer := (s.layer.remove n).1 } :=
      ⟨by rw [hp]; exact inv.conn, by rw [hm]; exact inv.marked,
        fun m => by rw [hl, fupd_false, b1, inv.layered], fun m => by rw [hh, fupd_false, keys_mapRemove, inv.handlers],
        nodup_mapRemove inv.nodup, fun m b hb => inv.told m b (mem_mapRemove.mp hb).1⟩
    split at hs
    · have := refreshPaths_inv hs inv'
      refine ⟨this.1, fun _ => this.2, fun hn => ?_⟩
      rename_i hb
      exact absurd ((inv.layered n).mp (b2.mp hb)) hn
    · rename_i hb
      cases hs
      exact ⟨inv', fun hr => absurd (b2.mpr ((inv.layered n).mpr hr)) hb, fun _ => rfl⟩

theorem run_snoc (s : State) (h : List Op) (o : Op) :
    s.run (h ++ [o]) = match s.run h with | none => none | some s => s.step o := by
  induction h generalizing s with
  | nil => simp only [List.nil_append, State.run]; cases s.step o <;> rfl
  | cons x h ih =>
    simp only [List.cons_append, State.run]
    cases s.step x with
    | none => rfl
    | some s => exact ih s

theorem run_inv (h : List Op) : ∀ s, State.run {} h = some s → SInv h s := by
  induction h using List.reverseRecOn with
  | nil =>
    intro s e; cases e
    exact ⟨rfl, by simp [keys, markedAfter], by simp [keys, layeredAfter], by simp [keys, handlerAfter], by simp [keys], by simp⟩
  | append_singleton h o ih =>
    intro s e
    rw [run_snoc] at e
    split at e
    · cases e
    · rename_i s1 h1; exact ((ih s1 h1).step e).1

theorem below_cut {f : Id → Option Id} {n x y} (h : Below f x y) (hx : ¬ Below f x n) : Below (fupd f n none) x y := by
  induction h with
  | refl x => exact .refl x
  | @up x p y hp _ ih =>
    have hn : x ≠ n := by rintro rfl; exact hx (.refl _)
    exact .up (by simp [fupd, hn, hp]) (ih fun h' => hx (.up hp h'))

theorem below_of_cut {f : Id → Option Id} {n x y} (h : Below (fupd f n none) x y) : Below f x y := by
  induction h with
  | refl x => exact .refl x
  | @up x p y hp _ ih =>
    simp only [fupd] at hp
    split at hp
    · cases hp
    · exact .up hp ih

/-- **C25.** After every operation except the removal of an ordinary node, whatever happened
before, every handler of an attached node has been told the truth: loading exactly if there is
a marker in the sub-tree of the parent of its node. -/
theorem C25_exact_after_operation {h o s} (hr : State.run {} (h ++ [o]) = some s) (ho : Refreshes h o) :
    Exact (h ++ [o]) s.calls := by
  rw [run_snoc] at hr
  split at hr
  · cases hr
  rename_i s1 h1
  exact ((run_inv h s1 h1).step hr).2.1 ho

/-- **C25.** The removal of an ordinary node without markers in its sub-tree changes nothing
for the others; no handler is called. -/
theorem C25_exact_kept_by_removal {h n s s1} (hr : State.run {} h = some s) (hr1 : State.run {} (h ++ [.remove n]) = some s1)
    (hn : ¬ Refreshes h (.remove n)) (hplain : Plain h n) (he : Exact h s.calls) :
    Exact (h ++ [.remove n]) s1.calls ∧ s1.calls = s.calls := by
  rw [run_snoc, hr] at hr1
  have hc := ((run_inv h s hr).step hr1).2.2 hn
  refine ⟨?_, hc⟩
  rw [hc]
  intro m p hm hp
  have e1 : handlerAfter (h ++ [.remove n]) = handlerAfter h := by simp only [handlerAfter, fold_snoc, handlerStep]
  have e2 : parentAfter (h ++ [.remove n]) = fupd (parentAfter h) n none := by simp only [parentAfter, fold_snoc, parentStep]
  have e3 : markedAfter (h ++ [.remove n]) = fupd (markedAfter h) n false := by simp only [markedAfter, fold_snoc, markedStep]
  rw [e1] at hm
  rw [e2] at hp ⊢
  rw [e3]
  have hmn : m ≠ n := by rintro rfl; simp [fupd] at hp
  simp only [fupd, hmn, if_false] at hp
  obtain ⟨b, h1, h2⟩ := he m p hm hp
  refine ⟨b, h1, ?_⟩
  rw [h2]
  constructor
  · rintro ⟨x, hx, hb⟩
    refine ⟨x, fupd_false.mpr ⟨?_, hx⟩, below_cut hb (hplain x hx)⟩
    rintro rfl; exact hplain x hx (.refl _)
  · rintro ⟨x, hx, hb⟩
    exact ⟨x, (fupd_false.mp hx).2, below_of_cut hb⟩

/-- **C25.** Handlers are told only changes: two consecutive calls of the handler of a node
(without a new registration) differ. Stated for one operation: what an operation other than a
registration tells a handler differs from what it was told before. -/
theorem C25_only_changes {h o s s1} (hr : State.run {} h = some s) (hr1 : State.run {} (h ++ [o]) = some s1)
    (ho : ∀ n, o ≠ .handler n) : ∃ new, s1.calls = s.calls ++ new ∧ ∀ n b, (n, b) ∈ new → told s.calls n = some (!b) := by
  rw [run_snoc, hr] at hr1
  have inv := run_inv h s hr
  have sub : ∀ (c : Conn) all (l : List (Id × Bool)) n b, (n, b) ∈ (refreshSubscribers c all l).2 → (n, !b) ∈ l := by
    intro c all l
    induction l with
    | nil => intro n b h; simp [refreshSubscribers] at h
    | cons e l ih =>
      intro n b h
      obtain ⟨id, last⟩ := e
      simp only [refreshSubscribers] at h
      cases hc : c id with
      | none => rw [hc] at h; exact List.mem_cons_of_mem _ (ih n b h)
      | some p =>
        rw [hc] at h
        simp only at h
        split at h
        · rename_i hne
          rcases List.mem_cons.mp h with h | h
          · cases h
            have : last = !decide (p ∈ all) := by
              revert hne; cases last <;> cases decide (p ∈ all) <;> simp
            rw [this]; simp
          · exact List.mem_cons_of_mem _ (ih n b h)
        · exact List.mem_cons_of_mem _ (ih n b h)
  have key : ∀ t : State, t.calls = s.calls → (∀ e ∈ t.layerCallback, e ∈ s.layerCallback) → t.refreshPaths = some s1 →
      ∃ new, s1.calls = s.calls ++ new ∧ ∀ n b, (n, b) ∈ new → told s.calls n = some (!b) := by
    intro t e1 e2 e3
    unfold State.refreshPaths at e3
    split at e3
    rotate_left
    · cases e3
    simp only [Option.some.injEq] at e3
    subst e3
    exact ⟨_, by rw [← e1], fun n b hb => inv.told n _ (e2 _ (sub _ _ _ n b hb))⟩
  have none_ : s1.calls = s.calls → ∃ new, s1.calls = s.calls ++ new ∧ ∀ n b, (n, b) ∈ new → told s.calls n = some (!b) :=
    fun h => ⟨[], by simp [h], by simp⟩
  cases o with
  | handler n => exact absurd rfl (ho n)
  | marker id =>
    simp only [State.step, State.setNodeSuspense] at hr1
    split at hr1
    · cases hr1
    · refine key _ ?_ ?_ hr1; exacts [rfl, fun e he => he]
  | attach n p =>
    simp only [State.step, State.setParent] at hr1
    refine key _ ?_ ?_ hr1; exacts [rfl, fun e he => he]
  | remove n =>
    simp only [State.step, State.remove] at hr1
    split at hr1
    · refine key _ ?_ ?_ hr1; exacts [rfl, fun e he => he]
    · cases hr1; exact none_ rfl
  | noHandler n =>
    simp only [State.step, State.removeLayerCallback] at hr1
    split at hr1
    · refine key _ ?_ ?_ hr1; exacts [rfl, fun e he => (mem_mapRemove.mp he).1]
    · cases hr1; exact none_ rfl

/-- **C25, the supported depth.** Attaching a node fails exactly if afterwards some marker or
some node with a handler has more than 499 ancestors (or is below itself). -/
theorem C25_attach_limit {h n p s} (hr : State.run {} h = some s) :
    State.run {} (h ++ [.attach n p]) ≠ none ↔
      ∀ m, markedAfter h m = true ∨ layeredAfter h m = true → ∃ l, Up (parentAfter (h ++ [.attach n p])) m l ∧ l.length ≤ 500 := by
  have inv := run_inv h s hr
  have hp : parentAfter (h ++ [.attach n p]) = s.conn.setParent n p := by
    simp only [parentAfter, fold_snoc]; rw [inv.conn]; rfl
  rw [run_snoc, hr, hp]
  simp only [State.step, State.setParent, State.refreshPaths, NodePaths.refresh]
  have h1 := refreshAll_some_iff (c := s.conn.setParent n p) (l := s.suspense.paths)
  have h2 := refreshAll_some_iff (c := s.conn.setParent n p) (l := s.layer.paths)
  simp only [inv.marked, inv.layered] at h1 h2
  constructor
  · intro hne m hm
    cases e1 : refreshAll (s.conn.setParent n p) s.suspense.paths with
    | none => simp [e1] at hne
    | some l1 =>
      cases e2 : refreshAll (s.conn.setParent n p) s.layer.paths with
      | none => simp [e1, e2] at hne
      | some l2 =>
        rcases hm with hm | hm
        · exact h1.mp ⟨l1, e1⟩ m hm
        · exact h2.mp ⟨l2, e2⟩ m hm
  · intro hall
    obtain ⟨l1, e1⟩ := h1.mpr fun m hm => hall m (.inl hm)
    obtain ⟨l2, e2⟩ := h2.mpr fun m hm => hall m (.inr hm)
    simp [e1, e2]

/-! ## Concrete histories, limits -/

/-- The page of the demo application: 10 is the frame, 11 (placeholder) and 12 (content) have
handlers, 14 is a marker deep in the content, which goes away with its parent. -/
def exampleHistory : List Op :=
  [.handler 11, .attach 11 10, .handler 12, .attach 13 12, .marker 14, .attach 14 13, .attach 12 10, .attach 10 3,
   .remove 14, .remove 13]

example : (State.run {} exampleHistory).map (·.calls) =
    some [(11, false), (12, false), (11, true), (12, true), (11, false), (12, false)] := by decide +kernel

/-- A node with a marker below it is removed. -/
def staleHistory : List Op := [.handler 11, .attach 11 10, .marker 14, .attach 14 13, .attach 13 10, .remove 13]

/-- **C25, not in general (1).** When a node with a marker below it is removed, the handlers are
not told until the marker is removed as well. (The library drops an element before its
children, so this state exists for a short time.) -/
theorem C25_removed_subtree_violated : ∃ h s, State.run {} h = some s ∧ ¬ Exact h s.calls := by
  have hc : (State.run {} staleHistory).map (·.calls) = some [(11, false), (11, true)] := by decide +kernel
  obtain ⟨s, hs, hcalls⟩ := Option.map_eq_some_iff.mp hc
  refine ⟨staleHistory, s, hs, fun hex => ?_⟩
  obtain ⟨b, h1, h2⟩ := hex 11 10 (by decide) (by decide)
  rw [hcalls, show told [(11, false), (11, true)] 11 = some true by decide] at h1
  cases h1
  obtain ⟨m, hm, hbel⟩ := h2.mp rfl
  have hm14 : m = 14 := by
    simp only [staleHistory, markedAfter, List.foldl_cons, List.foldl_nil, markedStep, fupd] at hm
    split at hm
    · cases hm
    · split at hm
      · assumption
      · cases hm
  subst hm14
  have e14 : parentAfter staleHistory 14 = some 13 := by decide
  have e13 : parentAfter staleHistory 13 = none := by decide
  cases hbel with
  | up h1 h2 =>
    rw [e14] at h1; cases h1
    cases h2 with
    | up h3 _ => rw [e13] at h3; cases h3

/-- **C25, not in general (2).** Replacing the handler of an element by another one
(dom_element_class.rs:115-132) registers the new one and then drops the resource of the old
one, which unregisters the new handler: it never hears of the marker that is created next. -/
theorem C25_replaced_handler_violated :
    let replaced : List Op := [.handler 11, .attach 11 10, .handler 11, .noHandler 11]
    ∃ s, State.run {} (replaced ++ [.marker 14, .attach 14 10]) = some s ∧ told s.calls 11 = some false ∧
      Below (parentAfter (replaced ++ [.marker 14, .attach 14 10])) 14 10 := by
  refine ⟨_, rfl, by decide +kernel, .up (p := 10) (by decide) (.refl _)⟩

end Verif.Driver.Suspense

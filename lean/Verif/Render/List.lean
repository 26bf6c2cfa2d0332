import Verif.Dom.Children
import Mathlib.Data.List.Perm.Basic
import Mathlib.Data.List.Nodup
/-!
# C23: render_list

Model of crates/vertigo/src/render/dom_list.rs.  What it does to the document are insertions
into, and removals from, the children of the parent of the marker (a comment); what these mean
is specified by `ChildOp.onList` (C26: the server implements it; the browser model is defined by
it).
-/
namespace Verif.Render
open Verif.Dom

variable {T K : Type} [DecidableEq T] [DecidableEq K]

/-! ## Model -/

/-- A `DomNode` (dom_node.rs:6-10): its id.  A marker (`DomComment::new_marker`) has content,
which it inserts before itself whenever it is inserted (dom_comment.rs:30-62, 72-90: the nodes of
`dom_fragment`); elements and texts have none. -/
structure Node where
  id : Id
  content : List Id := []
  deriving DecidableEq

/-- dom_comment.rs:72-86: the nodes are inserted from the last to the first. -/
def contentOps : Id → List Id → List ChildOp
  | _, [] => []
  | prev, n :: l => .insert (some prev) n :: contentOps n l

/-- driver_module/dom.rs:223-235: `insert_before(parent, node, Some(ref))`: the command, then the
callback of a marker. -/
def insertOps (ref : Id) (n : Node) : List ChildOp :=
  .insert (some ref) n.id :: contentOps n.id n.content.reverse

/-- Dropping a `DomNode` removes it (dom_element.rs:395-399, dom_text.rs:50-54, dom_comment.rs:93-97),
and a marker drops its content. -/
def dropOps (n : Node) : List ChildOp := .remove n.id :: n.content.map .remove

/-- dom_list.rs:116-148: what is matched, and what is left of the two lists. -/
def getPairsTop : List (T × Node) → List T → List (T × Node) × List (T × Node) × List T
  | (id1, node) :: current, id2 :: new =>
      if id1 = id2 then
        let (pairs, current, new) := getPairsTop current new
        ((id1, node) :: pairs, current, new)
      else ([], (id1, node) :: current, id2 :: new)
  | current, new => ([], current, new)

/-- dom_list.rs:150-182: the same from the end (the lists are taken in reverse order). -/
def getPairsBottom (current : List (T × Node)) (new : List T) : List (T × Node) × List (T × Node) × List T :=
  let (pairs, current, new) := getPairsTop current.reverse new.reverse
  (pairs.reverse, current.reverse, new.reverse)

/-- dom_list.rs:108-114. -/
def findFirstDom (l : List (T × Node)) : Option Id := l.head?.map (·.2.id)

/-- dom_list.rs:218-222 (`CacheNode.data`): the queues of all keys, as one list in the order of insertion. -/
abbrev Cache (K : Type) := List (K × Node)

/-- dom_list.rs:196-198, 236-240: the nodes of the old list, in order. -/
def insertAll (key : T → K) (l : List (T × Node)) : Cache K := l.map fun p => (key p.1, p.2)

/-- `entry(key).or_default().pop_front()` (dom_list.rs:244). -/
def Cache.pop (k : K) : Cache K → Option (Node × Cache K)
  | [] => none
  | (k', n) :: c =>
      if k' = k then some (n, c)
      else
        match Cache.pop k c with
        | none => none
        | some (n', c) => some (n', (k', n) :: c)

/-- What `render` makes of an item; `supply` is the next id that is not in use. -/
structure Renderer (T : Type) where
  node : T → Nat → Node
  supply : T → Nat → Nat

/-- dom_list.rs:242-252: `get_or_create`; the flag says that the node is new. -/
def getOrCreate (key : T → K) (render : Renderer T) (item : T) (c : Cache K) (supply : Nat) : Node × Cache K × Nat × Bool :=
  match c.pop (key item) with
  | some (n, c) => (n, c, supply, false)
  | none => (render.node item supply, c, render.supply item supply, true)

/-- The state of the loop dom_list.rs:203-213; `created` is a record of the calls of `render`. -/
structure Middle (T K : Type) where
  pairs : List (T × Node)
  cache : Cache K
  lastBefore : Id
  supply : Nat
  ops : List ChildOp
  created : List (T × Node)

/-- dom_list.rs:203-213, the loop (over the items in reverse order). -/
def middleLoop (key : T → K) (render : Renderer T) : List T → Middle T K → Middle T K
  | [], m => m
  | item :: items, m =>
      let (node, cache, supply, new) := getOrCreate key render item m.cache m.supply
      middleLoop key render items
        { pairs := (item, node) :: m.pairs
          cache
          lastBefore := node.id
          supply
          ops := m.ops ++ insertOps m.lastBefore node
          created := if new then (item, node) :: m.created else m.created }

/-- The list after a change, and what was done. -/
structure Reordered (T : Type) where
  pairs : List (T × Node)
  supply : Nat
  ops : List ChildOp
  created : List (T × Node)
  dropped : List Node

/-- dom_list.rs:81-106 (`reorder_nodes`) and 184-216 (`get_pairs_middle`). At the end of `get_pairs_middle` the nodes
left in the cache are dropped, in the order of a `HashMap`: `order` puts them in any order. -/
def reorderNodes (key : T → K) (render : Renderer T) (order : List Node → List Node) (comment : Id) (supply : Nat)
    (real : List (T × Node)) (new : List T) : Reordered T :=
  let (top, real, new) := getPairsTop real new
  let (bottom, real, new) := getPairsBottom real new
  let lastBefore := (findFirstDom bottom).getD comment
  let m := middleLoop key render new.reverse
    { pairs := [], cache := insertAll key real, lastBefore, supply, ops := [], created := [] }
  let dropped := order (m.cache.map (·.2))
  { pairs := top ++ m.pairs ++ bottom
    supply := m.supply
    ops := m.ops ++ dropped.flatMap dropOps
    created := m.created
    dropped }

/-! ## Specification -/

/-- `render` makes nodes with ids that were not in use, which are elements or texts. -/
structure Renderer.Ok (r : Renderer T) : Prop where
  fresh : ∀ t n, n ≤ (r.node t n).id ∧ (r.node t n).id < r.supply t n
  plain : ∀ t n, (r.node t n).content = []

/-- The children of the parent show the list: one node for each item, in order, before the marker. -/
def Shows (children before : List Id) (l : List (T × Node)) (comment : Id) (after : List Id) : Prop :=
  children = before ++ l.map (·.2.id) ++ comment :: after

/-- The nodes with a key. -/
def withKey (key : T → K) (k : K) (l : List (T × Node)) : List Node := (l.filter fun p => key p.1 = k).map (·.2)

/-! ## Proofs -/

theorem getPairsTop_eq : ∀ (current : List (T × Node)) (new : List T),
    current = (getPairsTop current new).1 ++ (getPairsTop current new).2.1 ∧
    new = (getPairsTop current new).1.map (·.1) ++ (getPairsTop current new).2.2
  | [], new => by cases new <;> exact ⟨rfl, rfl⟩
  | (id1, node) :: current, [] => ⟨rfl, rfl⟩
  | (id1, node) :: current, id2 :: new => by
      rw [getPairsTop]
      split
      · rename_i h
        have ih := getPairsTop_eq current new
        exact ⟨by simp [← ih.1], by simp [← ih.2, h]⟩
      · exact ⟨rfl, rfl⟩

theorem getPairsBottom_eq (current : List (T × Node)) (new : List T) :
    current = (getPairsBottom current new).2.1 ++ (getPairsBottom current new).1 ∧
    new = (getPairsBottom current new).2.2 ++ (getPairsBottom current new).1.map (·.1) := by
  have h := getPairsTop_eq current.reverse new.reverse
  simp only [getPairsBottom]
  constructor
  · have := congrArg List.reverse h.1
    rw [List.reverse_reverse, List.reverse_append] at this
    exact this
  · have := congrArg List.reverse h.2
    rw [List.reverse_reverse, List.reverse_append] at this
    simpa using this

theorem pop_some {k : K} : ∀ {c c' : Cache K} {n : Node}, c.pop k = some (n, c') →
    ∃ a b, c = a ++ (k, n) :: b ∧ c' = a ++ b ∧ ∀ e ∈ a, e.1 ≠ k
  | [], _, _, h => by cases h
  | (k', m) :: c, c', n, h => by
      rw [Cache.pop] at h
      split at h
      · rename_i hk
        cases h
        exact ⟨[], c, by simp [hk], rfl, by simp⟩
      · rename_i hk
        cases hp : Cache.pop k c with
        | none => rw [hp] at h; cases h
        | some x =>
          obtain ⟨n', c''⟩ := x
          rw [hp] at h
          cases h
          obtain ⟨a, b, h1, h2, h3⟩ := pop_some hp
          exact ⟨(k', m) :: a, b, by simp [h1], by simp [h2], by simp [hk]; exact fun a b h => h3 (a, b) h⟩

theorem pop_none {k : K} : ∀ {c : Cache K}, c.pop k = none → ∀ e ∈ c, e.1 ≠ k
  | [], _, e, he => by cases he
  | (k', m) :: c, h, e, he => by
      rw [Cache.pop] at h
      split at h
      · cases h
      · rename_i hk
        cases hp : Cache.pop k c with
        | none =>
          rcases List.mem_cons.mp he with rfl | he
          · exact hk
          · exact pop_none hp e he
        | some x => rw [hp] at h; cases h


theorem validOps_append : ∀ (a b : List ChildOp) (l : List Id), validOps l a → validOps (a.foldl ChildOp.onList l) b →
    validOps l (a ++ b)
  | [], _, _, _, h => h
  | _ :: a, b, _, h, h' => ⟨h.1, validOps_append a b _ h.2 h'⟩

/-- A move of a child to directly before another one. -/
theorem onList_move {a b : List Id} {x r : Id} {t : List Id} (h : (a ++ x :: b ++ r :: t).Nodup) :
    ChildOp.valid (a ++ x :: b ++ r :: t) (.insert (some r) x) ∧
    ChildOp.onList (a ++ x :: b ++ r :: t) (.insert (some r) x) = a ++ b ++ x :: r :: t := by
  have hx : x ∉ a ++ b ++ r :: t := by
    have h2 : (x :: (a ++ b ++ r :: t)).Nodup := by
      apply (List.Perm.nodup_iff _).mp h
      simp only [List.append_assoc, List.cons_append]
      exact List.perm_middle
    exact (List.nodup_cons.mp h2).1
  have hr : r ∉ a ++ b := by
    have h2 : (r :: (a ++ x :: b ++ t)).Nodup := by
      apply (List.Perm.nodup_iff _).mp h
      exact List.perm_middle
    have := (List.nodup_cons.mp h2).1
    simp only [List.mem_append, List.mem_cons] at this ⊢
    tauto
  refine ⟨⟨by simp, fun e => hx (by simp [e])⟩, ?_⟩
  simp only [ChildOp.onList, listInsert]
  have e : (a ++ x :: b ++ r :: t).filter (· ≠ x) = a ++ b ++ r :: t := by
    rw [← filter_ne_of_not_mem hx]
    simp [List.filter_append, List.filter_cons]
  rw [e, insertBeforeIn_split _ _ _ _ hr]

/-- The insertion of a new child. -/
theorem onList_new {a : List Id} {x r : Id} {t : List Id} (h : (a ++ r :: t).Nodup) (hx : x ∉ a ++ r :: t) :
    ChildOp.valid (a ++ r :: t) (.insert (some r) x) ∧
    ChildOp.onList (a ++ r :: t) (.insert (some r) x) = a ++ x :: r :: t := by
  have hr : r ∉ a := by
    have h2 : (r :: (a ++ t)).Nodup := (List.Perm.nodup_iff List.perm_middle).mp h
    have := (List.nodup_cons.mp h2).1
    simp only [List.mem_append] at this
    tauto
  refine ⟨⟨by simp, fun e => hx (by simp [e])⟩, ?_⟩
  simp only [ChildOp.onList, listInsert]
  rw [filter_ne_of_not_mem hx, insertBeforeIn_split _ _ _ _ hr]

/-- What the loop does. -/
structure LoopSpec (key : T → K) (render : Renderer T) (pre D : List Id) (items : List T) (m m' : Middle T K)
    (pairs created : List (T × Node)) (ops : List ChildOp) : Prop where
  ops_eq : m'.ops = m.ops ++ ops
  pairs_eq : m'.pairs = pairs ++ m.pairs
  created_eq : m'.created = created ++ m.created
  valid : validOps (pre ++ m.cache.map (·.2.id) ++ D) ops
  children : ops.foldl ChildOp.onList (pre ++ m.cache.map (·.2.id) ++ D) =
    pre ++ m'.cache.map (·.2.id) ++ (pairs.map (·.2.id) ++ D)
  nodup : (pre ++ m'.cache.map (·.2.id) ++ (pairs.map (·.2.id) ++ D)).Nodup
  items_eq : pairs.map (·.1) = items.reverse
  supply_le : m.supply ≤ m'.supply
  below : ∀ x ∈ pre ++ m'.cache.map (·.2.id) ++ (pairs.map (·.2.id) ++ D), x < m'.supply
  account : (m.cache ++ insertAll key created).Perm (m'.cache ++ insertAll key pairs)
  source : ∀ p ∈ pairs, (key p.1, p.2) ∈ m.cache ∨ p ∈ created
  created_sub : ∀ p ∈ created, p ∈ pairs ∧ m.supply ≤ p.2.id ∧ (∃ s, p.2 = render.node p.1 s) ∧
    ∀ e ∈ m'.cache, e.1 ≠ key p.1
  cache_sub : ∀ e ∈ m'.cache, e ∈ m.cache
  plain : ∀ p ∈ pairs, p.2.content = []

omit [DecidableEq T] in
theorem middleLoop_spec (key : T → K) (render : Renderer T) (hok : render.Ok) (pre : List Id) :
    ∀ (items : List T) (m : Middle T K) (rest : List Id),
    (pre ++ m.cache.map (·.2.id) ++ m.lastBefore :: rest).Nodup →
    (∀ x ∈ pre ++ m.cache.map (·.2.id) ++ m.lastBefore :: rest, x < m.supply) →
    (∀ e ∈ m.cache, e.2.content = []) →
    ∃ pairs created ops,
      LoopSpec key render pre (m.lastBefore :: rest) items m (middleLoop key render items m) pairs created ops
  | [], m, rest, hn, hb, _ => ⟨[], [], [], by simp [middleLoop], by simp [middleLoop], by simp [middleLoop], trivial,
      by simp [middleLoop], by simpa [middleLoop] using hn, rfl, Nat.le_refl _, by simpa [middleLoop] using hb,
      by simp [middleLoop], by simp, by simp, fun e h => h, by simp⟩
  | item :: items, m, rest, hn, hb, hpl => by
      rw [middleLoop]
      cases hp : m.cache.pop (key item) with
      | some x =>
        obtain ⟨node, cache⟩ := x
        obtain ⟨a, b, hc, hc', _⟩ := pop_some hp
        have hg : getOrCreate key render item m.cache m.supply = (node, cache, m.supply, false) := by
          simp [getOrCreate, hp]
        rw [hg]
        have hnode : node.content = [] := hpl (key item, node) (by rw [hc]; simp)
        have e0 : pre ++ m.cache.map (·.2.id) ++ m.lastBefore :: rest =
            (pre ++ a.map (·.2.id)) ++ node.id :: b.map (·.2.id) ++ m.lastBefore :: rest := by
          rw [hc]; simp
        have e1 : pre ++ cache.map (·.2.id) ++ node.id :: m.lastBefore :: rest =
            (pre ++ a.map (·.2.id)) ++ b.map (·.2.id) ++ node.id :: m.lastBefore :: rest := by
          rw [hc']; simp
        have hmove := onList_move (e0 ▸ hn)
        rw [← e0, ← e1] at hmove
        have hperm : (pre ++ m.cache.map (·.2.id) ++ m.lastBefore :: rest).Perm
            (pre ++ cache.map (·.2.id) ++ node.id :: m.lastBefore :: rest) := by
          rw [e0, e1]
          simp only [List.append_assoc, List.cons_append]
          refine List.Perm.append_left _ (List.Perm.append_left _ ?_)
          exact List.perm_middle.symm
        obtain ⟨pairs, created, ops, s⟩ := middleLoop_spec key render hok pre items
          { pairs := (item, node) :: m.pairs, cache, lastBefore := node.id, supply := m.supply
            ops := m.ops ++ insertOps m.lastBefore node
            created := if false = true then (item, node) :: m.created else m.created } (m.lastBefore :: rest)
          (hperm.nodup_iff.mp hn) (fun x hx => hb x (hperm.mem_iff.mpr hx))
          (fun e he => hpl e (by rw [hc]; rw [hc'] at he; simp at he ⊢; tauto))
        have hins : insertOps m.lastBefore node = [.insert (some m.lastBefore) node.id] := by
          simp [insertOps, hnode, contentOps]
        refine ⟨pairs ++ [(item, node)], created, .insert (some m.lastBefore) node.id :: ops, ?_⟩
        refine ⟨by rw [s.ops_eq, hins]; simp, by rw [s.pairs_eq]; simp, by rw [s.created_eq]; simp,
          ⟨hmove.1, by rw [hmove.2]; exact s.valid⟩, ?_, ?_, by simp [s.items_eq], s.supply_le, ?_, ?_, ?_, ?_, ?_, ?_⟩
        · rw [List.foldl_cons, hmove.2, s.children]; simp
        · have := s.nodup; simpa using this
        · intro x hx; exact s.below x (by simpa using hx)
        · have hA : m.cache.Perm ((key item, node) :: cache) := by
            rw [hc, hc']; exact List.perm_middle
          have := s.account
          dsimp only at this
          refine (hA.append_right _).trans ((this.cons _).trans ?_)
          simp only [insertAll, List.map_append, List.map_cons, List.map_nil, ← List.append_assoc]
          exact (List.perm_append_singleton _ _).symm
        · intro p hp
          rcases List.mem_append.mp hp with hp | hp
          · rcases s.source p hp with h | h
            · left; rw [hc]; dsimp only at h; rw [hc'] at h; simp at h ⊢; tauto
            · exact Or.inr h
          · left; simp at hp; subst hp; rw [hc]; simp
        · intro p hp
          obtain ⟨h1, h2⟩ := s.created_sub p hp
          exact ⟨List.mem_append_left _ h1, h2⟩
        · intro e he
          have := s.cache_sub e he
          dsimp only at this; rw [hc'] at this; rw [hc]; simp at this ⊢; tauto
        · intro p hp
          rcases List.mem_append.mp hp with hp | hp
          · exact s.plain p hp
          · simp at hp; subst hp; exact hnode
      | none =>
        have hnone := pop_none hp
        have hg : getOrCreate key render item m.cache m.supply =
            (render.node item m.supply, m.cache, render.supply item m.supply, true) := by
          simp [getOrCreate, hp]
        rw [hg]
        generalize hnd : render.node item m.supply = node
        have hf := hok.fresh item m.supply
        have hnode : node.content = [] := by rw [← hnd]; exact hok.plain _ _
        rw [hnd] at hf
        have hsup : m.supply < render.supply item m.supply := Nat.lt_of_le_of_lt hf.1 hf.2
        have hx : node.id ∉ pre ++ m.cache.map (·.2.id) ++ m.lastBefore :: rest :=
          fun h => absurd (hb _ h) (Nat.not_lt.mpr hf.1)
        have hmove := onList_new hn hx
        have hn' : (pre ++ m.cache.map (·.2.id) ++ node.id :: m.lastBefore :: rest).Nodup :=
          (List.perm_middle.nodup_iff).mpr (List.nodup_cons.mpr ⟨hx, hn⟩)
        obtain ⟨pairs, created, ops, s⟩ := middleLoop_spec key render hok pre items
          { pairs := (item, node) :: m.pairs, cache := m.cache, lastBefore := node.id
            supply := render.supply item m.supply
            ops := m.ops ++ insertOps m.lastBefore node
            created := if true = true then (item, node) :: m.created else m.created } (m.lastBefore :: rest)
          hn' (fun x hx => by
            have := List.perm_middle.mem_iff.mp hx
            rcases List.mem_cons.mp this with rfl | h
            · exact hf.2
            · exact Nat.lt_trans (hb x h) hsup)
          hpl
        have hins : insertOps m.lastBefore node = [.insert (some m.lastBefore) node.id] := by
          simp [insertOps, hnode, contentOps]
        have hle := s.supply_le
        dsimp only at hle
        refine ⟨pairs ++ [(item, node)], created ++ [(item, node)], .insert (some m.lastBefore) node.id :: ops, ?_⟩
        refine ⟨by rw [s.ops_eq, hins]; simp, by rw [s.pairs_eq]; simp, by rw [s.created_eq]; simp,
          ⟨hmove.1, by rw [hmove.2]; exact s.valid⟩, ?_, ?_, by simp [s.items_eq], Nat.le_trans (Nat.le_of_lt hsup) hle, ?_, ?_, ?_, ?_, ?_, ?_⟩
        · rw [List.foldl_cons, hmove.2, s.children]; simp
        · have := s.nodup; simpa using this
        · intro x hx; exact s.below x (by simpa using hx)
        · have := s.account
          dsimp only at this
          simp only [insertAll, List.map_append, List.map_cons, List.map_nil, ← List.append_assoc]
          exact this.append_right _
        · intro p hp
          rcases List.mem_append.mp hp with hp | hp
          · rcases s.source p hp with h | h
            · exact Or.inl h
            · exact Or.inr (List.mem_append_left _ h)
          · exact Or.inr (List.mem_append_right _ hp)
        · intro p hp
          rcases List.mem_append.mp hp with hp | hp
          · obtain ⟨h1, h2, h3⟩ := s.created_sub p hp
            dsimp only at h2
            exact ⟨List.mem_append_left _ h1, Nat.le_trans (Nat.le_of_lt hsup) h2, h3⟩
          · simp at hp; subst hp
            exact ⟨by simp, hf.1, ⟨_, hnd.symm⟩, fun e he => hnone e (s.cache_sub e he)⟩
        · exact s.cache_sub
        · intro p hp
          rcases List.mem_append.mp hp with hp | hp
          · exact s.plain p hp
          · simp at hp; subst hp; exact hnode

/-- What a change of the list does, as far as it is needed below. -/
structure StepSpec (key : T → K) (render : Renderer T) (order : List Node → List Node) (comment : Id) (supply : Nat)
    (real : List (T × Node)) (new : List T) (before after : List Id) (r : Reordered T) (left : Cache K) : Prop where
  valid : validOps (before ++ real.map (·.2.id) ++ comment :: after) r.ops
  shows : r.ops.foldl ChildOp.onList (before ++ real.map (·.2.id) ++ comment :: after) =
    before ++ r.pairs.map (·.2.id) ++ comment :: after
  nodup : (before ++ r.pairs.map (·.2.id) ++ comment :: after).Nodup
  below : ∀ x ∈ before ++ r.pairs.map (·.2.id) ++ comment :: after, x < r.supply
  supply_le : supply ≤ r.supply
  items : r.pairs.map (·.1) = new
  plain : ∀ p ∈ r.pairs, p.2.content = []
  account : (insertAll key real ++ insertAll key r.created).Perm (left ++ insertAll key r.pairs)
  created : ∀ p ∈ r.created, p ∈ r.pairs ∧ supply ≤ p.2.id ∧ (∃ s, p.2 = render.node p.1 s) ∧
    ∀ e ∈ left, e.1 ≠ key p.1
  dropped : r.dropped = order (left.map (·.2))
  left_ids : (left.map (·.2.id) ++ (before ++ r.pairs.map (·.2.id) ++ comment :: after)).Nodup

theorem foldl_drops : ∀ (l : List Node) (a c : List Id), (∀ n ∈ l, n.content = []) →
    (∀ n ∈ l, n.id ∉ c) → (∀ x ∈ a, x ∈ l.map (·.id) ∨ x ∈ c) → a.filter (· ∈ c) = c →
    (l.flatMap dropOps).foldl ChildOp.onList a = c
  | [], a, c, _, _, h, h' => by
      rw [← h']
      exact (List.filter_eq_self.mpr fun x hx => by simpa using h x hx).symm
  | n :: l, a, c, hp, hn, h, h' => by
      have hop : dropOps n = [.remove n.id] := by simp [dropOps, hp n (by simp)]
      rw [List.flatMap_cons, hop, List.singleton_append, List.foldl_cons]
      apply foldl_drops l _ c (fun n hn => hp n (by simp [hn])) (fun m hm => hn m (by simp [hm]))
      · intro x hx
        simp only [ChildOp.onList, List.mem_filter, decide_eq_true_eq] at hx
        rcases h x hx.1 with h | h
        · left; simp only [List.map_cons, List.mem_cons] at h; exact h.resolve_left hx.2
        · exact Or.inr h
      · simp only [ChildOp.onList, List.filter_filter]
        conv_rhs => rw [← h']
        apply List.filter_congr
        intro x _
        by_cases hx : x ∈ c
        · have : x ≠ n.id := fun e => hn n (by simp) (e ▸ hx)
          simp [hx, this]
        · simp [hx]

theorem validOps_drops : ∀ (l : List Node) (a : List Id), validOps a (l.flatMap dropOps) := by
  suffices h : ∀ (ops : List ChildOp) (a : List Id), (∀ op ∈ ops, ∃ x, op = .remove x) → validOps a ops by
    intro l a
    apply h
    intro op hop
    obtain ⟨n, _, hn⟩ := List.mem_flatMap.mp hop
    simp only [dropOps, List.mem_cons, List.mem_map] at hn
    rcases hn with rfl | ⟨x, _, rfl⟩
    · exact ⟨_, rfl⟩
    · exact ⟨_, rfl⟩
  intro ops
  induction ops with
  | nil => exact fun _ _ => trivial
  | cons op ops ih =>
    intro a h
    obtain ⟨x, rfl⟩ := h op (by simp)
    exact ⟨trivial, ih _ fun op hop => h op (by simp [hop])⟩

theorem reorder_spec (key : T → K) (render : Renderer T) (hok : render.Ok) (order : List Node → List Node)
    (horder : ∀ l, (order l).Perm l) (comment : Id) (supply : Nat)
    (real : List (T × Node)) (new : List T) (before after : List Id)
    (hplain : ∀ p ∈ real, p.2.content = [])
    (hn : (before ++ real.map (·.2.id) ++ comment :: after).Nodup)
    (hb : ∀ x ∈ before ++ real.map (·.2.id) ++ comment :: after, x < supply) :
    ∃ left, StepSpec key render order comment supply real new before after
      (reorderNodes key render order comment supply real new) left := by
  have h1 := getPairsTop_eq real new
  simp only [reorderNodes]
  generalize getPairsTop real new = x1 at h1 ⊢
  obtain ⟨top, real1, new1⟩ := x1
  have h2 := getPairsBottom_eq real1 new1
  dsimp only at h1 ⊢
  generalize getPairsBottom real1 new1 = x2 at h2 ⊢
  obtain ⟨bottom, mid, new2⟩ := x2
  dsimp only at h2 ⊢
  obtain ⟨rfl, rfl⟩ := h2
  obtain ⟨rfl, rfl⟩ := h1
  -- the reference is the first of the nodes after the middle
  obtain ⟨rest, hrest⟩ : ∃ rest, bottom.map (·.2.id) ++ comment :: after =
      (findFirstDom bottom).getD comment :: rest := by
    cases bottom with
    | nil => exact ⟨after, rfl⟩
    | cons b bs => exact ⟨bs.map (·.2.id) ++ comment :: after, rfl⟩
  generalize (findFirstDom bottom).getD comment = lastBefore at hrest ⊢
  have hmid : (insertAll key mid).map (·.2.id) = mid.map (·.2.id) := by simp [insertAll, Function.comp_def]
  have e0 : before ++ (top ++ (mid ++ bottom)).map (·.2.id) ++ comment :: after =
      (before ++ top.map (·.2.id)) ++ (insertAll key mid).map (·.2.id) ++ lastBefore :: rest := by
    rw [hmid, ← hrest]; simp
  obtain ⟨pairs, created, ops, s⟩ := middleLoop_spec key render hok (before ++ top.map (·.2.id)) new2.reverse
    { pairs := [], cache := insertAll key mid, lastBefore, supply, ops := [], created := [] } rest
    (e0 ▸ hn) (fun x hx => hb x (e0 ▸ hx))
    (fun e he => by
      simp only [insertAll, List.mem_map] at he
      obtain ⟨p, hp, rfl⟩ := he
      exact hplain p (by simp [hp]))
  generalize middleLoop key render new2.reverse _ = m at s ⊢
  obtain ⟨s1, s2, s3, s4, s5, s6, s7, s8, s9, s10, s11, s12, s13, s14⟩ := s
  simp only [List.append_nil, List.nil_append] at s1 s2 s3
  dsimp only at s4 s5 s8 s10 s11 s12 s13
  rw [← e0] at s4 s5
  rw [s1, s2, s3]
  have hsplit : before ++ (top ++ pairs ++ bottom).map (·.2.id) ++ comment :: after =
      before ++ top.map (·.2.id) ++ (pairs.map (·.2.id) ++ lastBefore :: rest) := by
    rw [← hrest]; simp
  have hperm : (before ++ top.map (·.2.id) ++ m.cache.map (·.2.id) ++ (pairs.map (·.2.id) ++ lastBefore :: rest)).Perm
      (m.cache.map (·.2.id) ++ (before ++ (top ++ pairs ++ bottom).map (·.2.id) ++ comment :: after)) := by
    rw [hsplit, List.append_assoc (before ++ top.map (·.2.id))]
    exact List.perm_append_comm_assoc _ _ _
  have hids := hperm.nodup_iff.mp s6
  have hdis := (List.nodup_append.mp hids)
  have hpl : ∀ n ∈ order (m.cache.map (·.2)), n.content = [] := by
    intro n hn
    have := (horder _).mem_iff.mp hn
    obtain ⟨e, he, rfl⟩ := List.mem_map.mp this
    have := s13 e he
    simp only [insertAll, List.mem_map] at this
    obtain ⟨p, hp, rfl⟩ := this
    exact hplain p (by simp [hp])
  refine ⟨m.cache, ⟨validOps_append _ _ _ s4 (validOps_drops _ _), ?_, hdis.2.1, ?_, s8, ?_, ?_, ?_, ?_, rfl, hids⟩⟩
  · rw [List.foldl_append, s5]
    apply foldl_drops _ _ _ hpl
    · intro n hn hc
      have := (horder _).mem_iff.mp hn
      obtain ⟨e, he, rfl⟩ := List.mem_map.mp this
      exact hdis.2.2 _ (List.mem_map.mpr ⟨e, he, rfl⟩) _ hc rfl
    · intro x hx
      rcases List.mem_append.mp (hperm.mem_iff.mp hx) with h | h
      · left
        obtain ⟨e, he, rfl⟩ := List.mem_map.mp h
        exact List.mem_map.mpr ⟨e.2, (horder _).mem_iff.mpr (List.mem_map.mpr ⟨e, he, rfl⟩), rfl⟩
      · exact Or.inr h
    · rw [hsplit]
      have hc : ∀ x ∈ m.cache.map (·.2.id),
          x ∉ before ++ top.map (·.2.id) ++ (pairs.map (·.2.id) ++ lastBefore :: rest) := by
        intro x hx hx'
        rw [← hsplit] at hx'
        exact hdis.2.2 x hx x hx' rfl
      generalize before ++ top.map (·.2.id) = A at hc ⊢
      generalize pairs.map (·.2.id) ++ lastBefore :: rest = B at hc ⊢
      generalize m.cache.map (·.2.id) = C at hc ⊢
      rw [List.filter_append, List.filter_append]
      have hA : A.filter (· ∈ A ++ B) = A := List.filter_eq_self.mpr (by intro x hx; simp [hx])
      have hB : B.filter (· ∈ A ++ B) = B := List.filter_eq_self.mpr (by intro x hx; simp [hx])
      have hC : C.filter (· ∈ A ++ B) = [] := List.filter_eq_nil_iff.mpr (by intro x hx; simpa using hc x hx)
      rw [hA, hB, hC, List.append_nil]
  · intro x hx
    exact s9 x (hperm.mem_iff.mpr (List.mem_append_right _ hx))
  · simp [s7]
  · intro p hp
    simp only [List.append_assoc, List.mem_append] at hp
    rcases hp with hp | hp | hp
    · exact hplain p (by simp [hp])
    · exact s14 p hp
    · exact hplain p (by simp [hp])
  · simp only [insertAll, List.map_append] at s10 ⊢
    generalize top.map (fun p => (key p.1, p.2)) = A
    generalize bottom.map (fun p => (key p.1, p.2)) = B
    generalize hM : mid.map (fun p => (key p.1, p.2)) = M at s10 ⊢
    generalize created.map (fun p => (key p.1, p.2)) = C at s10 ⊢
    generalize pairs.map (fun p => (key p.1, p.2)) = P at s10 ⊢
    apply List.perm_iff_count.mpr
    intro e
    have := List.perm_iff_count.mp s10 e
    simp only [List.count_append] at this ⊢
    omega
  · intro p hp
    obtain ⟨h1, h2⟩ := s12 p hp
    exact ⟨by simp [h1], h2⟩

/-! ## C23 -/

/-- **C23 (rendered nodes are elements or texts).** The list is shown by the children before the marker.  After a change
to any new list — with any keys, and whatever the order in which the nodes that are not used any more
are dropped — exactly one node for each new item is there, in the order of the items; the other children are untouched;
and all insertions refer to children that are there, so neither the browser nor the server fails.
The conclusion includes what the next change relies on.
(Not covered: items rendered to a marker, for which it is wrong, see below.) -/
theorem C23_shows_partial (key : T → K) (render : Renderer T) (hok : render.Ok) (order : List Node → List Node)
    (horder : ∀ l, (order l).Perm l) (comment : Id) (supply : Nat)
    (old : List (T × Node)) (new : List T) (children before after : List Id)
    (hplain : ∀ p ∈ old, p.2.content = []) (hs : Shows children before old comment after)
    (hn : children.Nodup) (hb : ∀ x ∈ children, x < supply) :
    let r := reorderNodes key render order comment supply old new
    let children' := r.ops.foldl ChildOp.onList children
    validOps children r.ops ∧ r.pairs.map (·.1) = new ∧ Shows children' before r.pairs comment after ∧
    children'.Nodup ∧ (∀ x ∈ children', x < r.supply) ∧ (∀ p ∈ r.pairs, p.2.content = []) := by
  unfold Shows at hs
  subst hs
  obtain ⟨left, s⟩ := reorder_spec key render hok order horder comment supply old new before after hplain hn hb
  refine ⟨s.valid, s.items, s.shows, ?_, ?_, s.plain⟩
  · rw [s.shows]; exact s.nodup
  · rw [s.shows]; exact s.below

/-- **C23, reuse (rendered nodes are elements or texts).** Each node shown is the node of an old item with the same key, or was rendered
for this item now; `render` is called as often for a key as the new list has more items with it than the
old one — so never while an old node with that key is available; and the nodes dropped are the old ones that are not shown any more. -/
theorem C23_reuse_partial (key : T → K) (render : Renderer T) (hok : render.Ok) (order : List Node → List Node)
    (horder : ∀ l, (order l).Perm l) (comment : Id) (supply : Nat)
    (old : List (T × Node)) (new : List T) (children before after : List Id)
    (hplain : ∀ p ∈ old, p.2.content = []) (hs : Shows children before old comment after)
    (hn : children.Nodup) (hb : ∀ x ∈ children, x < supply) :
    let r := reorderNodes key render order comment supply old new
    (∀ p ∈ r.pairs, (∃ q ∈ old, key q.1 = key p.1 ∧ q.2 = p.2) ∨ p ∈ r.created) ∧
    (∀ p ∈ r.created, p ∈ r.pairs ∧ (∃ s, p.2 = render.node p.1 s) ∧ ∀ q ∈ old, q.2 ≠ p.2) ∧
    (∀ k, (withKey key k r.created).length = (new.filter (key · = k)).length - (withKey key k old).length) ∧
    (∀ n, n ∈ r.dropped ↔ (∃ q ∈ old, q.2 = n) ∧ ∀ p ∈ r.pairs, p.2 ≠ n) ∧ r.dropped.Nodup := by
  unfold Shows at hs
  subst hs
  obtain ⟨left, s⟩ := reorder_spec key render hok order horder comment supply old new before after hplain hn hb
  have hmem : ∀ (l : List (T × Node)) k n, (k, n) ∈ insertAll key l ↔ ∃ q ∈ l, key q.1 = k ∧ q.2 = n := by
    intro l k n
    simp [insertAll]
  have hold : ∀ q ∈ old, q.2.id < supply := fun q hq =>
    hb _ (by simp only [List.mem_append, List.mem_map]; exact Or.inl (Or.inr ⟨q, hq, rfl⟩))
  have hdis := List.nodup_append.mp s.left_ids
  have hdis' : ∀ e ∈ left, ∀ p ∈ (reorderNodes key render order comment supply old new).pairs, p.2 ≠ e.2 := by
    intro e he p hp heq
    refine hdis.2.2 e.2.id (List.mem_map.mpr ⟨e, he, rfl⟩) p.2.id ?_ (by rw [heq])
    simp only [List.mem_append, List.mem_map]
    exact Or.inl (Or.inr ⟨p, hp, rfl⟩)
  refine ⟨?_, ?_, ?_, ?_, ?_⟩
  · intro p hp
    have : (key p.1, p.2) ∈ left ++ insertAll key (reorderNodes key render order comment supply old new).pairs :=
      List.mem_append_right _ ((hmem _ _ _).mpr ⟨p, hp, rfl, rfl⟩)
    rcases List.mem_append.mp (s.account.mem_iff.mpr this) with h | h
    · exact Or.inl ((hmem _ _ _).mp h)
    · right
      obtain ⟨q, hq, hk, hnode⟩ := (hmem _ _ _).mp h
      have hqp := (s.created q hq).1
      -- the nodes shown are distinct
      have hnd : ((reorderNodes key render order comment supply old new).pairs.map (·.2.id)).Nodup :=
        (List.nodup_append.mp (List.nodup_append.mp s.nodup).1).2.1
      have := List.inj_on_of_nodup_map hnd hqp hp (by rw [hnode])
      exact this ▸ hq
  · intro p hp
    obtain ⟨h1, h2, h3, h4⟩ := s.created p hp
    refine ⟨h1, h3, fun q hq heq => ?_⟩
    exact absurd (hold q hq) (Nat.not_lt.mpr (by rw [heq]; exact h2))
  · intro k
    have hc := s.account.countP_eq (fun e => e.1 = k)
    have hcount : ∀ (l : List (T × Node)), (insertAll key l).countP (fun e => e.1 = k) = (withKey key k l).length := by
      intro l
      simp [insertAll, withKey, List.countP_eq_length_filter, List.filter_map, Function.comp_def]
    have hnew : (withKey key k (reorderNodes key render order comment supply old new).pairs).length =
        (new.filter (key · = k)).length := by
      have := congrArg (fun l => (l.filter (key · = k)).length) s.items
      rw [← this, withKey, List.filter_map]
      simp [Function.comp_def]
    rw [List.countP_append, List.countP_append, hcount, hcount, hcount, hnew] at hc
    by_cases hz : (withKey key k (reorderNodes key render order comment supply old new).created).length = 0
    · omega
    · have : left.countP (fun e => e.1 = k) = 0 := by
        rw [List.countP_eq_zero]
        intro e he
        have hpos := List.length_pos_iff_exists_mem.mp (Nat.pos_of_ne_zero hz)
        obtain ⟨n, hn'⟩ := hpos
        simp only [withKey, List.mem_map, List.mem_filter, decide_eq_true_eq] at hn'
        obtain ⟨p, ⟨hp, hpk⟩, _⟩ := hn'
        have := (s.created p hp).2.2.2 e he
        rw [hpk] at this
        simpa using this
      omega
  · intro n
    rw [s.dropped, (horder _).mem_iff, List.mem_map]
    constructor
    · rintro ⟨e, he, rfl⟩
      refine ⟨?_, fun p hp => hdis' e he p hp⟩
      have : e ∈ left ++ insertAll key (reorderNodes key render order comment supply old new).pairs :=
        List.mem_append_left _ he
      rcases List.mem_append.mp (s.account.mem_iff.mpr this) with h | h
      · obtain ⟨q, hq, _, h2⟩ := (hmem _ e.1 e.2).mp h
        exact ⟨q, hq, h2⟩
      · obtain ⟨q, hq, _, h2⟩ := (hmem _ e.1 e.2).mp h
        exact absurd h2 (hdis' e he q (s.created q hq).1)
    · rintro ⟨⟨q, hq, rfl⟩, hnot⟩
      have : (key q.1, q.2) ∈ insertAll key old ++ insertAll key (reorderNodes key render order comment supply old new).created :=
        List.mem_append_left _ ((hmem _ _ _).mpr ⟨q, hq, rfl, rfl⟩)
      rcases List.mem_append.mp (s.account.mem_iff.mp this) with h | h
      · exact ⟨_, h, rfl⟩
      · obtain ⟨p, hp, _, h2⟩ := (hmem _ _ _).mp h
        exact absurd h2 (hnot p hp)
  · rw [s.dropped, (horder _).nodup_iff]
    have := hdis.1
    have e : left.map (·.2.id) = (left.map (·.2)).map (·.id) := by simp
    rw [e] at this
    exact this.of_map

/-- A history of list values, as seen by the subscription (dom_list.rs:46-77): it starts with no nodes. Between the
changes nothing else happens to the children of the parent in this model. -/
def history (key : T → K) (render : Renderer T) (order : List Node → List Node) (comment : Id) :
    List (List T) → List (T × Node) → Nat → List Id → List (T × Node) × Nat × List Id
  | [], l, supply, children => (l, supply, children)
  | new :: rest, l, supply, children =>
      let r := reorderNodes key render order comment supply l new
      history key render order comment rest r.pairs r.supply (r.ops.foldl ChildOp.onList children)

/-- **C23 (rendered nodes are elements or texts).** After any history of the list the children are the last list. -/
theorem C23_history_partial (key : T → K) (render : Renderer T) (hok : render.Ok) (order : List Node → List Node)
    (horder : ∀ l, (order l).Perm l) (comment : Id) (supply : Nat) (before after : List Id)
    (hn : (before ++ comment :: after).Nodup) (hb : ∀ x ∈ before ++ comment :: after, x < supply)
    (lists : List (List T)) (last : List T) :
    let (l, _, children) := history key render order comment (lists ++ [last]) [] supply (before ++ comment :: after)
    l.map (·.1) = last ∧ Shows children before l comment after := by
  suffices h : ∀ (lists : List (List T)) (l : List (T × Node)) (supply : Nat) (children : List Id),
      (∀ p ∈ l, p.2.content = []) → Shows children before l comment after → children.Nodup →
      (∀ x ∈ children, x < supply) →
      (history key render order comment (lists ++ [last]) l supply children).1.map (·.1) = last ∧
      Shows (history key render order comment (lists ++ [last]) l supply children).2.2 before
        (history key render order comment (lists ++ [last]) l supply children).1 comment after by
    exact h lists [] supply _ (by simp) (by simp [Shows]) hn hb
  intro lists
  induction lists with
  | nil =>
    intro l supply children hp hs hn hb
    obtain ⟨_, h2, h3, _⟩ := C23_shows_partial key render hok order horder comment supply l last children before after hp hs hn hb
    exact ⟨h2, h3⟩
  | cons new rest ih =>
    intro l supply children hp hs hn hb
    obtain ⟨_, h2, h3, h4, h5, h6⟩ := C23_shows_partial key render hok order horder comment supply l new children before after hp hs hn hb
    exact ih _ _ _ h6 h3 h4 h5

/-- Rendering an item to an element. -/
def elementRenderer : Renderer Nat := ⟨fun _ n => ⟨n, []⟩, fun _ n => n + 1⟩

theorem elementRenderer_ok : elementRenderer.Ok := ⟨fun _ n => ⟨Nat.le_refl n, Nat.lt_succ_self n⟩, fun _ _ => rfl⟩

/-- Rendering an item to a fragment of two texts. -/
def fragmentRenderer : Renderer Nat := ⟨fun _ n => ⟨n + 2, [n, n + 1]⟩, fun _ n => n + 3⟩

/-- **C23 is violated for items rendered to fragments** (or lists, or values: all have a marker). The first item is
shown by the nodes 15, 16 and its marker 17, the second by 12, 13, 14: the second is shown first. The items are inserted
from the last to the first, each before the marker of the following item instead of before its first node: the
content of the first item ends up between the content of the second and its marker. -/
theorem C23_fragments_violated :
    let r := reorderNodes (fun t : Nat => t) fragmentRenderer id 4 12 [] [1, 2]
    r.pairs = [(1, ⟨17, [15, 16]⟩), (2, ⟨14, [12, 13]⟩)] ∧
    r.ops.foldl ChildOp.onList [4] = [12, 13, 15, 16, 17, 14, 4] := by decide +kernel

/-- Moves, an insertion, a removal and a duplicated key (the last digit is the key): the nodes are 10 to 15. -/
example :
    let key (n : Nat) := n % 10
    let old := [(1, (⟨10, []⟩ : Node)), (2, ⟨11, []⟩), (3, ⟨12, []⟩), (13, ⟨13, []⟩), (5, ⟨14, []⟩), (6, ⟨15, []⟩)]
    let children := [7, 10, 11, 12, 13, 14, 15, 4, 8]
    Shows children [7] old 4 [8] ∧ children.Nodup ∧ (∀ x ∈ children, x < 16) ∧
    let r := reorderNodes key elementRenderer List.reverse 4 16 old [1, 5, 23, 9, 2, 9, 6]
    r.pairs = [(1, ⟨10, []⟩), (5, ⟨14, []⟩), (23, ⟨12, []⟩), (9, ⟨17, []⟩), (2, ⟨11, []⟩), (9, ⟨16, []⟩), (6, ⟨15, []⟩)] ∧
    r.dropped = [⟨13, []⟩] ∧
    r.ops.foldl ChildOp.onList children = [7, 10, 14, 12, 17, 11, 16, 15, 4, 8] := by
  unfold Shows
  decide +kernel

end Verif.Render

/-!
# C26: the children of an element, on the server

Source: `crates/vertigo-cli/src/serve/html/element_children.rs`.  The children are kept in
a circular doubly linked list in a `HashMap<u64, ChildrenNode>`, with a pointer to the first
one.
-/
namespace Verif.Dom

/-- A node id (`u64`). -/
abbrev Id := Nat

/-- element_children.rs:3-6. -/
structure ChildrenNode where
  left : Id
  right : Id
  deriving Repr, DecidableEq

/-- element_children.rs:8-11: `childs` as a function with the number of entries
(`childs.len()`). -/
structure ElementChildren where
  firstChild : Option Id := none
  childs : Id → Option ChildrenNode := fun _ => none
  len : Nat := 0

namespace ElementChildren

/-- `HashMap::insert`. -/
def put (c : ElementChildren) (x : Id) (n : ChildrenNode) : ElementChildren :=
  { c with
    childs := fun y => if y = x then some n else c.childs y
    len := if (c.childs x).isSome then c.len else c.len + 1 }

/-- `HashMap::remove`. -/
def del (c : ElementChildren) (x : Id) : ElementChildren :=
  { c with
    childs := fun y => if y = x then none else c.childs y
    len := if (c.childs x).isSome then c.len - 1 else c.len }

/-- The loop element_children.rs:32-39: the ids passed, and where the walk ends. `none` is
`unreachable!()`. -/
def walk (c : ElementChildren) : Nat → Id → Option (List Id × Id)
  | 0, x => some ([], x)
  | n + 1, x =>
      match c.childs x with
      | none => none
      | some node =>
          match c.walk n node.right with
          | none => none
          | some (l, e) => some (x :: l, e)

/-- element_children.rs:21-45; `none` is a panic. -/
def list (c : ElementChildren) : Option (List Id) :=
  if c.len = 0 then some []
  else
    match c.firstChild with
    | none => none
    | some f =>
        match c.walk c.len f with
        | none => none
        | some (l, e) => if e = f then some l else none

/-- element_children.rs:47-67. -/
def insertOnLeft (c : ElementChildren) (right node : Id) : Option ElementChildren :=
  match c.childs right with
  | none => none
  | some r =>
      let left := r.left
      let c := c.put right { r with left := node }
      match c.childs left with
      | none => none
      | some l => some ((c.put left { l with right := node }).put node ⟨left, right⟩)

/-- element_children.rs:103-130. -/
def remove (c : ElementChildren) (id : Id) : Option ElementChildren :=
  match c.childs id with
  | none => some c
  | some node =>
      let c := c.del id
      if node.left = id then
        if node.right = id then some { c with firstChild := none } else none
      else
        match c.childs node.right with
        | none => none
        | some r =>
            let c := c.put node.right { r with left := node.left }
            match c.childs node.left with
            | none => none
            | some l =>
                let c := c.put node.left { l with right := node.right }
                some (if c.firstChild = some id then { c with firstChild := some node.right } else c)

/-- element_children.rs:69-101. -/
def insertBefore (c : ElementChildren) (ref : Option Id) (child : Id) : Option ElementChildren :=
  if ref = some child then none
  else
    match c.remove child with
    | none => none
    | some c =>
        let right := match ref with
          | some r => some r
          | none => c.firstChild
        match right with
        | none =>
            if c.len = 0 then
              some { c.put child ⟨child, child⟩ with firstChild := some child }
            else none
        | some r =>
            match c.insertOnLeft r child with
            | none => none
            | some c =>
                some (if c.firstChild = ref then { c with firstChild := some child } else c)

end ElementChildren

/-! ## Specification: a list -/

/-- Put `x` directly before the first `r` (at the end if there is none). -/
def insertBeforeIn (x r : Id) : List Id → List Id
  | [] => [x]
  | y :: l => if y = r then x :: y :: l else y :: insertBeforeIn x r l

/-- What `insertBefore` of the DOM does to a list of children: the child is taken out, then
put before the reference, or at the end. -/
def listInsert (l : List Id) (ref : Option Id) (child : Id) : List Id :=
  match ref with
  | none => l.filter (· ≠ child) ++ [child]
  | some r => insertBeforeIn child r (l.filter (· ≠ child))

/-- Operations on children. -/
inductive ChildOp where
  | insert (ref : Option Id) (child : Id)
  | remove (child : Id)
  deriving Repr, DecidableEq

/-- The reference of an insertion is one of the other children. -/
def ChildOp.valid (l : List Id) : ChildOp → Prop
  | .insert (some r) child => r ∈ l ∧ r ≠ child
  | .insert none _ => True
  | .remove _ => True

def ChildOp.onList (l : List Id) : ChildOp → List Id
  | .insert ref child => listInsert l ref child
  | .remove child => l.filter (· ≠ child)

def ChildOp.onChildren (c : ElementChildren) : ChildOp → Option ElementChildren
  | .insert ref child => c.insertBefore ref child
  | .remove child => c.remove child

/-! ## Proof -/

/-- Consecutive pairs. -/
def links : List Id → List (Id × Id)
  | [] => []
  | [_] => []
  | x :: y :: l => (x, y) :: links (y :: l)

theorem links_append (a b : List Id) (x : Id) : links (a ++ x :: b) = links (a ++ [x]) ++ links (x :: b) := by
  induction a with
  | nil => simp [links]
  | cons y a ih =>
    cases a with
    | nil => simp [links]
    | cons z a => simp only [List.cons_append, links] at ih ⊢; rw [ih]

theorem links_snoc2 (a : List Id) (x y : Id) : links (a ++ [x, y]) = links (a ++ [x]) ++ [(x, y)] := by
  rw [show a ++ [x, y] = a ++ x :: [y] from rfl, links_append]; rfl

/-- `y` follows `x` in the ring. -/
def Link (c : Id → Option ChildrenNode) (x y : Id) : Prop :=
  (∃ a, c x = some ⟨a, y⟩) ∧ (∃ b, c y = some ⟨x, b⟩)

/-- The circular list of `l`. -/
def ring : List Id → List (Id × Id)
  | [] => []
  | x :: l => links (x :: l ++ [x])

/-- The structure represents the list. -/
structure Rep (c : ElementChildren) (l : List Id) : Prop where
  nodup : l.Nodup
  len : c.len = l.length
  first : c.firstChild = l.head?
  dom : ∀ x, c.childs x ≠ none ↔ x ∈ l
  link : ∀ e ∈ ring l, Link c.childs e.1 e.2

theorem rep_empty : Rep {} [] := ⟨by simp, rfl, rfl, by simp, by simp [ring]⟩

theorem mem_links {l : List Id} {x y} (h : (x, y) ∈ links l) : x ∈ l.dropLast ∧ y ∈ l.tail := by
  induction l with
  | nil => simp [links] at h
  | cons a l ih =>
    cases l with
    | nil => simp [links] at h
    | cons b l =>
      simp only [links, List.mem_cons, Prod.mk.injEq] at h
      rcases h with ⟨rfl, rfl⟩ | h
      · simp
      · obtain ⟨h1, h2⟩ := ih h
        exact ⟨by simp; right; simpa using h1, by simp only [List.tail_cons] at h2 ⊢; exact List.mem_cons_of_mem _ h2⟩

theorem ring_mem {l : List Id} {x y} (h : (x, y) ∈ ring l) : x ∈ l ∧ y ∈ l := by
  cases l with
  | nil => simp [ring] at h
  | cons a l =>
    obtain ⟨h1, h2⟩ := mem_links (l := a :: l ++ [a]) h
    rw [List.dropLast_concat] at h1
    refine ⟨h1, ?_⟩
    simp at h2; rcases h2 with h2 | h2 <;> simp [h2]

theorem List.nodup_append_comm' {a b : List Id} : (a ++ b).Nodup ↔ (b ++ a).Nodup := by
  simp only [List.nodup_append]
  constructor <;> rintro ⟨h1, h2, h3⟩ <;> exact ⟨h2, h1, fun x hx y hy e => h3 y hy x hx e.symm⟩

/-- A ring starting anywhere has the same pairs. -/
theorem ring_rot (a b : List Id) : ∀ e, e ∈ ring (a ++ b) ↔ e ∈ ring (b ++ a) := by
  intro e
  cases a with
  | nil => simp
  | cons x a =>
    cases b with
    | nil => simp
    | cons y b =>
      simp only [List.cons_append, ring]
      have h1 := links_append (x :: a) (b ++ [x]) y
      have h2 := links_append (y :: b) (a ++ [y]) x
      have e1 : x :: (a ++ y :: b) ++ [x] = (x :: a) ++ y :: (b ++ [x]) := by simp
      have e2 : y :: (b ++ x :: a) ++ [y] = (y :: b) ++ x :: (a ++ [y]) := by simp
      rw [show x :: (a ++ y :: b ++ [x]) = (x :: a) ++ y :: (b ++ [x]) from by simp,
        show y :: (b ++ x :: a ++ [y]) = (y :: b) ++ x :: (a ++ [y]) from by simp, h1, h2]
      simp only [List.mem_append, List.cons_append]
      exact Or.comm

theorem filter_ne_of_not_mem {l : List Id} {x : Id} (h : x ∉ l) : l.filter (· ≠ x) = l := by
  apply List.filter_eq_self.mpr
  intro y hy; simp; rintro rfl; exact h hy

theorem walk_spec (c : ElementChildren) : ∀ (l : List Id) (f e : Id),
    (∀ p ∈ links (f :: l ++ [e]), Link c.childs p.1 p.2) →
    c.walk (l.length + 1) f = some (f :: l, e) := by
  intro l
  induction l with
  | nil =>
    intro f e h
    obtain ⟨⟨a, h1⟩, _⟩ := h (f, e) (by simp [links])
    simp [ElementChildren.walk, h1]
  | cons x l ih =>
    intro f e h
    obtain ⟨⟨a, h1⟩, _⟩ := h (f, x) (by simp [links])
    have := ih x e (fun p hp => h p (by simp only [List.cons_append, links]; exact List.mem_cons_of_mem _ hp))
    simp only [List.length_cons]
    unfold ElementChildren.walk
    rw [h1]
    simp only [this]

theorem Rep.list_eq {c : ElementChildren} {l} (h : Rep c l) : c.list = some l := by
  unfold ElementChildren.list
  cases l with
  | nil => simp [h.len]
  | cons x l =>
    have := walk_spec c l x x h.link
    simp [h.len, h.first, this]

/-- Nodes other than the two ends keep their links. -/
theorem Link.congr {c c' : Id → Option ChildrenNode} {x y} (h : Link c x y)
    (hx : ∀ a, c x = some ⟨a, y⟩ → ∃ a', c' x = some ⟨a', y⟩)
    (hy : ∀ b, c y = some ⟨x, b⟩ → ∃ b', c' y = some ⟨x, b'⟩) : Link c' x y := by
  obtain ⟨⟨a, h1⟩, ⟨b, h2⟩⟩ := h
  exact ⟨hx a h1, hy b h2⟩

theorem ring_cons (x : Id) (l : List Id) : ring (x :: l) = links (x :: l ++ [x]) := rfl

/-- The ring `r :: t` ends with an edge into `r`. -/
theorem ring_last (r : Id) (t : List Id) : ∃ q, (q, r) ∈ ring (r :: t) ∧
    (r :: t).getLast? = some q := by
  rcases List.eq_nil_or_concat t with rfl | ⟨t', q, rfl⟩
  · exact ⟨r, by simp [ring, links], rfl⟩
  · refine ⟨q, ?_, by rw [List.concat_eq_append, ← List.cons_append, List.getLast?_append]; simp⟩
    simp only [ring, List.concat_eq_append, List.cons_append, List.append_assoc, List.nil_append]
    rw [show r :: (t' ++ [q, r]) = (r :: t') ++ [q, r] from rfl, links_snoc2]
    simp

theorem ring_snoc (r : Id) (t : List Id) (n : Id) : ∀ e, e ∈ ring (r :: t ++ [n]) →
    (∃ q, (r :: t).getLast? = some q ∧ e = (q, n)) ∨ e = (n, r) ∨
      (e ∈ ring (r :: t) ∧ e.2 ∈ t ∧ e.1 ≠ n ∧ e.2 ≠ n) ∨ n ∈ r :: t := by
  intro e he
  by_cases hn : n ∈ r :: t
  · exact Or.inr (Or.inr (Or.inr hn))
  have hs : ring (r :: t ++ [n]) = links (r :: t ++ [n]) ++ [(n, r)] := by
    simp only [List.cons_append, ring, List.append_assoc, List.nil_append]
    rw [show r :: (t ++ [n, r]) = (r :: t) ++ [n, r] from rfl, links_snoc2]; rfl
  rw [hs] at he
  rcases List.mem_append.mp he with he | he
  rotate_left
  · simp at he; exact Or.inr (Or.inl he)
  obtain ⟨q, hq1, hq⟩ := ring_last r t
  have hl : links (r :: t ++ [n]) = links (r :: t) ++ [(q, n)] := by
    rcases List.eq_nil_or_concat t with rfl | ⟨t', q', rfl⟩
    · simp at hq; subst hq; rfl
    · rw [List.concat_eq_append, ← List.cons_append, List.getLast?_append] at hq; simp at hq; subst hq
      simp only [List.concat_eq_append, List.cons_append, List.append_assoc, List.nil_append]
      rw [show r :: (t' ++ [q', n]) = (r :: t') ++ [q', n] from rfl, links_snoc2]; rfl
  rw [hl] at he
  rcases List.mem_append.mp he with he | he
  · right; right; left
    obtain ⟨e1, e2⟩ := e
    have hr : (e1, e2) ∈ ring (r :: t) := by
      rcases List.eq_nil_or_concat t with rfl | ⟨t', q', rfl⟩
      · simp [links] at he
      · simp only [ring, List.concat_eq_append, List.cons_append, List.append_assoc, List.nil_append] at he ⊢
        rw [show r :: (t' ++ [q', r]) = (r :: t') ++ [q', r] from rfl, links_snoc2]
        exact List.mem_append_left _ he
    obtain ⟨h1, h2⟩ := ring_mem hr
    exact ⟨hr, (mem_links he).2, fun h => hn (h ▸ h1), fun h => hn (h ▸ h2)⟩
  · left; exact ⟨q, hq, by simpa using he⟩

/-- The predecessor is unique. -/
theorem Link.left_unique {c : Id → Option ChildrenNode} {x x' y} (h : Link c x y) (h' : Link c x' y) :
    x = x' := by
  obtain ⟨_, b, h1⟩ := h
  obtain ⟨_, b', h2⟩ := h'
  rw [h1] at h2; cases h2; rfl

theorem Link.right_unique {c : Id → Option ChildrenNode} {x y y'} (h : Link c x y) (h' : Link c x y') :
    y = y' := by
  obtain ⟨⟨b, h1⟩, _⟩ := h
  obtain ⟨⟨b', h2⟩, _⟩ := h'
  rw [h1] at h2; cases h2; rfl

/-- The ring part of the representation. -/
structure Ring (c : ElementChildren) (l : List Id) : Prop where
  nodup : l.Nodup
  len : c.len = l.length
  dom : ∀ x, c.childs x ≠ none ↔ x ∈ l
  link : ∀ e ∈ ring l, Link c.childs e.1 e.2

theorem Rep.ring {c l} (h : Rep c l) : Ring c l := ⟨h.nodup, h.len, h.dom, h.link⟩

theorem Ring.rot {c : ElementChildren} {a b} (h : Ring c (a ++ b)) : Ring c (b ++ a) :=
  ⟨List.nodup_append_comm'.mp h.nodup, by rw [h.len]; simp [Nat.add_comm],
    fun x => by rw [h.dom]; simp [or_comm], fun e he => h.link e ((ring_rot a b e).mpr he)⟩

theorem Ring.insertOnLeft {c : ElementChildren} {r t n} (h : Ring c (r :: t)) (hn : n ∉ r :: t) :
    ∃ c', c.insertOnLeft r n = some c' ∧ c'.firstChild = c.firstChild ∧ Ring c' (r :: t ++ [n]) := by
  obtain ⟨q, hq, hlast⟩ := ring_last r t
  have hL : Link c.childs q r := h.link _ hq
  obtain ⟨⟨a, hq1⟩, ⟨b, hr1⟩⟩ := id hL
  have hqm := (ring_mem hq).1
  have hnr : n ≠ r := fun e => hn (e ▸ List.mem_cons_self)
  have hnq : n ≠ q := fun e => hn (e ▸ hqm)
  have hn0 : c.childs n = none := Classical.byContradiction fun hc => hn ((h.dom n).mp hc)
  unfold ElementChildren.insertOnLeft
  simp only [hr1]
  have hex : ∃ l, (c.put r ⟨n, b⟩).childs q = some l ∧ l.left = (if q = r then n else a) ∧ l.right = r := by
    by_cases e : q = r
    · subst e
      rw [hr1] at hq1; cases hq1
      exact ⟨⟨n, q⟩, by simp [ElementChildren.put], by simp, rfl⟩
    · exact ⟨⟨a, r⟩, by simp [ElementChildren.put, e, hq1], by simp [e], rfl⟩
  obtain ⟨l, hl, hl1, hl2⟩ := hex
  rw [hl]
  refine ⟨_, rfl, rfl, ?_, ?_, ?_, ?_⟩
  · rw [List.nodup_append]
    refine ⟨h.nodup, by simp, ?_⟩
    intro x hx y hy; simp at hy; subst hy; intro e; exact hn (e ▸ hx)
  · have hs2 : (c.put r ⟨n, b⟩).childs q ≠ none := by rw [hl]; simp
    have hs3 : ((c.put r ⟨n, b⟩).put q { l with right := n }).childs n = none := by
      simp [ElementChildren.put, hnr, hnq, hn0]
    simp only [ElementChildren.put] at hs2 hs3 ⊢
    simp only [hs3, Option.isSome_none, Bool.false_eq_true, if_false]
    rw [hr1, Option.isSome_some, if_pos rfl]
    have : (if q = r then some (⟨n, b⟩ : ChildrenNode) else c.childs q).isSome = true :=
      Option.isSome_iff_ne_none.mpr hs2
    simp only [this, if_true]
    rw [h.len]; simp
  · intro x
    have := h.dom x
    simp only [ElementChildren.put]
    by_cases h1 : x = n
    · simp [h1]
    by_cases h2 : x = q
    · subst h2; simp [h1]; simpa using hqm
    by_cases h3 : x = r
    · subst h3; simp [h1, h2]
    simp only [h1, h2, h3, if_false]
    rw [this]; simp [h1]
  · intro e he
    obtain ⟨x, y⟩ := e
    rcases ring_snoc r t n _ he with ⟨q', hq', e⟩ | e | ⟨hr', ht, h1, h2⟩ | h'
    rotate_left 3
    · exact absurd h' hn
    · rw [hlast] at hq'; cases hq'; cases e
      refine ⟨⟨l.left, ?_⟩, ⟨r, ?_⟩⟩
      · simp [ElementChildren.put, hnq.symm]
      · simp [ElementChildren.put]
    · cases e
      refine ⟨⟨q, by simp [ElementChildren.put]⟩, ⟨if q = r then n else b, ?_⟩⟩
      by_cases hqr : q = r
      · subst hqr
        simp only [ElementChildren.put, hnr.symm, if_false, if_true]
        simp [hl1]
      · simp [ElementChildren.put, hnr.symm, hqr, Ne.symm hqr]
    · have hxy := h.link _ hr'
      simp only at h1 h2 hxy
      have hyr : y ≠ r := by
        rintro rfl
        have := h.nodup; simp at this; exact this.1 ht
      have hqx : x ≠ q := by
        rintro rfl
        exact hyr (Link.right_unique hxy hL)
      · refine hxy.congr (fun a' ha' => ?_) (fun b' hb' => ?_)
        · by_cases hxr : x = r
          · subst hxr
            rw [hr1] at ha'; cases ha'
            exact ⟨n, by simp [ElementChildren.put, h1, hqx]⟩
          · exact ⟨a', by simp [ElementChildren.put, h1, hqx, hxr, ha']⟩
        · by_cases hyq : y = q
          · subst hyq
            rw [hq1] at hb'
            cases hb'
            exact ⟨n, by simp [ElementChildren.put, h2, hl1, hyr]⟩
          · exact ⟨b', by simp [ElementChildren.put, h2, hyq, hyr, hb']⟩

/-- Removal of the head of a ring. -/
theorem Ring.removeHead {c : ElementChildren} {n r t} (h : Ring c (n :: r :: t)) :
    ∃ c', c.remove n = some c' ∧ Ring c' (r :: t) ∧
      c'.firstChild = (if c.firstChild = some n then some r else c.firstChild) := by
  obtain ⟨q, hq, hlast⟩ := ring_last n (r :: t)
  have hL1 : Link c.childs q n := h.link _ hq
  have hL2 : Link c.childs n r := h.link (n, r) (by simp [_root_.Verif.Dom.ring, links])
  obtain ⟨⟨a, hq1⟩, ⟨b, hn1⟩⟩ := id hL1
  obtain ⟨⟨b', hn2⟩, ⟨d, hr1⟩⟩ := id hL2
  rw [hn1] at hn2; cases hn2
  have hnd := h.nodup
  simp only [List.nodup_cons, List.mem_cons, not_or] at hnd
  have hnr : n ≠ r := hnd.1.1
  have hqm : q ∈ r :: t := by
    rw [List.getLast?_cons_cons] at hlast
    exact List.mem_of_getLast? hlast
  have hqn : q ≠ n := by
    rintro rfl
    rcases List.mem_cons.mp hqm with e | e
    · exact hnr e
    · exact hnd.1.2 e
  unfold ElementChildren.remove
  simp only [hn1, hqn, if_false]
  have e1 : (c.del n).childs r = some ⟨n, d⟩ := by simp [ElementChildren.del, hnr.symm, hr1]
  simp only [e1]
  have e2 : ∃ l, ((c.del n).put r ⟨q, d⟩).childs q = some l ∧ l.left = (if q = r then q else a) := by
    by_cases e : q = r
    · exact ⟨⟨q, d⟩, by simp [ElementChildren.put, e], by simp [e]⟩
    · exact ⟨⟨a, n⟩, by simp [ElementChildren.put, ElementChildren.del, e, hqn, hq1], by simp [e]⟩
  obtain ⟨l, hl, hl1⟩ := e2
  simp only [hl]
  refine ⟨_, rfl, ?_, ?_⟩
  rotate_left
  · by_cases e : c.firstChild = some n <;> simp [ElementChildren.put, ElementChildren.del, e]
  have key : Ring (((c.del n).put r ⟨q, d⟩).put q { l with right := r }) (r :: t) := by
    refine ⟨by simp [hnd.2], ?_, ?_, ?_⟩
    · have hs2 : ((c.del n).put r ⟨q, d⟩).childs q ≠ none := by rw [hl]; simp
      have hl' : (((c.del n).put r ⟨q, d⟩).put q { l with right := r }).len = (c.del n).len := by
        simp only [ElementChildren.put] at hs2 ⊢
        have h1 : (if q = r then some (⟨q, d⟩ : ChildrenNode) else (c.del n).childs q).isSome = true :=
          Option.isSome_iff_ne_none.mpr hs2
        simp only [h1, if_true, e1, Option.isSome_some]
      rw [hl']
      simp [ElementChildren.del, hn1, h.len]
    · intro x
      have := h.dom x
      simp only [ElementChildren.put, ElementChildren.del]
      by_cases h2 : x = q
      · subst h2; simp; simpa using hqm
      by_cases h3 : x = r
      · subst h3; simp [h2]
      by_cases h1 : x = n
      · subst h1; simp [h2, h3, hnd.1.2]
      simp only [h1, h2, h3, if_false]
      rw [this]; simp [h1]
    · intro e he
      obtain ⟨x, y⟩ := e
      -- edges of the smaller ring are edges of the larger one, or (q, r)
      have hcase : (x = q ∧ y = r) ∨ ((x, y) ∈ links (r :: t)) := by
        simp only [_root_.Verif.Dom.ring] at he
        rcases List.eq_nil_or_concat t with rfl | ⟨t', q', rfl⟩
        · simp [links] at he
          left
          simp at hqm
          exact ⟨by rw [he.1, hqm], he.2⟩
        · rw [List.concat_eq_append, ← List.cons_append, ← List.cons_append, List.getLast?_append] at hlast
          simp at hlast; subst hlast
          simp only [List.concat_eq_append, List.cons_append, List.append_assoc, List.nil_append] at he ⊢
          rw [show r :: (t' ++ [q', r]) = (r :: t') ++ [q', r] from rfl, links_snoc2] at he
          rcases List.mem_append.mp he with he | he
          · right; exact he
          · left; simpa using he
      rcases hcase with ⟨rfl, rfl⟩ | he'
      · refine ⟨⟨l.left, by simp [ElementChildren.put]⟩, ⟨if x = y then y else d, ?_⟩⟩
        by_cases hxy : x = y
        · subst hxy; simp [ElementChildren.put, hl1]
        · simp [ElementChildren.put, hxy, Ne.symm hxy]
      · have hbig : (x, y) ∈ _root_.Verif.Dom.ring (n :: r :: t) := by
          simp only [_root_.Verif.Dom.ring, List.cons_append, links]
          right
          rcases List.eq_nil_or_concat t with rfl | ⟨t', q', rfl⟩
          · simp [links] at he'
          · simp only [List.concat_eq_append, List.cons_append, List.append_assoc, List.nil_append] at he' ⊢
            rw [show r :: (t' ++ [q', n]) = (r :: t') ++ [q', n] from rfl, links_snoc2]
            exact List.mem_append_left _ he'
        have hxy : Link c.childs x y := h.link _ hbig
        have hyt : y ∈ t := (mem_links he').2
        have hx : x ∈ r :: t := List.dropLast_subset _ (mem_links he').1
        have hyr : y ≠ r := fun e => hnd.2.1 (e ▸ hyt)
        have hyn : y ≠ n := fun e => hnd.1.2 (e ▸ hyt)
        have hxn : x ≠ n := by
          rintro rfl
          rcases List.mem_cons.mp hx with e | e
          · exact hnr e
          · exact hnd.1.2 e
        have hqx : x ≠ q := by
          rintro rfl
          exact hyn (Link.right_unique hxy hL1)
        refine hxy.congr (fun a' ha' => ?_) (fun b' hb' => ?_)
        · by_cases hxr : x = r
          · subst hxr
            rw [hr1] at ha'; cases ha'
            exact ⟨q, by simp [ElementChildren.put, hqx]⟩
          · exact ⟨a', by simp [ElementChildren.put, ElementChildren.del, hxn, hqx, hxr, ha']⟩
        · by_cases hyq : y = q
          · subst hyq
            rw [hq1] at hb'; cases hb'
            exact ⟨r, by simp [ElementChildren.put, hl1, hyr]⟩
          · exact ⟨b', by simp [ElementChildren.put, ElementChildren.del, hyq, hyr, hyn, hb']⟩
  split
  · exact ⟨key.nodup, key.len, key.dom, key.link⟩
  · exact key

theorem Rep.of_ring {c : ElementChildren} {l} (h : Ring c l) (hf : c.firstChild = l.head?) : Rep c l :=
  ⟨h.nodup, h.len, hf, h.dom, h.link⟩

theorem Rep.remove {c : ElementChildren} {l} (h : Rep c l) (x : Id) :
    ∃ c', c.remove x = some c' ∧ Rep c' (l.filter (· ≠ x)) := by
  by_cases hx : x ∈ l
  rotate_left
  · have : c.childs x = none := Classical.byContradiction fun hc => hx ((h.dom x).mp hc)
    refine ⟨c, by simp [ElementChildren.remove, this], ?_⟩
    rw [filter_ne_of_not_mem hx]; exact h
  obtain ⟨a, b, rfl⟩ := List.append_of_mem hx
  have hnd := h.nodup
  rw [List.nodup_append] at hnd
  have hxa : x ∉ a := fun hm => hnd.2.2 x hm x List.mem_cons_self rfl
  have hxb : x ∉ b := (List.nodup_cons.mp hnd.2.1).1
  have hf : (a ++ x :: b).filter (· ≠ x) = a ++ b := by
    rw [List.filter_append, List.filter_cons]
    simp only [ne_eq, not_true, decide_false, Bool.false_eq_true, if_false]
    have e1 := filter_ne_of_not_mem hxa
    have e2 := filter_ne_of_not_mem hxb
    simp only [ne_eq] at e1 e2
    rw [e1, e2]
  rw [hf]
  have hr : Ring c (x :: b ++ a) := h.ring.rot
  cases hba : b ++ a with
  | nil =>
    simp only [List.append_eq_nil_iff] at hba
    obtain ⟨rfl, rfl⟩ := hba
    obtain ⟨⟨p, h1⟩, ⟨q, h2⟩⟩ := h.link (x, x) (by simp [_root_.Verif.Dom.ring, links])
    simp only at h1 h2
    rw [h1] at h2; cases h2
    refine ⟨{ c.del x with firstChild := none }, by simp [ElementChildren.remove, h1], ⟨by simp, ?_, rfl, ?_, by simp [_root_.Verif.Dom.ring]⟩⟩
    · simp [ElementChildren.del, h1, h.len]
    · intro y
      have := h.dom y
      simp only [ElementChildren.del]
      by_cases e : y = x
      · simp [e]
      · simp only [e, if_false]; rw [this]; simp [e]
  | cons r t =>
    rw [List.cons_append, hba] at hr
    obtain ⟨c', h1, h2, h3⟩ := hr.removeHead
    refine ⟨c', h1, .of_ring ?_ ?_⟩
    · rw [← hba] at h2; exact h2.rot
    · rw [h3, h.first]
      cases a with
      | nil => simp at hba; subst hba; simp
      | cons y a =>
        have : y ≠ x := fun e => hxa (e ▸ List.mem_cons_self)
        simp [this]

theorem insertBeforeIn_split (x r : Id) (a b : List Id) (h : r ∉ a) :
    insertBeforeIn x r (a ++ r :: b) = a ++ x :: r :: b := by
  induction a with
  | nil => simp [insertBeforeIn]
  | cons y a ih =>
    simp only [List.mem_cons, not_or] at h
    simp [insertBeforeIn, Ne.symm h.1, ih h.2]

theorem Rep.insertBefore {c : ElementChildren} {l} (h : Rep c l) {ref child}
    (hv : (ChildOp.insert ref child).valid l) :
    ∃ c', c.insertBefore ref child = some c' ∧ Rep c' (listInsert l ref child) := by
  obtain ⟨c1, h1, hr⟩ := h.remove child
  have hnc : child ∉ l.filter (· ≠ child) := by simp
  cases ref with
  | none =>
    unfold ElementChildren.insertBefore
    simp only [h1, reduceCtorEq, if_false, listInsert, hr.first]
    revert hr hnc
    generalize l.filter (· ≠ child) = m
    intro hr hnc
    cases m with
    | nil =>
      simp only [List.head?_nil]
      have h0 : c1.len = 0 := hr.len
      rw [if_pos h0]
      refine ⟨_, rfl, ⟨by simp, ?_, rfl, ?_, ?_⟩⟩
      · have : c1.childs child = none := Classical.byContradiction fun hc => by simpa using (hr.dom _).mp hc
        simp [ElementChildren.put, this, hr.len]
      · intro x
        have := hr.dom x
        simp only [ElementChildren.put]
        by_cases e : x = child
        · simp [e]
        · simp only [e, if_false]; rw [this]; simp [e]
      · intro e he
        simp [_root_.Verif.Dom.ring, links] at he
        subst he
        exact ⟨⟨child, by simp [ElementChildren.put]⟩, ⟨child, by simp [ElementChildren.put]⟩⟩
    | cons f t =>
      simp only [List.head?_cons]
      obtain ⟨c2, h2, h3, h4⟩ := hr.ring.insertOnLeft hnc
      simp only [h2]
      rw [if_neg (by rw [h3, hr.first]; simp)]
      exact ⟨c2, rfl, .of_ring h4 (by rw [h3, hr.first]; rfl)⟩
  | some r =>
    obtain ⟨hrl, hrc⟩ := hv
    have hrm : r ∈ l.filter (· ≠ child) := by simp [hrl, hrc]
    unfold ElementChildren.insertBefore
    simp only [h1, Option.some.injEq, hrc, if_false, listInsert]
    revert hr hnc hrm
    generalize l.filter (· ≠ child) = m
    intro hr hnc hrm
    obtain ⟨a, b, rfl⟩ := List.append_of_mem hrm
    have hnd := hr.nodup
    rw [List.nodup_append] at hnd
    have hra : r ∉ a := fun hm => hnd.2.2 r hm r List.mem_cons_self rfl
    have hring : Ring c1 (r :: b ++ a) := hr.ring.rot
    obtain ⟨c2, h2, h3, h4⟩ := Ring.insertOnLeft (n := child) (by rw [List.cons_append] at hring; exact hring)
      (by intro hm; apply hnc; simp at hm ⊢; rcases hm with h | h | h <;> simp [h])
    rw [insertBeforeIn_split child r a b hra]
    simp only [h2]
    have h5 : Ring c2 (a ++ child :: r :: b) := by
      have : Ring c2 ((r :: b) ++ (a ++ [child])) := by simpa using h4
      simpa using this.rot
    have hcf : c2.firstChild = (a ++ r :: b).head? := by rw [h3, hr.first]
    cases a with
    | nil =>
      rw [if_pos (by rw [hcf]; rfl)]
      exact ⟨_, rfl, .of_ring ⟨h5.nodup, h5.len, h5.dom, h5.link⟩ rfl⟩
    | cons y a =>
      rw [if_neg (by rw [hcf]; simp only [List.mem_cons, not_or] at hra; simp [Ne.symm hra.1])]
      exact ⟨_, rfl, .of_ring h5 hcf⟩

/-! ## C26 -/

/-- All operations of a sequence refer to existing children. -/
def validOps : List Id → List ChildOp → Prop
  | _, [] => True
  | l, op :: ops => op.valid l ∧ validOps (op.onList l) ops

def runOps (c : ElementChildren) : List ChildOp → Option ElementChildren
  | [] => some c
  | op :: ops =>
      match op.onChildren c with
      | none => none
      | some c => runOps c ops

theorem rep_runOps {c : ElementChildren} {l} (h : Rep c l) : ∀ (ops : List ChildOp), validOps l ops →
    ∃ c', runOps c ops = some c' ∧ Rep c' (ops.foldl ChildOp.onList l) := by
  intro ops
  induction ops generalizing c l with
  | nil => intro _; exact ⟨c, rfl, h⟩
  | cons op ops ih =>
    rintro ⟨hv, hops⟩
    have : ∃ c1, op.onChildren c = some c1 ∧ Rep c1 (op.onList l) := by
      cases op with
      | insert ref child => exact h.insertBefore hv
      | remove x => exact h.remove x
    obtain ⟨c1, e1, r1⟩ := this
    obtain ⟨c2, e2, r2⟩ := ih r1 hops
    exact ⟨c2, by simp only [runOps, e1]; exact e2, r2⟩

/-- **C26.** Whatever insertions and removals are made, as long as each insertion refers to
another present child (or to none): nothing panics, and the children listed afterwards are
those of a plain list treated the same way. -/
theorem C26_children_behave_as_list (ops : List ChildOp) (h : validOps [] ops) :
    ∃ c, runOps {} ops = some c ∧ c.list = some (ops.foldl ChildOp.onList []) := by
  obtain ⟨c, h1, h2⟩ := rep_runOps rep_empty ops h
  exact ⟨c, h1, h2.list_eq⟩

/-- What the list operations mean: the child is directly before the reference, the others
keep their order. -/
theorem C26_insert_position {l : List Id} (hn : l.Nodup) {r child} (hr : r ∈ l) (hc : r ≠ child) :
    ∃ a b, l.filter (· ≠ child) = a ++ r :: b ∧ listInsert l (some r) child = a ++ child :: r :: b := by
  have hm : r ∈ l.filter (· ≠ child) := by simp [hr, hc]
  have hn' : (l.filter (· ≠ child)).Nodup := hn.filter _
  simp only [listInsert]
  revert hm hn'
  generalize l.filter (· ≠ child) = m
  intro hm hn'
  obtain ⟨a, b, rfl⟩ := List.append_of_mem hm
  refine ⟨a, b, rfl, insertBeforeIn_split _ _ _ _ ?_⟩
  rw [List.nodup_append] at hn'
  exact fun hx => hn'.2.2 r hx r List.mem_cons_self rfl

/-- An insertion before a node that is not a child panics. -/
theorem C26_bad_reference_panics {c : ElementChildren} {l} (h : Rep c l) {r child} (hr : r ∉ l) :
    c.insertBefore (some r) child = none := by
  unfold ElementChildren.insertBefore
  split
  · rfl
  obtain ⟨c1, h1, h2⟩ := h.remove child
  have : c1.childs r = none := Classical.byContradiction fun hc => by
    have := (h2.dom r).mp hc
    simp at this; exact hr this.1
  simp only [h1, ElementChildren.insertOnLeft, this]

example : validOps [] [.insert none 44, .insert none 55, .insert none 66, .insert (some 44) 33,
    .insert (some 44) 35, .remove 55, .insert (some 33) 66, .remove 44] := by
  simp [validOps, ChildOp.valid, ChildOp.onList, listInsert, insertBeforeIn]

example : ([.insert none 44, .insert none 55, .insert none 66, .insert (some 44) 33,
    .insert (some 44) 35, .remove 55, .insert (some 33) 66, .remove 44] : List ChildOp).foldl
    ChildOp.onList [] = [66, 33, 35] := by decide

end Verif.Dom

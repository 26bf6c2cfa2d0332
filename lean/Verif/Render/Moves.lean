import Verif.Render.List
/-!
# C91: what the user is doing in the items of a list

The browser takes a node that is inserted anew out of the document first (DOM Standard, "insert": "adopt" removes the
node from its parent), even if it is put back in the same place.  What the user was doing in it is lost: the element with
the focus loses it, a text that is being composed is ended, a video stops, a frame is loaded again, scroll positions are
lost.  We follow the focus; the node that has it stands for the item that it is in.

The list is `render_list` (dom_list.rs), as modelled for C23.
-/
namespace Verif.Render
open Verif.Dom

variable {T K : Type} [DecidableEq T] [DecidableEq K]

/-! ## The browser -/

/-- The children of the parent of the list, and the child in which the focus is. -/
structure Page where
  children : List Id
  focus : Option Id
  deriving DecidableEq

/-- `insertBefore` and `remove` of the browser, called by dom.ts:186-196 and dom.ts:143-184: the node is taken out of the
document, and the focus with it (HTML Standard, "focus fixup"). -/
def Page.step (p : Page) (op : ChildOp) : Page :=
  { children := op.onList p.children
    focus :=
      match op with
      | .insert _ child => if p.focus = some child ∧ child ∈ p.children then none else p.focus
      | .remove child => if p.focus = some child then none else p.focus }

/-- A change of the list: the new list, and the page after the commands (dom_list.rs:55-75). -/
def update (key : T → K) (render : Renderer T) (order : List Node → List Node) (comment : Id) (supply : Nat)
    (old : List (T × Node)) (page : Page) (new : List T) : List (T × Node) × Nat × Page :=
  let r := reorderNodes key render order comment supply old new
  (r.pairs, r.supply, r.ops.foldl Page.step page)

/-- A history of changes (as `history` in List.lean, with the focus). -/
def updates (key : T → K) (render : Renderer T) (order : List Node → List Node) (comment : Id) :
    List (List T) → List (T × Node) × Nat × Page → List (T × Node) × Nat × Page
  | [], s => s
  | new :: rest, (old, supply, page) =>
      updates key render order comment rest (update key render order comment supply old page new)

/-! ## Specification -/

/-- The list is on the page: elements or texts, one for each item, at their places, with ids that are in use. -/
structure OnPage (l : List (T × Node)) (supply : Nat) (page : Page) (before : List Id) (comment : Id) (after : List Id) :
    Prop where
  plain : ∀ p ∈ l, p.2.content = []
  shows : Shows page.children before l comment after
  nodup : page.children.Nodup
  below : ∀ x ∈ page.children, x < supply

/-- An item is in both lists, and either all that is before it or all that is after it is the same. -/
def Steady (t : T) (old new : List T) : Prop :=
  ∃ a b a' b', old = a ++ t :: b ∧ new = a' ++ t :: b' ∧ (a = a' ∨ b = b')

/-! ## Proofs -/

/-- The node that a command is about. -/
def childOf : ChildOp → Id
  | .insert _ c => c
  | .remove c => c

theorem focus_lost (ops : List ChildOp) : ∀ (p : Page), p.focus = none → (ops.foldl Page.step p).focus = none := by
  induction ops with
  | nil => exact fun _ h => h
  | cons op ops ih =>
    intro p h
    refine ih _ ?_
    cases op <;> simp [Page.step, h]

theorem focus_kept (n : Id) (ops : List ChildOp) : ∀ (p : Page), p.focus = some n → n ∉ ops.map childOf →
    (ops.foldl Page.step p).focus = some n := by
  induction ops with
  | nil => exact fun _ h _ => h
  | cons op ops ih =>
    intro p h hn
    simp only [List.map_cons, List.mem_cons, not_or] at hn
    refine ih _ ?_ hn.2
    cases op with
    | insert r c =>
      have : n ≠ c := hn.1
      simp [Page.step, h, this]
    | remove c =>
      have : n ≠ c := hn.1
      simp [Page.step, h, this]

theorem step_children (ops : List ChildOp) : ∀ (p : Page),
    (ops.foldl Page.step p).children = ops.foldl ChildOp.onList p.children := by
  induction ops with
  | nil => exact fun _ => rfl
  | cons op ops ih => exact fun p => ih _

theorem mem_onList {n : Id} {op : ChildOp} {l : List Id} (h : n ∈ l) (hn : n ≠ childOf op) : n ∈ op.onList l := by
  cases op with
  | insert r c =>
    have hn : n ≠ c := hn
    have hm : n ∈ l.filter (· ≠ c) := List.mem_filter.mpr ⟨h, by simpa using hn⟩
    simp only [ChildOp.onList, listInsert]
    cases r with
    | none => exact List.mem_append_left _ hm
    | some r =>
      simp only
      generalize l.filter (· ≠ c) = l' at hm
      clear h
      induction l' with
      | nil => cases hm
      | cons a l' ih =>
        rw [insertBeforeIn]
        split
        · simp only [List.mem_cons]; exact Or.inr (List.mem_cons.mp hm)
        · rcases List.mem_cons.mp hm with rfl | hm
          · simp
          · exact List.mem_cons_of_mem _ (ih hm)
  | remove c =>
    have hn : n ≠ c := hn
    exact List.mem_filter.mpr ⟨h, by simpa using hn⟩

theorem focus_taken (n : Id) (ops : List ChildOp) : ∀ (p : Page), p.focus = some n → n ∈ p.children →
    n ∈ ops.map childOf → (ops.foldl Page.step p).focus = none := by
  induction ops with
  | nil => intro _ _ _ h; cases h
  | cons op ops ih =>
    intro p h hc hn
    by_cases hop : n = childOf op
    · rw [List.foldl_cons]
      apply focus_lost
      cases op with
      | insert r c =>
        have hop : n = c := hop
        subst hop
        simp [Page.step, h, hc]
      | remove c =>
        have hop : n = c := hop
        subst hop
        simp [Page.step, h]
    · refine ih _ ?_ (mem_onList hc hop) ?_
      · cases op with
        | insert r c => have : n ≠ c := hop; simp [Page.step, h, this]
        | remove c => have : n ≠ c := hop; simp [Page.step, h, this]
      · simp only [List.map_cons, List.mem_cons] at hn
        exact hn.resolve_left hop

theorem getPairsTop_prefix : ∀ (p q : List (T × Node)) (q' : List T),
    (getPairsTop (p ++ q) (p.map (·.1) ++ q')).1 = p ++ (getPairsTop q q').1
  | [], _, _ => rfl
  | (t, n) :: p, q, q' => by
      simp only [List.cons_append, List.map_cons]
      rw [getPairsTop, if_pos rfl]
      simp [getPairsTop_prefix p q q']

omit [DecidableEq T] in
theorem split_unique {A : Type} {x : A} : ∀ {a b c d : List A}, (a ++ x :: b).Nodup → a ++ x :: b = c ++ x :: d → a = c ∧ b = d
  | [], b, [], d, _, h => by simpa using h
  | [], b, y :: c, d, hn, h => by
      simp only [List.nil_append, List.cons_append, List.cons.injEq] at h
      obtain ⟨rfl, rfl⟩ := h
      simp at hn
  | y :: a, b, [], d, hn, h => by
      simp only [List.nil_append, List.cons_append, List.cons.injEq] at h
      obtain ⟨rfl, rfl⟩ := h
      simp at hn
  | y :: a, b, z :: c, d, hn, h => by
      simp only [List.cons_append, List.cons.injEq] at h
      obtain ⟨rfl, h⟩ := h
      obtain ⟨h1, h2⟩ := split_unique (List.nodup_cons.mp hn).2 h
      exact ⟨by rw [h1], h2⟩

omit [DecidableEq T] in
/-- The nodes that the loop inserts: those of the new pairs, each once. -/
theorem middleLoop_inserted (key : T → K) (render : Renderer T) (hok : render.Ok) : ∀ (items : List T) (m : Middle T K),
    (∀ e ∈ m.cache, e.2.content = []) → ∃ pairs ops,
      (middleLoop key render items m).pairs = pairs ++ m.pairs ∧ (middleLoop key render items m).ops = m.ops ++ ops ∧
      ops.map childOf = (pairs.map (·.2.id)).reverse
  | [], m, _ => ⟨[], [], by simp [middleLoop], by simp [middleLoop], rfl⟩
  | item :: items, m, hpl => by
      rw [middleLoop]
      obtain ⟨node, cache, supply, new, hg, hnode, hc⟩ : ∃ node cache supply new,
          getOrCreate key render item m.cache m.supply = (node, cache, supply, new) ∧ node.content = [] ∧
          ∀ e ∈ cache, e.2.content = [] := by
        rw [getOrCreate]
        cases hp : m.cache.pop (key item) with
        | some x =>
          obtain ⟨node, cache⟩ := x
          obtain ⟨a, b, hc, hc', _⟩ := pop_some hp
          refine ⟨_, _, _, _, rfl, hpl (key item, node) (by rw [hc]; simp), fun e he => hpl e ?_⟩
          rw [hc]; rw [hc'] at he; simp at he ⊢; tauto
        | none => exact ⟨_, _, _, _, rfl, hok.plain _ _, hpl⟩
      rw [hg]
      dsimp only
      obtain ⟨pairs, ops, h1, h2, h3⟩ := middleLoop_inserted key render hok items
        { pairs := (item, node) :: m.pairs, cache, lastBefore := node.id, supply
          ops := m.ops ++ insertOps m.lastBefore node
          created := if new then (item, node) :: m.created else m.created } hc
      refine ⟨pairs ++ [(item, node)], insertOps m.lastBefore node ++ ops, by rw [h1]; simp, by rw [h2]; simp, ?_⟩
      have hins : insertOps m.lastBefore node = [.insert (some m.lastBefore) node.id] := by
        simp [insertOps, hnode, contentOps]
      rw [hins]
      simp [h3, childOf]

/-- What a change is about: of the nodes of the old list, exactly those between the common beginning and the common end;
each node at most once. -/
theorem reorder_touched (key : T → K) (render : Renderer T) (hok : render.Ok) (order : List Node → List Node)
    (horder : ∀ l, (order l).Perm l) (comment : Id) (supply : Nat)
    (real : List (T × Node)) (new : List T) (before after : List Id)
    (hplain : ∀ p ∈ real, p.2.content = [])
    (hn : (before ++ real.map (·.2.id) ++ comment :: after).Nodup)
    (hb : ∀ x ∈ before ++ real.map (·.2.id) ++ comment :: after, x < supply) :
    let top := (getPairsTop real new).1
    let bottom := (getPairsBottom (getPairsTop real new).2.1 (getPairsTop real new).2.2).1
    let touched := (reorderNodes key render order comment supply real new).ops.map childOf
    touched.Nodup ∧ (∀ p ∈ real, p.2.id ∈ touched ↔ p ∉ top ∧ p ∉ bottom) ∧
    ∀ x ∈ before ++ comment :: after, x ∉ touched := by
  have h1 := getPairsTop_eq real new
  simp only [reorderNodes]
  generalize getPairsTop real new = x1 at h1 ⊢
  obtain ⟨top, real1, new1⟩ := x1
  have h2 := getPairsBottom_eq real1 new1
  dsimp only at h1 ⊢
  generalize getPairsBottom real1 new1 = x2 at h2 ⊢
  obtain ⟨bottom, mid, new2⟩ := x2
  dsimp only at h2 ⊢
  obtain ⟨rfl, rfl⟩ := h2
  obtain ⟨rfl, rfl⟩ := h1
  obtain ⟨rest, hrest⟩ : ∃ rest, bottom.map (·.2.id) ++ comment :: after =
      (findFirstDom bottom).getD comment :: rest := by
    cases bottom with
    | nil => exact ⟨after, rfl⟩
    | cons b bs => exact ⟨bs.map (·.2.id) ++ comment :: after, rfl⟩
  generalize (findFirstDom bottom).getD comment = lastBefore at hrest ⊢
  have hmid : (insertAll key mid).map (·.2.id) = mid.map (·.2.id) := by simp [insertAll, Function.comp_def]
  have e0 : before ++ (top ++ (mid ++ bottom)).map (·.2.id) ++ comment :: after =
      (before ++ top.map (·.2.id)) ++ (insertAll key mid).map (·.2.id) ++ lastBefore :: rest := by
    rw [hmid, ← hrest]; simp
  have hcache : ∀ e ∈ insertAll key mid, e.2.content = [] := fun e he => by
    simp only [insertAll, List.mem_map] at he
    obtain ⟨p, hp, rfl⟩ := he
    exact hplain p (by simp [hp])
  obtain ⟨pairs, created, ops, s⟩ := middleLoop_spec key render hok (before ++ top.map (·.2.id)) new2.reverse
    { pairs := [], cache := insertAll key mid, lastBefore, supply, ops := [], created := [] } rest
    (e0 ▸ hn) (fun x hx => hb x (e0 ▸ hx)) hcache
  obtain ⟨pairs', ops', t1, t2, t3⟩ := middleLoop_inserted key render hok new2.reverse
    { pairs := [], cache := insertAll key mid, lastBefore, supply, ops := [], created := [] } hcache
  generalize middleLoop key render new2.reverse _ = m at s t1 t2 ⊢
  have hpp : pairs' = pairs := by
    have := s.pairs_eq
    rw [t1] at this
    simpa using this
  subst hpp
  have hd : ∀ (l : List Node), (∀ n ∈ l, n.content = []) → (l.flatMap dropOps).map childOf = l.map (·.id) := by
    intro l
    induction l with
    | nil => intro _; rfl
    | cons n l ih =>
      intro h
      have hop : dropOps n = [.remove n.id] := by simp [dropOps, h n (by simp)]
      simp [List.flatMap_cons, hop, childOf, ih fun n hn => h n (by simp [hn])]
  have hleft : ∀ n ∈ order (m.cache.map (·.2)), n.content = [] := by
    intro n hn
    obtain ⟨e, he, rfl⟩ := List.mem_map.mp ((horder _).mem_iff.mp hn)
    exact hcache e (s.cache_sub e he)
  have htouched : ((m.ops ++ (order (m.cache.map (·.2))).flatMap dropOps).map childOf).Perm
      (pairs'.map (·.2.id) ++ m.cache.map (·.2.id)) := by
    rw [List.map_append, hd _ hleft, t2]
    simp only [List.nil_append, t3]
    refine (List.reverse_perm _).append ?_
    have := (horder (m.cache.map (·.2))).map (·.id)
    simpa [Function.comp_def] using this
  have s6 := s.nodup
  have hperm : (before ++ top.map (·.2.id) ++ m.cache.map (·.2.id) ++ (pairs'.map (·.2.id) ++ lastBefore :: rest)).Perm
      ((pairs'.map (·.2.id) ++ m.cache.map (·.2.id)) ++
        (before ++ top.map (·.2.id) ++ (bottom.map (·.2.id) ++ comment :: after))) := by
    rw [hrest]
    apply List.perm_iff_count.mpr
    intro e
    simp only [List.count_append]
    omega
  have hnd := hperm.nodup_iff.mp s6
  have hdis := List.nodup_append.mp hnd
  have hnot : ∀ x ∈ before ++ top.map (·.2.id) ++ (bottom.map (·.2.id) ++ comment :: after),
      x ∉ (m.ops ++ (order (m.cache.map (·.2))).flatMap dropOps).map childOf := fun x hx hx' =>
    hdis.2.2 x (htouched.mem_iff.mp hx') x hx rfl
  refine ⟨htouched.nodup_iff.mpr hdis.1, fun p hp => ⟨fun h => ⟨fun ht => ?_, fun hbm => ?_⟩, ?_⟩, fun x hx => ?_⟩
  · exact hnot _ (by simp only [List.mem_append, List.mem_map]; exact Or.inl (Or.inr ⟨p, ht, rfl⟩)) h
  · exact hnot _ (by simp only [List.mem_append, List.mem_map]; exact Or.inr (Or.inl ⟨p, hbm, rfl⟩)) h
  · rintro ⟨h1, h2⟩
    have hm : p ∈ mid := by simpa [h1, h2] using hp
    have hacc : (key p.1, p.2) ∈ insertAll key mid ++ insertAll key created :=
      List.mem_append_left _ (List.mem_map.mpr ⟨p, hm, rfl⟩)
    rw [htouched.mem_iff, List.mem_append]
    rcases List.mem_append.mp (s.account.mem_iff.mp hacc) with h | h
    · exact Or.inr (List.mem_map.mpr ⟨_, h, rfl⟩)
    · obtain ⟨q, hq, he⟩ := List.mem_map.mp h
      left
      refine List.mem_map.mpr ⟨q, hq, ?_⟩
      have : q.2 = p.2 := (Prod.mk.inj he).2
      rw [this]
  · refine hnot x ?_
    simp only [List.mem_append, List.mem_cons] at hx ⊢
    tauto

/-- An item is in the common beginning or in the common end. -/
theorem mem_ends {old : List (T × Node)} {new : List T} {x : T × Node} (hx : x ∈ old) (ho : (old.map (·.1)).Nodup)
    (hn : new.Nodup) : (x ∈ (getPairsTop old new).1 ∨
      x ∈ (getPairsBottom (getPairsTop old new).2.1 (getPairsTop old new).2.2).1) ↔ Steady x.1 (old.map (·.1)) new := by
  have h1 := getPairsTop_eq old new
  have h2 := getPairsBottom_eq (getPairsTop old new).2.1 (getPairsTop old new).2.2
  constructor
  · rintro (h | h)
    · obtain ⟨u, v, huv⟩ := List.append_of_mem h
      refine ⟨u.map (·.1), v.map (·.1) ++ (getPairsTop old new).2.1.map (·.1), u.map (·.1),
        v.map (·.1) ++ (getPairsTop old new).2.2, ?_, ?_, Or.inl rfl⟩
      · conv_lhs => rw [h1.1, huv]
        simp
      · conv_lhs => rw [h1.2, huv]
        simp
    · obtain ⟨u, v, huv⟩ := List.append_of_mem h
      generalize (getPairsTop old new).1 = top at *
      generalize (getPairsTop old new).2.1 = o at *
      generalize (getPairsTop old new).2.2 = n at *
      rw [huv] at h2
      refine ⟨(top ++ (getPairsBottom o n).2.1 ++ u).map (·.1), v.map (·.1),
        top.map (·.1) ++ (getPairsBottom o n).2.2 ++ u.map (·.1), v.map (·.1), ?_, ?_, Or.inr rfl⟩
      · conv_lhs => rw [h1.1, h2.1]
        simp
      · conv_lhs => rw [h1.2, h2.2]
        simp
  · rintro ⟨a, b, a', b', e1, e2, h⟩
    obtain ⟨l1, r1, hlr⟩ := List.append_of_mem hx
    have hlr' : old.map (·.1) = l1.map (·.1) ++ x.1 :: r1.map (·.1) := by rw [hlr]; simp
    rw [hlr'] at e1 ho
    obtain ⟨ha, hb⟩ := split_unique ho e1
    rcases h with rfl | rfl
    · left
      have hp := getPairsTop_prefix (l1 ++ [x]) r1 b'
      have ea : l1 ++ [x] ++ r1 = old := by rw [hlr]; simp
      have eb : (l1 ++ [x]).map (·.1) ++ b' = new := by rw [e2, ← ha]; simp
      rw [ea, eb] at hp
      rw [hp]; simp
    · by_cases ht : x ∈ (getPairsTop old new).1
      · exact Or.inl ht
      · right
        generalize (getPairsTop old new).1 = top at *
        generalize (getPairsTop old new).2.1 = o at *
        generalize (getPairsTop old new).2.2 = n at *
        have hxo : x ∈ o := by
          have := h1.1 ▸ hx
          exact (List.mem_append.mp this).resolve_left ht
        obtain ⟨u, v, huv⟩ := List.append_of_mem hxo
        have hov : old.map (·.1) = (top.map (·.1) ++ u.map (·.1)) ++ x.1 :: v.map (·.1) := by
          conv_lhs => rw [h1.1, huv]
          simp
        have hv := (split_unique ho (hlr'.symm.trans hov)).2
        have hxt : x.1 ∉ top.map (·.1) := by
          intro hm
          have : (old.map (·.1)).Nodup := hlr' ▸ ho
          rw [hov] at this
          have := List.nodup_append.mp this
          exact this.2.2 x.1 (List.mem_append_left _ hm) x.1 (by simp) rfl
        have hxn : x.1 ∈ n := by
          have : x.1 ∈ new := by rw [e2]; simp
          rw [h1.2] at this
          exact (List.mem_append.mp this).resolve_left hxt
        obtain ⟨u', v', huv'⟩ := List.append_of_mem hxn
        have hnv : new = (top.map (·.1) ++ u') ++ x.1 :: v' := by
          conv_lhs => rw [h1.2, huv']
          simp
        have hv' := (split_unique (e2 ▸ hn) (e2.symm.trans hnv)).2
        have ev : v' = v.map (·.1) := by rw [← hv', ← hv, hb]
        have hp := getPairsTop_prefix (v.reverse ++ [x]) u.reverse u'.reverse
        simp only [getPairsBottom]
        have ea : v.reverse ++ [x] ++ u.reverse = o.reverse := by rw [huv]; simp
        have eb : (v.reverse ++ [x]).map (·.1) ++ u'.reverse = n.reverse := by rw [huv', ev]; simp
        rw [ea, eb] at hp
        rw [hp]; simp

theorem OnPage.update {key : T → K} {render : Renderer T} (hok : render.Ok) {order : List Node → List Node}
    (horder : ∀ l, (order l).Perm l) {comment : Id} {supply : Nat} {old : List (T × Node)} {page : Page}
    {before after : List Id} (h : OnPage old supply page before comment after) (new : List T) :
    let s := update key render order comment supply old page new
    OnPage s.1 s.2.1 s.2.2 before comment after ∧ s.1.map (·.1) = new := by
  obtain ⟨_, h2, h3, h4, h5, h6⟩ := C23_shows_partial key render hok order horder comment supply old new page.children
    before after h.plain h.shows h.nodup h.below
  simp only [Verif.Render.update]
  exact ⟨⟨h6, by rw [step_children]; exact h3, by rw [step_children]; exact h4, by rw [step_children]; exact h5⟩, h2⟩

/-! ## C91 -/

/-- **C91, when the focus is kept.** The items of the list are different from each other, before and after the change.
The focus is in one of them. It is kept exactly if the item is in the new list as well, and all that is before it or
all that is after it is the same as before. (The full property, that the focus stays in each item that stays in the list,
is false: see below.) -/
theorem C91_focus_partial (key : T → K) (render : Renderer T) (hok : render.Ok) (order : List Node → List Node)
    (horder : ∀ l, (order l).Perm l) (comment : Id) (supply : Nat) (old : List (T × Node)) (page : Page)
    (before after : List Id) (new : List T) (h : OnPage old supply page before comment after)
    (ho : (old.map (·.1)).Nodup) (hn : new.Nodup) (x : T × Node) (hx : x ∈ old) (hf : page.focus = some x.2.id) :
    (update key render order comment supply old page new).2.2.focus =
      (open Classical in if Steady x.1 (old.map (·.1)) new then some x.2.id else none) := by
  have hs := h.shows
  unfold Shows at hs
  obtain ⟨_, t2, _⟩ := reorder_touched key render hok order horder comment supply old new before after h.plain
    (hs ▸ h.nodup) (hs ▸ h.below)
  have hi := t2 x hx
  have he := mem_ends hx ho hn
  simp only [update]
  split
  · rename_i hst
    apply focus_kept _ _ _ hf
    rw [hi]
    rintro ⟨h1, h2⟩
    rcases he.mpr hst with h | h
    · exact h1 h
    · exact h2 h
  · rename_i hst
    apply focus_taken _ _ _ hf
    · rw [hs]; simp only [List.mem_append, List.mem_map]; exact Or.inl (Or.inr ⟨x, hx, rfl⟩)
    · rw [hi]
      exact ⟨fun h => hst (he.mp (Or.inl h)), fun h => hst (he.mp (Or.inr h))⟩

/-- **C91, outside of the list.** A change of the list never takes the focus from its siblings. -/
theorem C91_outside (key : T → K) (render : Renderer T) (hok : render.Ok) (order : List Node → List Node)
    (horder : ∀ l, (order l).Perm l) (comment : Id) (supply : Nat) (old : List (T × Node)) (page : Page)
    (before after : List Id) (new : List T) (h : OnPage old supply page before comment after)
    (x : Id) (hx : x ∈ before ∨ x ∈ after) (hf : page.focus = some x) :
    (update key render order comment supply old page new).2.2.focus = some x := by
  have hs := h.shows
  unfold Shows at hs
  obtain ⟨_, _, t3⟩ := reorder_touched key render hok order horder comment supply old new before after h.plain
    (hs ▸ h.nodup) (hs ▸ h.below)
  refine focus_kept _ _ _ hf (t3 x ?_)
  simp only [List.mem_append, List.mem_cons]
  tauto

/-- **C91, one section.** If only one section of the list is replaced (items are added, removed, or exchanged for others
in one place), the focus stays in all items before and after it. -/
theorem C91_section (key : T → K) (render : Renderer T) (hok : render.Ok) (order : List Node → List Node)
    (horder : ∀ l, (order l).Perm l) (comment : Id) (supply : Nat) (head cut tail : List (T × Node)) (page : Page)
    (before after : List Id) (section' : List T) (h : OnPage (head ++ cut ++ tail) supply page before comment after)
    (ho : ((head ++ cut ++ tail).map (·.1)).Nodup) (hn : (head.map (·.1) ++ section' ++ tail.map (·.1)).Nodup)
    (x : T × Node) (hx : x ∈ head ∨ x ∈ tail) (hf : page.focus = some x.2.id) :
    (update key render order comment supply (head ++ cut ++ tail) page
      (head.map (·.1) ++ section' ++ tail.map (·.1))).2.2.focus = some x.2.id := by
  rw [C91_focus_partial key render hok order horder comment supply _ page before after _ h ho hn x
    (by simp only [List.mem_append]; tauto) hf, if_pos]
  rcases hx with hx | hx
  · obtain ⟨u, v, rfl⟩ := List.append_of_mem hx
    exact ⟨u.map (·.1), v.map (·.1) ++ cut.map (·.1) ++ tail.map (·.1), u.map (·.1),
      v.map (·.1) ++ section' ++ tail.map (·.1), by simp, by simp, Or.inl rfl⟩
  · obtain ⟨u, v, rfl⟩ := List.append_of_mem hx
    refine ⟨(head ++ cut ++ u).map (·.1), v.map (·.1), head.map (·.1) ++ section' ++ u.map (·.1), v.map (·.1),
      by simp, by simp, Or.inr rfl⟩

/-- **C91, histories.** In a history of lists in which each change keeps what is before or what is after an item, the
focus stays in it, and the item keeps its node. -/
theorem C91_history (key : T → K) (render : Renderer T) (hok : render.Ok) (order : List Node → List Node)
    (horder : ∀ l, (order l).Perm l) (comment : Id) (before after : List Id) (x : T × Node) :
    ∀ (lists : List (List T)) (old : List (T × Node)) (supply : Nat) (page : Page),
    OnPage old supply page before comment after → x ∈ old → page.focus = some x.2.id →
    (∀ l ∈ old.map (·.1) :: lists, l.Nodup) → List.IsChain (Steady x.1) (old.map (·.1) :: lists) →
    x ∈ (updates key render order comment lists (old, supply, page)).1 ∧
    (updates key render order comment lists (old, supply, page)).2.2.focus = some x.2.id
  | [], _, _, _, _, hx, hf, _, _ => ⟨hx, hf⟩
  | new :: rest, old, supply, page, h, hx, hf, hnd, hst => by
      have hst1 : Steady x.1 (old.map (·.1)) new := (List.isChain_cons_cons.mp hst).1
      have ho := hnd _ (by simp : old.map (·.1) ∈ old.map (·.1) :: new :: rest)
      have hn := hnd new (by simp)
      have hu := h.update (key := key) hok horder new
      have hfoc := C91_focus_partial key render hok order horder comment supply old page before after new h ho hn x hx hf
      rw [if_pos hst1] at hfoc
      have hx' : x ∈ (update key render order comment supply old page new).1 := by
        simp only [update, reorderNodes]
        rcases (mem_ends hx ho hn).mpr hst1 with h | h
        · simp [h]
        · simp [h]
      rw [updates]
      refine C91_history key render hok order horder comment before after x rest _ _ _ hu.1 hx' hfoc ?_ ?_
      · have e := hu.2
        simp only [update] at e
        rw [e]; exact fun l hl => hnd l (List.mem_cons_of_mem _ hl)
      · have e := hu.2
        simp only [update] at e
        rw [e]; exact (List.isChain_cons_cons.mp hst).2

/-- **C91, no node is moved twice.** In one change there is at most one command for each node. -/
theorem C91_once (key : T → K) (render : Renderer T) (hok : render.Ok) (order : List Node → List Node)
    (horder : ∀ l, (order l).Perm l) (comment : Id) (supply : Nat) (old : List (T × Node)) (page : Page)
    (before after : List Id) (new : List T) (h : OnPage old supply page before comment after) (n : Id) :
    ((reorderNodes key render order comment supply old new).ops.filter fun op =>
      match op with
      | .insert _ c => c = n
      | .remove c => c = n).length ≤ 1 := by
  have hs := h.shows
  unfold Shows at hs
  obtain ⟨t1, _, _⟩ := reorder_touched key render hok order horder comment supply old new before after h.plain
    (hs ▸ h.nodup) (hs ▸ h.below)
  have := List.nodup_iff_count_le_one.mp t1 n
  rw [List.count_eq_countP, List.countP_map, List.countP_eq_length_filter] at this
  refine Nat.le_trans (Nat.le_of_eq ?_) this
  congr 1
  apply List.filter_congr
  intro op _
  cases op <;> rfl

/-- **C91 is violated when an item is edited.** For all lists and all items in them: if the item becomes another one with
the same key (its text was edited, a flag was set), its node is taken out of the document and put back in the same
place. A field in the item that is bound to it loses the focus with the first character that is entered. -/
theorem C91_edit_violated (key : T → K) (render : Renderer T) (order : List Node → List Node)
    (horder : ∀ l, (order l).Perm l) (comment : Id) (supply : Nat) (head tail : List (T × Node)) (t t' : T) (n : Node) (page : Page)
    (hplain : n.content = []) (hkey : key t' = key t) (hne : t ≠ t')
    (hc : n.id ∈ page.children) (hf : page.focus = some n.id) :
    let s := update key render order comment supply (head ++ (t, n) :: tail) page (head.map (·.1) ++ t' :: tail.map (·.1))
    s.1 = head ++ (t', n) :: tail ∧ s.2.2.focus = none := by
  have hnil : order [] = [] := List.perm_nil.mp (horder [])
  have e1 : getPairsTop (head ++ (t, n) :: tail) (head.map (·.1) ++ t' :: tail.map (·.1)) =
      (head, (t, n) :: tail, t' :: tail.map (·.1)) := by
    induction head with
    | nil => simp [getPairsTop, hne]
    | cons p head ih =>
      simp only [List.cons_append, List.map_cons]
      rw [getPairsTop, if_pos rfl, ih]
  have e2 : getPairsBottom ((t, n) :: tail) (t' :: tail.map (·.1)) = (tail, [(t, n)], [t']) := by
    simp only [getPairsBottom, List.reverse_cons, ← List.map_reverse]
    have : ∀ l : List (T × Node), getPairsTop (l ++ [(t, n)]) (l.map (·.1) ++ [t']) = (l, [(t, n)], [t']) := by
      intro l
      induction l with
      | nil => simp [getPairsTop, hne]
      | cons p l ih =>
        simp only [List.cons_append, List.map_cons]
        rw [getPairsTop, if_pos rfl, ih]
    rw [this]; simp
  simp only [update, reorderNodes, e1, e2]
  simp [middleLoop, getOrCreate, insertAll, Cache.pop, hkey, hnil, insertOps, contentOps, hplain, Page.step, hf, hc]

/-- **C91 is violated between two changes.** Items 1 and 5 are exchanged for others. The items between them stay the
same, but the focus is taken from item 3. (A list of which the first item becomes the last one: all items are moved.) -/
theorem C91_between_violated :
    let old := [(1, (⟨10, []⟩ : Node)), (2, ⟨11, []⟩), (3, ⟨12, []⟩), (4, ⟨13, []⟩), (5, ⟨14, []⟩)]
    let page : Page := ⟨[7, 10, 11, 12, 13, 14, 4, 8], some 12⟩
    OnPage old 16 page [7] 4 [8] ∧
    update (fun t : Nat => t) elementRenderer id 4 16 old page [6, 2, 3, 4, 7] =
      ([(6, ⟨17, []⟩), (2, ⟨11, []⟩), (3, ⟨12, []⟩), (4, ⟨13, []⟩), (7, ⟨16, []⟩)], 18,
        ⟨[7, 17, 11, 12, 13, 16, 4, 8], none⟩) ∧
    update (fun t : Nat => t) elementRenderer id 4 16 old page [2, 3, 4, 5, 1] =
      ([(2, ⟨11, []⟩), (3, ⟨12, []⟩), (4, ⟨13, []⟩), (5, ⟨14, []⟩), (1, ⟨10, []⟩)], 16,
        ⟨[7, 11, 12, 13, 14, 10, 4, 8], none⟩) :=
  ⟨⟨by decide +kernel, rfl, by decide +kernel, by decide +kernel⟩, by decide +kernel, by decide +kernel⟩

/-- The hypotheses are met: two items are inserted and one removed before the item with the focus. -/
example :
    let old := [(1, (⟨10, []⟩ : Node)), (2, ⟨11, []⟩), (3, ⟨12, []⟩), (5, ⟨14, []⟩)]
    let page : Page := ⟨[7, 10, 11, 12, 14, 4, 8], some 12⟩
    OnPage old 16 page [7] 4 [8] ∧ (old.map (·.1)).Nodup ∧ [1, 8, 9, 3, 5].Nodup ∧
    Steady 3 (old.map (·.1)) [1, 8, 9, 3, 5] ∧
    update (fun t : Nat => t) elementRenderer id 4 16 old page [1, 8, 9, 3, 5] =
      ([(1, ⟨10, []⟩), (8, ⟨17, []⟩), (9, ⟨16, []⟩), (3, ⟨12, []⟩), (5, ⟨14, []⟩)], 18,
        ⟨[7, 10, 17, 16, 12, 14, 4, 8], some 12⟩) :=
  ⟨⟨by decide +kernel, rfl, by decide +kernel, by decide +kernel⟩, by decide +kernel, by decide +kernel,
    ⟨[1, 2], [5], [1, 8, 9], [5], by decide, by decide, Or.inr rfl⟩, by decide +kernel⟩

end Verif.Render

import Verif.Dom.Command
import Mathlib.Data.List.Nodup
import Mathlib.Data.List.Perm.Subperm
/-!
# The page of the browser model is a forest
-/
namespace Verif.Dom

/-- `l` is the node `x` followed by all its ancestors. -/
inductive Up (parent : Id → Option Id) : Id → List Id → Prop where
  | top {x} : parent x = none → Up parent x [x]
  | up {x p l} : parent x = some p → Up parent p l → Up parent x (x :: l)

theorem Up.unique {f : Id → Option Id} {x l l'} (h : Up f x l) (h' : Up f x l') : l = l' := by
  induction h generalizing l' with
  | top e => cases h' with
    | top _ => rfl
    | up e' _ => rw [e] at e'; cases e'
  | up e _ ih => cases h' with
    | top e' => rw [e] at e'; cases e'
    | up e' h2 => rw [e] at e'; cases e'; rw [ih h2]

theorem Up.head {f : Id → Option Id} {x l} (h : Up f x l) : x ∈ l := by
  cases h <;> exact List.mem_cons_self

theorem Up.suffix {f : Id → Option Id} {x l y} (h : Up f x l) (hy : y ∈ l) :
    ∃ a b, l = a ++ b ∧ Up f y b := by
  induction h with
  | @top x e => simp at hy; subst hy; exact ⟨[], [y], rfl, .top e⟩
  | @up x p l e h ih =>
    rcases List.mem_cons.mp hy with rfl | hy
    · exact ⟨[], y :: l, rfl, .up e h⟩
    · obtain ⟨a, b, rfl, hb⟩ := ih hy
      exact ⟨x :: a, b, rfl, hb⟩

theorem Up.nodup {f : Id → Option Id} {x l} (h : Up f x l) : l.Nodup := by
  induction h with
  | top e => simp
  | @up x p l e h ih =>
    refine List.nodup_cons.mpr ⟨fun hx => ?_, ih⟩
    obtain ⟨a, b, e1, hb⟩ := h.suffix hx
    have := hb.unique (.up e h)
    rw [e1] at this
    have := congrArg List.length this
    simp at this; omega

theorem Up.chain {f : Id → Option Id} {x l} (h : Up f x l) : ∀ n, l.length ≤ n → chain f n x = l := by
  induction h with
  | top e => intro n hn; cases n with
    | zero => simp at hn
    | succ n => simp [Verif.Dom.chain, e]
  | up e h ih => intro n hn; cases n with
    | zero => simp at hn
    | succ n => simp only [Verif.Dom.chain, e, ih n (by simpa using hn)]

/-- Only the parent of `c` changes, and it does not concern `x`. -/
theorem Up.congr {f g : Id → Option Id} {x l} (h : Up f x l) (hg : ∀ y ∈ l, g y = f y) : Up g x l := by
  induction h with
  | top e => exact .top (by rw [hg _ (by simp), e])
  | up e _ ih => exact .up (by rw [hg _ (by simp), e]) (ih fun y hy => hg y (List.mem_cons_of_mem _ hy))

/-- `c` is moved to the top. -/
theorem Up.cut {f : Id → Option Id} {x l} (c : Id) (h : Up f x l) :
    ∃ l', Up (fupd f c none) x l' ∧ ∀ y ∈ l', y ∈ l := by
  induction h with
  | @top x e => exact ⟨[x], .top (by simp [fupd, e]), by simp⟩
  | @up x p l e _ ih =>
    by_cases hc : x = c
    · exact ⟨[x], .top (by simp [fupd, hc]), by simp⟩
    · obtain ⟨l', h1, h2⟩ := ih
      exact ⟨x :: l', .up (by simp [fupd, hc, e]) h1, fun y hy => by
        rcases List.mem_cons.mp hy with rfl | hy
        · simp
        · exact List.mem_cons_of_mem _ (h2 y hy)⟩

/-- `c` is moved below `p`, which is not below `c`. -/
theorem Up.move {f : Id → Option Id} {c p lp} (hp : Up f p lp) (hc : c ∉ lp) {x l} (h : Up f x l) :
    ∃ l', Up (fupd f c (some p)) x l' := by
  have hp' : Up (fupd f c (some p)) p lp := hp.congr fun y hy => by
    have : y ≠ c := fun e => hc (e ▸ hy)
    simp [fupd, this]
  induction h with
  | @top x e =>
    by_cases hx : x = c
    · exact ⟨x :: lp, .up (by simp [fupd, hx]) hp'⟩
    · exact ⟨[x], .top (by simp [fupd, hx, e])⟩
  | @up x q l e _ ih =>
    by_cases hx : x = c
    · exact ⟨x :: lp, .up (by simp [fupd, hx]) hp'⟩
    · obtain ⟨l', h1⟩ := ih
      exact ⟨x :: l', .up (by simp [fupd, hx, e]) h1⟩

def Content.isElement : Content → Bool
  | .element _ _ => true
  | _ => false

structure BInv (b : Browser) : Prop where
  nodupObjs : b.objs.Nodup
  objs : ∀ x, x ∈ b.objs ↔ b.objects x ≠ none
  roots : ∀ x, isRoot x = true → ∃ n a, b.objects x = some (.element n a)
  inMap : ∀ x, b.inMap x = true → x ∈ b.objs
  link : ∀ p c, c ∈ b.children p ↔ b.parent c = some p
  nodup : ∀ p, (b.children p).Nodup
  par : ∀ c p, b.parent c = some p → (isRoot c = true ∨ b.inMap c = true) ∧
    ∃ n a, b.objects p = some (.element n a)
  forest : ∀ x, ∃ l, Up b.parent x l

theorem isRoot_iff {x : Id} : isRoot x = true ↔ x = 1 ∨ x = 2 ∨ x = 3 := by
  simp [isRoot, or_assoc]

theorem binv_init : BInv Browser.init := by
  refine ⟨by simp [Browser.init], ?_, ?_, by simp [Browser.init], ?_, ?_, ?_, ?_⟩
  · intro x; simp only [Browser.init]
    by_cases h1 : x = 1
    · simp [h1]
    by_cases h2 : x = 2
    · simp [h2]
    by_cases h3 : x = 3
    · simp [h3]
    simp [h1, h2, h3]
  · intro x h
    rcases isRoot_iff.mp h with rfl | rfl | rfl <;> simp [Browser.init]
  · intro p c; simp only [Browser.init]
    by_cases h1 : p = 1
    · subst h1
      by_cases h2 : c = 2 ∨ c = 3 <;> simp [h2]
    · by_cases h2 : c = 2 ∨ c = 3 <;> simp [h1, h2, Ne.symm h1]
  · intro p; simp only [Browser.init]; split <;> simp
  · intro c p h; simp only [Browser.init] at h ⊢
    split at h
    · rename_i hc
      cases h
      exact ⟨Or.inl (isRoot_iff.mpr (Or.inr hc)), "html", fun _ => none, by simp⟩
    · cases h
  · intro x
    have h1 : Up Browser.init.parent 1 [1] := .top (by simp [Browser.init])
    by_cases h : x = 2 ∨ x = 3
    · exact ⟨_, .up (p := 1) (by simp [Browser.init, h]) h1⟩
    · exact ⟨[x], .top (by simp [Browser.init, h])⟩

theorem BInv.chain_eq {b : Browser} (h : BInv b) {x} (hx : x ∈ b.objs) :
    Up b.parent x (chain b.parent b.objs.length x) := by
  obtain ⟨l, hl⟩ := h.forest x
  have hsub : ∀ y ∈ l, y ∈ b.objs := by
    have : ∀ {x l}, Up b.parent x l → x ∈ b.objs → ∀ y ∈ l, y ∈ b.objs := by
      intro x l hl
      induction hl with
      | top e => intro hx y hy; simp at hy; exact hy ▸ hx
      | up e _ ih =>
        intro hx y hy
        rcases List.mem_cons.mp hy with rfl | hy
        · exact hx
        · obtain ⟨_, n, a, ha⟩ := h.par _ _ e
          exact ih ((h.objs _).mpr (by rw [ha]; simp)) y hy
    exact this hl hx
  have hlen : l.length ≤ b.objs.length := (hl.nodup.subperm hsub).length_le
  rw [hl.chain _ hlen]; exact hl

theorem BInv.detach {b : Browser} (h : BInv b) (c : Id) : BInv (b.detach c) := by
  unfold Browser.detach
  split
  · exact h
  rename_i p hp
  refine ⟨h.nodupObjs, h.objs, h.roots, h.inMap, ?_, ?_, ?_, ?_⟩
  · intro q x
    simp only [fupd]
    by_cases hx : x = c
    · subst hx
      by_cases hq : q = p
      · simp [hq]
      · simp [hq, h.link, hp, Ne.symm hq]
    · by_cases hq : q = p
      · subst hq; simp [hx, h.link]
      · simp [hx, hq, h.link]
  · intro q; simp only [fupd]; split
    · exact (h.nodup p).filter _
    · exact h.nodup q
  · intro x q hq
    simp only [fupd] at hq
    split at hq
    · cases hq
    · exact h.par x q hq
  · intro x
    obtain ⟨l, hl⟩ := h.forest x
    obtain ⟨l', h1, _⟩ := hl.cut c
    exact ⟨l', h1⟩

theorem BInv.objects {b : Browser} (h : BInv b) {id o o'} (ho : b.objects id = some o)
    (he : o'.isElement = o.isElement) : BInv { b with objects := fupd b.objects id (some o') } := by
  have hel : ∀ x n a, b.objects x = some (.element n a) → ∃ n a, fupd b.objects id (some o') x = some (.element n a) := by
    intro x n a hx
    simp only [fupd]
    split
    · rename_i e; subst e
      rw [ho] at hx; cases hx
      cases o' with
      | element n a => exact ⟨n, a, rfl⟩
      | text _ => cases he
      | comment _ => cases he
    · exact ⟨n, a, hx⟩
  refine ⟨h.nodupObjs, ?_, ?_, h.inMap, h.link, h.nodup, ?_, h.forest⟩
  · intro x
    simp only [fupd]
    split
    · rename_i e; subst e; simp [h.objs, ho]
    · exact h.objs x
  · intro x hx
    obtain ⟨n, a, e⟩ := h.roots x hx
    exact hel x n a e
  · intro c p hc
    obtain ⟨h1, n, a, e⟩ := h.par c p hc
    exact ⟨h1, hel p n a e⟩

theorem BInv.create {b b' : Browser} (h : BInv b) {id o} (hs : b.create id o = .ok b') : BInv b' := by
  unfold Browser.create at hs
  split at hs
  · cases hs; exact h
  rename_i hr
  split at hs
  · cases hs
  rename_i ho
  cases hs
  have ho' : b.objects id = none := by simpa using ho
  have hne : ∀ x, b.objects x ≠ none → x ≠ id := fun x hx e => hx (e ▸ ho')
  refine ⟨?_, ?_, ?_, ?_, h.link, h.nodup, ?_, h.forest⟩
  · exact List.nodup_cons.mpr ⟨fun hm => (h.objs id).mp hm ho', h.nodupObjs⟩
  · intro x
    simp only [fupd, List.mem_cons]
    by_cases e : x = id
    · simp [e]
    · simp [e, h.objs]
  · intro x hx
    obtain ⟨n, a, e⟩ := h.roots x hx
    exact ⟨n, a, by simp [fupd, hne x (by rw [e]; simp), e]⟩
  · intro x hx
    simp only [fupd] at hx
    split at hx
    · rename_i e; subst e; simp
    · exact List.mem_cons_of_mem _ (h.inMap x hx)
  · intro c p hc
    obtain ⟨h1, n, a, e⟩ := h.par c p hc
    refine ⟨?_, n, a, by simp [fupd, hne p (by rw [e]; simp), e]⟩
    rcases h1 with h1 | h1
    · exact Or.inl h1
    · right; simp only [fupd]; split
      · rfl
      · exact h1

theorem detach_objects (b : Browser) (c) : (b.detach c).objects = b.objects := by
  unfold Browser.detach; split <;> rfl
theorem detach_inMap (b : Browser) (c) : (b.detach c).inMap = b.inMap := by
  unfold Browser.detach; split <;> rfl
theorem detach_objs (b : Browser) (c) : (b.detach c).objs = b.objs := by
  unfold Browser.detach; split <;> rfl
theorem detach_css (b : Browser) (c) : (b.detach c).css = b.css := by
  unfold Browser.detach; split <;> rfl
theorem detach_listeners (b : Browser) (c) : (b.detach c).listeners = b.listeners := by
  unfold Browser.detach; split <;> rfl

theorem detach_parent (b : Browser) (c) : (b.detach c).parent = fupd b.parent c none := by
  unfold Browser.detach
  split
  · rename_i h
    funext x; simp only [fupd]; split
    · rename_i e; rw [e, h]
    · rfl
  · rfl

theorem BInv.detach_children {b : Browser} (h : BInv b) (c p) :
    (b.detach c).children p = (b.children p).filter (· ≠ c) := by
  have hnot : ∀ q, b.parent c ≠ some q → (b.children q).filter (· ≠ c) = b.children q := by
    intro q hq
    apply List.filter_eq_self.mpr
    intro y hy; simp; rintro rfl; exact hq ((h.link _ _).mp hy)
  unfold Browser.detach
  split
  · rename_i e
    rw [hnot p (by rw [e]; simp)]
  · rename_i q e
    simp only [fupd]
    split
    · rename_i e'; rw [e']
    · rename_i e'
      rw [hnot p (by rw [e]; intro h; cases h; exact e' rfl)]

theorem BInv.remove {b b' : Browser} (h : BInv b) {id} (hs : b.remove id = .ok b') : BInv b' := by
  unfold Browser.remove at hs
  split at hs
  · cases hs
  cases hs
  -- first detach, then forget
  have h1 := h.detach id
  have e : ({ b with inMap := fupd b.inMap id false } : Browser).detach id =
      { b.detach id with inMap := fupd b.inMap id false } := by
    unfold Browser.detach
    simp only
    cases b.parent id <;> rfl
  rw [e]
  refine ⟨h1.nodupObjs, h1.objs, h1.roots, ?_, h1.link, h1.nodup, ?_, h1.forest⟩
  · intro x hx
    simp only [fupd] at hx
    split at hx
    · cases hx
    · rw [← detach_inMap b id] at hx; exact h1.inMap x hx
  · intro c p hc
    simp only at hc
    obtain ⟨h2, h3⟩ := h1.par c p hc
    refine ⟨?_, h3⟩
    rcases h2 with h2 | h2
    · exact Or.inl h2
    · right
      simp only [fupd]
      split
      · rename_i e; subst e
        rw [detach_parent] at hc; simp [fupd] at hc
      · rw [detach_inMap] at h2; exact h2

theorem mem_insertBeforeIn {x r y : Id} {l : List Id} : y ∈ insertBeforeIn x r l ↔ y = x ∨ y ∈ l := by
  induction l with
  | nil => simp [insertBeforeIn]
  | cons z l ih =>
    simp only [insertBeforeIn]
    split
    · simp
    · simp only [List.mem_cons, ih]
      constructor
      · rintro (h | h | h) <;> simp [h]
      · rintro (h | h | h) <;> simp [h]

theorem nodup_insertBeforeIn {x r : Id} {l : List Id} (h : l.Nodup) (hx : x ∉ l) :
    (insertBeforeIn x r l).Nodup := by
  induction l with
  | nil => simp [insertBeforeIn]
  | cons z l ih =>
    simp only [List.mem_cons, not_or] at hx
    simp only [insertBeforeIn]
    split
    · exact List.nodup_cons.mpr ⟨by simp [hx], h⟩
    · rw [List.nodup_cons] at h ⊢
      exact ⟨by rw [mem_insertBeforeIn]; simp [h.1, Ne.symm hx.1], ih h.2 hx.2⟩

/-- What an executed insertion does. -/
structure Inserted (b : Browser) (p c : Id) (ref : Option Id) (b' : Browser) : Prop where
  objects : b'.objects = b.objects
  inMap : b'.inMap = b.inMap
  objs : b'.objs = b.objs
  css : b'.css = b.css
  listeners : b'.listeners = b.listeners
  parent : b'.parent = fupd b.parent c (some p)
  children : ∀ q, b'.children q = if q = p then listInsert (b.children p) ref c else (b.children q).filter (· ≠ c)

theorem BInv.inserted {b b' : Browser} (h : BInv b) {p c ref} (href : ref ≠ some c)
    (hs : b.insertBefore p c ref = .ok b') :
    Inserted b p c ref b' ∧ c ∉ chain b.parent b.objs.length p ∧ (∃ n a, b.objects p = some (.element n a)) ∧
      ∀ r, ref = some r → b.parent r = some p := by
  unfold Browser.insertBefore at hs
  split at hs
  rotate_left
  · cases hs
  rename_i n a ho
  split at hs
  · cases hs
  rename_i hc
  have hpar : fupd (b.detach c).parent c (some p) = fupd b.parent c (some p) := by
    rw [detach_parent]; funext x; simp only [fupd]; split <;> rfl
  split at hs
  · cases hs
    refine ⟨⟨detach_objects _ _, detach_inMap _ _, detach_objs _ _, detach_css _ _, detach_listeners _ _, hpar, ?_⟩,
      hc, ⟨n, a, ho⟩, by simp⟩
    intro q
    simp only [fupd, listInsert, h.detach_children]
  · rename_i r
    split at hs
    · cases hs
    rename_i hr
    split at hs
    · rename_i e; subst e; exact absurd rfl href
    cases hs
    refine ⟨⟨detach_objects _ _, detach_inMap _ _, detach_objs _ _, detach_css _ _, detach_listeners _ _, hpar, ?_⟩,
      hc, ⟨n, a, ho⟩, fun r' e => by cases e; simpa using hr⟩
    intro q
    simp only [fupd, listInsert, h.detach_children]

theorem BInv.insertBefore {b b' : Browser} (h : BInv b) {p c ref} (hcm : isRoot c = true ∨ b.inMap c = true)
    (hs : b.insertBefore p c ref = .ok b') : BInv b' := by
  by_cases hself : ref = some c
  · subst hself
    unfold Browser.insertBefore at hs
    split at hs
    · split at hs
      · cases hs
      · simp only at hs
        split at hs
        · cases hs
        · simp only [if_true] at hs; cases hs; exact h
    · cases hs
  obtain ⟨I, hc, ⟨n, a, ho⟩, hr⟩ := h.inserted hself hs
  have hmem : ∀ l : List Id, ∀ y, y ∈ listInsert l ref c ↔ y = c ∨ (y ∈ l) := by
    intro l y
    cases ref with
    | none => simp only [listInsert, List.mem_append, List.mem_filter]; by_cases e : y = c <;> simp [e]
    | some r =>
      simp only [listInsert, mem_insertBeforeIn, List.mem_filter]
      by_cases e : y = c <;> simp [e]
  refine ⟨I.objs ▸ h.nodupObjs, ?_, ?_, ?_, ?_, ?_, ?_, ?_⟩
  · rw [I.objs, I.objects]; exact h.objs
  · rw [I.objects]; exact h.roots
  · rw [I.inMap, I.objs]; exact h.inMap
  · intro q x
    rw [I.children, I.parent]
    simp only [fupd]
    by_cases hq : q = p
    · subst hq
      rw [if_pos rfl, hmem]
      by_cases e : x = c
      · simp [e]
      · simp [e, h.link]
    · rw [if_neg hq]
      by_cases e : x = c
      · simp [e, Ne.symm hq]
      · simp [e, h.link]
  · intro q
    rw [I.children]
    split
    · have h1 : ((b.children p).filter (· ≠ c)).Nodup := (h.nodup p).filter _
      cases ref with
      | none =>
        simp only [listInsert]
        rw [List.nodup_append]
        exact ⟨h1, by simp, by intro x hx y hy; simp at hx hy; rintro rfl; exact hx.2 hy⟩
      | some r => exact nodup_insertBeforeIn h1 (by simp)
    · exact (h.nodup q).filter _
  · intro x q hx
    rw [I.parent] at hx
    rw [I.inMap, I.objects]
    simp only [fupd] at hx
    split at hx
    · rename_i e; cases hx; exact ⟨e ▸ hcm, n, a, ho⟩
    · exact h.par x q hx
  · intro x
    obtain ⟨l, hl⟩ := h.forest x
    rw [I.parent]
    exact Up.move (h.chain_eq ((h.objs p).mpr (by rw [ho]; simp))) hc hl

theorem get_of {b : Browser} {id o} (h : b.get id = some o) :
    b.objects id = some o ∧ (isRoot id = true ∨ b.inMap id = true) := by
  unfold Browser.get at h
  split at h
  · rename_i h'
    exact ⟨h, by simpa using h'⟩
  · cases h

theorem BInv.step {b b' : Browser} (h : BInv b) {c} (hs : b.step c = .ok b') : BInv b' := by
  cases c with
  | createNode id name => exact h.create hs
  | createText id name => exact h.create hs
  | createComment id name => exact h.create hs
  | updateText id v =>
    simp only [Browser.step] at hs
    split at hs
    · rename_i hg; cases hs; exact h.objects (get_of hg).1 rfl
    · cases hs
  | setAttr id n v =>
    simp only [Browser.step] at hs
    split at hs
    · rename_i hg; cases hs; exact h.objects (get_of hg).1 rfl
    · cases hs
  | removeAttr id n =>
    simp only [Browser.step] at hs
    split at hs
    · rename_i hg; cases hs; exact h.objects (get_of hg).1 rfl
    · cases hs
  | removeNode id => exact h.remove hs
  | removeText id => exact h.remove hs
  | removeComment id => exact h.remove hs
  | insertBefore p c ref =>
    simp only [Browser.step] at hs
    split at hs
    · rename_i hp hc
      have hcm := (get_of hc).2
      split at hs
      · exact h.insertBefore hcm hs
      · split at hs
        · cases hs
        · exact h.insertBefore hcm hs
    · cases hs
  | insertCss s v =>
    cases hs
    exact ⟨h.nodupObjs, h.objs, h.roots, h.inMap, h.link, h.nodup, h.par, h.forest⟩
  | callbackAdd id e cb =>
    simp only [Browser.step] at hs
    split at hs
    · cases hs; exact h
    · split at hs
      · cases hs
        exact ⟨h.nodupObjs, h.objs, h.roots, h.inMap, h.link, h.nodup, h.par, h.forest⟩
      · cases hs
  | callbackRemove id e cb =>
    simp only [Browser.step] at hs
    split at hs
    · split at hs
      · cases hs
        exact ⟨h.nodupObjs, h.objs, h.roots, h.inMap, h.link, h.nodup, h.par, h.forest⟩
      · cases hs
    · cases hs; exact h

theorem BInv.run {b b' : Browser} (h : BInv b) {cs} (hs : b.run cs = .ok b') : BInv b' := by
  induction cs generalizing b with
  | nil => cases hs; exact h
  | cons c cs ih =>
    simp only [Browser.run] at hs
    split at hs
    · cases hs
    · rename_i b1 h1; exact ih (h.step h1) hs

end Verif.Dom

import Verif.View.Served
import Verif.View.Untouched
/-!
# C58: the program takes the page over

The browser shows the page that the server has sent; then the program starts, and its commands arrive. Before the first
batch the driver notes the child nodes of head and body, and after the batch it removes them. The page may be any page:
what the server has rendered, a loading indicator, or nothing.
-/
namespace Verif.View
open Verif.Dom

/-! ## The driver -/

/-- What `DriverDom` has (dom.ts:79-98): the page, and whether there has been an update (`initBeforeFirstUpdate`). -/
structure Driver where
  page : Browser
  started : Bool := false

/-- dom.ts:424-444 (`get_node_to_clear`, `get_to_clear`): the nodes of the head and of the body; before the first
update only. -/
def Driver.toClear (d : Driver) : List Id × List Id :=
  if d.started then ([], []) else (d.page.children 2, d.page.children 3)

/-- dom.ts:445-478 (`dom_bulk_update`); `execute` is the loop with `try` and `catch`. Not modelled: the focus. -/
def Driver.update (d : Driver) (cs : List Cmd) : Driver :=
  let (head, body) := d.toClear
  let page := execute d.page cs
  let page := body.foldl Browser.detach page
  let page := head.foldl Browser.detach page
  { page, started := true }

/-! ## Specification -/

/-- A page as it is when a browser has read a document: it has an html element with a head and a body (and other
nodes, among them or around them), the driver does not know any node of it, and no listener has been added. -/
structure Arrived (page : Browser) : Prop where
  nodup : page.objs.Nodup
  objs : ∀ x, x ∈ page.objs ↔ page.objects x ≠ none
  roots : ∀ x, isRoot x = true → ∃ n a, page.objects x = some (.element n a)
  link : ∀ p c, c ∈ page.children p ↔ page.parent c = some p
  nodes : ∀ c p, page.parent c = some p → page.objects c ≠ none ∧ page.objects p ≠ none
  html : page.parent 1 = none
  order : (page.children 1).filter isRoot = [2, 3]
  inMap : ∀ x, page.inMap x = false
  css : page.css = []
  listeners : page.listeners = []

/-- A node that was there before the program: any node other than the html, head and body elements. -/
def Old (page : Browser) (x : Id) : Prop := isRoot x = false ∧ page.objects x ≠ none

/-- The node that a command makes. -/
def makes : Cmd → Option Id
  | .createNode id _ => some id
  | .createText id _ => some id
  | .createComment id _ => some id
  | _ => none

/-! ## Proof -/

def oldB (page : Browser) (x : Id) : Bool := !isRoot x && (page.objects x).isSome

theorem old_iff {page : Browser} {x : Id} : oldB page x = true ↔ Old page x := by
  simp [oldB, Old, Option.isSome_iff_ne_none]

/-- `b` is the page without the old nodes, `p` the page with them. `O` are the old nodes among the children of the other
nodes, `P` the parents of the old nodes. -/
structure Over (old : Id → Bool) (at0 : Id → Option Content) (O : Id → List Id) (P : Id → Option Id) (b p : Browser) : Prop where
  inv : BInv b
  new : ∀ x, b.objects x ≠ none → old x = false
  objects : ∀ x, isRoot x = false → old x = false → p.objects x = b.objects x
  roots : ∀ x, isRoot x = true → ∃ n a n' a' a0, b.objects x = some (.element n a) ∧ p.objects x = some (.element n' a') ∧
    at0 x = some (.element n' a0) ∧ ∀ k, a' k = a k ∨ (a k = none ∧ a' k = a0 k)
  oldObjects : ∀ x, old x = true → p.objects x = at0 x
  oldRoot : ∀ x, old x = true → isRoot x = false
  inMap : p.inMap = b.inMap
  parent : ∀ x, old x = false → p.parent x = b.parent x
  kids : ∀ x, old x = false → (p.children x).filter (fun y => !old y) = b.children x
  olds : ∀ x, old x = false → (p.children x).filter old = O x
  oldPar : ∀ x, old x = true → p.parent x = P x
  len : b.objs.length ≤ p.objs.length
  css : p.css = b.css
  listeners : p.listeners = b.listeners

section
variable {old : Id → Bool} {at0 : Id → Option Content} {O : Id → List Id} {P : Id → Option Id}

theorem Over.get {b p : Browser} (h : Over old at0 O P b p) {x o} (hg : b.get x = some o) :
    old x = false ∧ (p.get x).isSome = true ∧ (isRoot x = false → p.get x = some o) := by
  obtain ⟨h1, h2⟩ := get_of hg
  have hn := h.new x (by rw [h1]; simp)
  refine ⟨hn, ?_, ?_⟩
  · unfold Browser.get
    rw [h.inMap, if_pos (by simpa using h2)]
    cases hr : isRoot x
    · rw [h.objects x hr hn, h1]; rfl
    · obtain ⟨n, a, n', a', a0, -, e, -⟩ := h.roots x hr
      rw [e]; rfl
  · intro hr
    unfold Browser.get
    rw [h.inMap, if_pos (by simpa using h2), h.objects x hr hn, h1]

theorem Over.parentNew {b p : Browser} (h : Over old at0 O P b p) {x q} (hq : b.parent x = some q) : old q = false := by
  obtain ⟨-, n, a, e⟩ := h.inv.par _ _ hq
  exact h.new q (by rw [e]; simp)

theorem Over.detach {b p : Browser} (h : Over old at0 O P b p) {c : Id} (hc : old c = false) :
    Over old at0 O P (b.detach c) (p.detach c) where
  inv := h.inv.detach c
  new := by rw [detach_objects]; exact h.new
  objects := by rw [detach_objects, detach_objects]; exact h.objects
  roots := by rw [detach_objects, detach_objects]; exact h.roots
  oldObjects := by rw [detach_objects]; exact h.oldObjects
  oldRoot := h.oldRoot
  inMap := by rw [detach_inMap, detach_inMap]; exact h.inMap
  parent := by
    intro x hx
    rw [detach_parent, detach_parent]
    simp only [fupd]; split
    · rfl
    · exact h.parent x hx
  kids := by
    intro x hx
    unfold Browser.detach
    rw [h.parent c hc]
    cases e : b.parent c with
    | none => exact h.kids x hx
    | some q =>
      simp only [fupd]
      split
      · rw [filter_comm', h.kids q (h.parentNew e)]
      · exact h.kids x hx
  olds := by
    intro x hx
    unfold Browser.detach
    rw [h.parent c hc]
    cases e : b.parent c with
    | none => exact h.olds x hx
    | some q =>
      simp only [fupd]
      split
      · rename_i e2
        rw [filter_comm', ← e2, h.olds x hx]
        refine List.filter_eq_self.mpr fun y hy => ?_
        rw [← h.olds x hx, List.mem_filter] at hy
        have : y ≠ c := by rintro rfl; rw [hc] at hy; exact absurd hy.2 (by decide)
        simpa using this
      · exact h.olds x hx
  oldPar := by
    intro x hx
    rw [detach_parent]
    have : x ≠ c := by rintro rfl; rw [hc] at hx; exact absurd hx (by decide)
    simp only [fupd, this, if_false]
    exact h.oldPar x hx
  len := by rw [detach_objs, detach_objs]; exact h.len
  css := by rw [detach_css, detach_css]; exact h.css
  listeners := by rw [detach_listeners, detach_listeners]; exact h.listeners

theorem insertBeforeIn_drop {x r : Id} {l : List Id} {k : Id → Bool} (hx : k x = false) :
    (insertBeforeIn x r l).filter k = l.filter k := by
  induction l with
  | nil => simp [insertBeforeIn, hx]
  | cons y l ih =>
    simp only [insertBeforeIn]
    split
    · simp [List.filter_cons, hx]
    · simp only [List.filter_cons, ih]

theorem Over.insert {b p b' : Browser} (h : Over old at0 O P b p) {q c : Id} {ref : Option Id} (hc : old c = false) (hq : old q = false)
    (hcm : isRoot c = true ∨ b.inMap c = true) (hr : ∀ r, ref = some r → old r = false) (hs : b.insertBefore q c ref = .ok b') :
    ∃ p', p.insertBefore q c ref = .ok p' ∧ Over old at0 O P b' p' := by
  have hi' := h.inv.insertBefore hcm hs
  unfold Browser.insertBefore at hs ⊢
  split at hs
  rotate_left
  · cases hs
  rename_i n a ho
  have hel : ∃ n a, p.objects q = some (.element n a) := by
    cases hr : isRoot q
    · exact ⟨n, a, by rw [h.objects q hr hq, ho]⟩
    · obtain ⟨_, _, n', a', _, -, e, -⟩ := h.roots q hr
      exact ⟨n', a', e⟩
  obtain ⟨n', a', ho'⟩ := hel
  rw [ho']
  have hqo : q ∈ b.objs := (h.inv.objs q).mpr (by rw [ho]; simp)
  have hup := h.inv.chain_eq hqo
  have hch : chain p.parent p.objs.length q = chain b.parent b.objs.length q := by
    have hsub : ∀ {x l}, Up b.parent x l → b.objects x ≠ none → ∀ y ∈ l, old y = false := by
      intro x l hl
      induction hl with
      | top e => intro hx y hy; simp at hy; subst hy; exact h.new _ hx
      | up e _ ih =>
        intro hx y hy
        rcases List.mem_cons.mp hy with rfl | hy
        · exact h.new _ hx
        · obtain ⟨_, n, a, ha⟩ := h.inv.par _ _ e
          exact ih (by rw [ha]; simp) y hy
    have hup' := hup.congr (g := p.parent) fun y hy => h.parent y (hsub hup (by rw [ho]; simp) y hy)
    refine hup'.chain _ (Nat.le_trans ?_ h.len)
    have : ∀ n x, (chain b.parent n x).length ≤ n := by
      intro n
      induction n with
      | zero => intro x; simp [chain]
      | succ n ih =>
        intro x
        simp only [chain, List.length_cons]
        cases b.parent x with
        | none => simp
        | some y => exact Nat.succ_le_succ (ih y)
    exact this _ _
  simp only [hch]
  split at hs
  · cases hs
  rename_i hcn
  rw [if_neg hcn]
  have hd := h.detach hc
  have put : ∀ (lb lp : List Id), BInv { b.detach c with parent := fupd (b.detach c).parent c (some q), children := fupd (b.detach c).children q lb } →
      lp.filter (fun y => !old y) = lb → lp.filter old = O q →
      Over old at0 O P { b.detach c with parent := fupd (b.detach c).parent c (some q), children := fupd (b.detach c).children q lb }
        { p.detach c with parent := fupd (p.detach c).parent c (some q), children := fupd (p.detach c).children q lp } := by
    intro lb lp hinv e1 e2
    refine { hd with inv := hinv, parent := ?_, kids := ?_, olds := ?_, oldPar := ?_ }
    · intro x hx
      simp only [fupd]; split
      · rfl
      · exact hd.parent x hx
    · intro x hx
      simp only [fupd]; split
      · exact e1
      · exact hd.kids x hx
    · intro x hx
      simp only [fupd]; split
      · rename_i e; rw [e]; exact e2
      · exact hd.olds x hx
    · intro x hx
      have : x ≠ c := by rintro rfl; rw [hc] at hx; exact absurd hx (by decide)
      simp only [fupd, this, if_false]
      exact hd.oldPar x hx
  cases ref with
  | none =>
    simp only at hs ⊢
    cases hs
    refine ⟨_, rfl, put _ _ hi' ?_ ?_⟩
    · rw [List.filter_append, hd.kids q hq]; simp [hc]
    · rw [List.filter_append, hd.olds q hq]; simp [hc]
  | some r =>
    simp only at hs ⊢
    have hro := hr r rfl
    rw [h.parent r hro]
    split at hs
    · cases hs
    rename_i hpr
    rw [if_neg hpr]
    split at hs
    · rename_i e
      cases hs
      rw [if_pos e]
      exact ⟨p, rfl, h⟩
    rename_i hrc
    rw [if_neg hrc]
    cases hs
    refine ⟨_, rfl, put _ _ hi' ?_ ?_⟩
    · rw [insertBeforeIn_filter (by simp [hc]) (by simp [hro]), hd.kids q hq]
    · rw [insertBeforeIn_drop hc, hd.olds q hq]

theorem Over.create {b p b' : Browser} (h : Over old at0 O P b p) {id : Id} {o : Content} (hs : b.create id o = .ok b')
    (hnew : ∀ x, b'.objects x ≠ none → old x = false) :
    ∃ p', p.create id o = .ok p' ∧ Over old at0 O P b' p' := by
  have hi' := h.inv.create hs
  unfold Browser.create at hs ⊢
  split at hs
  · rename_i hr; cases hs; exact ⟨p, by rw [if_pos hr], h⟩
  rename_i hr
  split at hs
  · cases hs
  rename_i hno
  cases hs
  have hid : old id = false := hnew id (by simp [fupd])
  have hr' : isRoot id = false := by simpa using hr
  rw [if_neg hr, if_neg (by rw [h.objects id hr' hid]; exact hno)]
  refine ⟨_, rfl, { h with inv := hi', new := hnew, objects := ?_, roots := ?_, oldObjects := ?_, inMap := ?_, len := ?_ }⟩
  · intro x hx ho
    simp only [fupd]; split
    · rfl
    · exact h.objects x hx ho
  · intro x hx
    have : x ≠ id := by rintro rfl; rw [hr'] at hx; exact absurd hx (by decide)
    simp only [fupd, this, if_false]
    exact h.roots x hx
  · intro x hx
    have : x ≠ id := by rintro rfl; rw [hid] at hx; exact absurd hx (by decide)
    simp only [fupd, this, if_false]
    exact h.oldObjects x hx
  · simp only [h.inMap]
  · simpa using h.len

theorem Over.remove {b p b' : Browser} (h : Over old at0 O P b p) {id : Id} (hs : b.remove id = .ok b') :
    ∃ p', p.remove id = .ok p' ∧ Over old at0 O P b' p' := by
  have hi' := h.inv.remove hs
  unfold Browser.remove at hs ⊢
  cases hg : b.get id with
  | none => rw [hg] at hs; cases hs
  | some o =>
    rw [hg] at hs; simp only at hs; cases hs
    obtain ⟨hid, hsome, -⟩ := h.get hg
    obtain ⟨o', e⟩ := Option.isSome_iff_exists.mp hsome
    rw [e]
    refine ⟨_, rfl, ?_⟩
    have hd := h.detach hid
    have e1 : ∀ b : Browser, ({ b with inMap := fupd b.inMap id false } : Browser).detach id =
        { b.detach id with inMap := fupd b.inMap id false } := by
      intro b; unfold Browser.detach; simp only; split <;> rfl
    rw [e1] at hi' ⊢
    rw [e1]
    exact { hd with inv := hi', inMap := by simp only [h.inMap] }

/-- The content of a node is changed by both in the same way. -/
theorem Over.write {b p : Browser} (h : Over old at0 O P b p) {id : Id} {o o1 o' o1' : Content} (hb : b.objects id = some o)
    (hp : p.objects id = some o') (hk : o.isElement = o1.isElement) (hsame : isRoot id = false → o1' = o1)
    (hroot : isRoot id = true → ∃ n a n' a' a0, o1 = .element n a ∧ o1' = .element n' a' ∧ at0 id = some (.element n' a0) ∧
      ∀ k, a' k = a k ∨ (a k = none ∧ a' k = a0 k)) :
    Over old at0 O P { b with objects := fupd b.objects id (some o1) } { p with objects := fupd p.objects id (some o1') } := by
  have hid := h.new id (by rw [hb]; simp)
  refine { h with inv := h.inv.objects hb hk.symm, new := ?_, objects := ?_, roots := ?_, oldObjects := ?_ }
  · intro x hx
    simp only [fupd] at hx
    split at hx
    · rename_i e; rw [e]; exact hid
    · exact h.new x hx
  · intro x hx ho
    simp only [fupd]; split
    · rename_i e; rw [hsame (e ▸ hx)]
    · exact h.objects x hx ho
  · intro x hx
    simp only [fupd]; split
    · rename_i e
      obtain ⟨n, a, n', a', a0, e1, e2, e3, e4⟩ := hroot (e ▸ hx)
      exact ⟨n, a, n', a', a0, by rw [e1], by rw [e2], by rw [e, e3], e4⟩
    · exact h.roots x hx
  · intro x hx
    have : x ≠ id := by rintro rfl; rw [hid] at hx; exact absurd hx (by decide)
    simp only [fupd, this, if_false]
    exact h.oldObjects x hx

theorem Over.step {b p b' : Browser} (h : Over old at0 O P b p) {c : Cmd} (hs : b.step c = .ok b')
    (hnew : ∀ x, b'.objects x ≠ none → old x = false) :
    ∃ p', p.step c = .ok p' ∧ Over old at0 O P b' p' := by
  cases c with
  | createNode id name => exact h.create hs hnew
  | createText id value => exact h.create hs hnew
  | createComment id value => exact h.create hs hnew
  | removeNode id => exact h.remove hs
  | removeText id => exact h.remove hs
  | removeComment id => exact h.remove hs
  | updateText id value =>
    simp only [Browser.step] at hs ⊢
    split at hs
    · rename_i v hg
      cases hs
      have hr : isRoot id = false := by
        cases hr : isRoot id
        · rfl
        · obtain ⟨n, a, e⟩ := h.inv.roots id hr
          rw [(get_of hg).1] at e; cases e
      have hg' := (h.get hg).2.2 hr
      rw [hg']
      exact ⟨_, rfl, h.write (get_of hg).1 (get_of hg').1 rfl (fun _ => rfl) (fun e => by rw [hr] at e; cases e)⟩
    · cases hs
  | setAttr id name value =>
    simp only [Browser.step] at hs ⊢
    split at hs
    · rename_i n attr hg
      cases hs
      cases hr : isRoot id
      · have hg' := (h.get hg).2.2 hr
        rw [hg']
        exact ⟨_, rfl, h.write (get_of hg).1 (get_of hg').1 rfl (fun _ => rfl) (fun e => by rw [hr] at e; cases e)⟩
      · obtain ⟨n1, a1, n', a', a0, e1, e2, e3, e4⟩ := h.roots id hr
        rw [(get_of hg).1] at e1; cases e1
        have hg' : p.get id = some (.element n' a') := by simp [Browser.get, hr, e2]
        rw [hg']
        refine ⟨_, rfl, h.write (get_of hg).1 e2 rfl (fun e => by rw [hr] at e; cases e) fun _ => ⟨_, _, _, _, a0, rfl, rfl, e3, ?_⟩⟩
        intro k
        split
        · exact Or.inl rfl
        · exact e4 k
    · cases hs
  | removeAttr id name =>
    simp only [Browser.step] at hs ⊢
    split at hs
    · rename_i n attr hg
      cases hs
      cases hr : isRoot id
      · have hg' := (h.get hg).2.2 hr
        rw [hg']
        exact ⟨_, rfl, h.write (get_of hg).1 (get_of hg').1 rfl (fun _ => rfl) (fun e => by rw [hr] at e; cases e)⟩
      · obtain ⟨n1, a1, n', a', a0, e1, e2, e3, e4⟩ := h.roots id hr
        rw [(get_of hg).1] at e1; cases e1
        have hg' : p.get id = some (.element n' a') := by simp [Browser.get, hr, e2]
        rw [hg']
        refine ⟨_, rfl, h.write (get_of hg).1 e2 rfl (fun e => by rw [hr] at e; cases e) fun _ => ⟨_, _, _, _, a0, rfl, rfl, e3, ?_⟩⟩
        intro k
        split
        · exact Or.inl rfl
        · exact e4 k
    · cases hs
  | insertBefore q c ref =>
    simp only [Browser.step] at hs ⊢
    split at hs
    rotate_left
    · cases hs
    rename_i oq oc hgq hgc
    obtain ⟨hq, sq, -⟩ := h.get hgq
    obtain ⟨hc, sc, -⟩ := h.get hgc
    obtain ⟨oq', eq'⟩ := Option.isSome_iff_exists.mp sq
    obtain ⟨oc', ec'⟩ := Option.isSome_iff_exists.mp sc
    rw [eq', ec']
    simp only
    cases ref with
    | none => exact h.insert hc hq (get_of hgc).2 (fun r e => by cases e) hs
    | some r =>
      simp only at hs ⊢
      split at hs
      · cases hs
      rename_i hgr
      cases e : b.get r with
      | none => rw [e] at hgr; exact absurd rfl hgr
      | some o =>
        obtain ⟨hr, sr, -⟩ := h.get e
        rw [if_neg (by simpa [Option.isNone_iff_eq_none, Option.isSome_iff_ne_none] using sr)]
        exact h.insert hc hq (get_of hgc).2 (fun r' e => by cases e; exact hr) hs
  | insertCss s v =>
    simp only [Browser.step] at hs ⊢
    cases hs
    exact ⟨_, rfl, { h with inv := ⟨h.inv.1, h.inv.2, h.inv.3, h.inv.4, h.inv.5, h.inv.6, h.inv.7, h.inv.8⟩, css := by simp only [h.css] }⟩
  | callbackAdd id e cb =>
    simp only [Browser.step] at hs ⊢
    rw [h.listeners]
    split at hs
    · rename_i hl; cases hs; exact ⟨p, by rw [if_pos hl], h⟩
    rename_i hl
    rw [if_neg hl]
    split at hs
    · rename_i hg
      cases hs
      have hg' : (decide (e = "hook_keydown") || (p.get id).isSome) = true := by
        rw [Bool.or_eq_true] at hg ⊢
        rcases hg with hg | hg
        · exact Or.inl hg
        · obtain ⟨o, ho⟩ := Option.isSome_iff_exists.mp hg
          exact Or.inr (h.get ho).2.1
      rw [if_pos hg']
      exact ⟨_, rfl, { h with inv := ⟨h.inv.1, h.inv.2, h.inv.3, h.inv.4, h.inv.5, h.inv.6, h.inv.7, h.inv.8⟩, listeners := by simp only }⟩
    · cases hs
  | callbackRemove id e cb =>
    simp only [Browser.step] at hs ⊢
    rw [h.listeners]
    split at hs
    · rename_i hl
      rw [if_pos hl]
      split at hs
      · rename_i hg
        cases hs
        have hg' : (decide (e = "hook_keydown") || (p.get id).isSome) = true := by
          rw [Bool.or_eq_true] at hg ⊢
          rcases hg with hg | hg
          · exact Or.inl hg
          · obtain ⟨o, ho⟩ := Option.isSome_iff_exists.mp hg
            exact Or.inr (h.get ho).2.1
        rw [if_pos hg']
        exact ⟨_, rfl, { h with inv := ⟨h.inv.1, h.inv.2, h.inv.3, h.inv.4, h.inv.5, h.inv.6, h.inv.7, h.inv.8⟩, listeners := by simp only }⟩
      · cases hs
    · rename_i hl
      rw [if_neg hl]
      cases hs
      exact ⟨p, rfl, h⟩

theorem Over.run : ∀ {cs : List Cmd} {b p b' : Browser},
    Over old at0 O P b p → b.run cs = .ok b' → (∀ x, b'.objects x ≠ none → old x = false) →
      Over old at0 O P b' (execute p cs) ∧ p.run cs = .ok (execute p cs)
  | [], b, p, b', h, hs, _ => by cases hs; exact ⟨h, rfl⟩
  | c :: cs, b, p, b', h, hs, hnew => by
      simp only [Browser.run] at hs
      split at hs
      · cases hs
      · rename_i b1 h1
        obtain ⟨p1, e1, o1⟩ := h.step h1 (fun x hx => hnew x (objects_run hs hx))
        simp only [execute, Browser.run, e1]
        exact Over.run o1 hs hnew

/-- One of the old nodes is removed. -/
theorem Over.clear {b p : Browser} (h : Over old at0 O P b p) {c : Id} (hc : old c = true) (hO : ∀ q, c ∈ O q → P c = some q) :
    Over old at0 (fun q => (O q).filter (· ≠ c)) (fupd P c none) b (p.detach c) := by
  have hP := h.oldPar c hc
  refine { h with objects := ?_, roots := ?_, oldObjects := ?_, inMap := ?_, parent := ?_, kids := ?_, olds := ?_, oldPar := ?_, len := ?_, css := ?_, listeners := ?_ }
  · rw [detach_objects]; exact h.objects
  · rw [detach_objects]; exact h.roots
  · rw [detach_objects]; exact h.oldObjects
  · rw [detach_inMap]; exact h.inMap
  · intro x hx
    have : x ≠ c := by rintro rfl; rw [hc] at hx; exact absurd hx (by decide)
    rw [detach_parent]; simp only [fupd, this, if_false]; exact h.parent x hx
  · intro x hx
    unfold Browser.detach
    split
    · exact h.kids x hx
    · rename_i q hq
      simp only [fupd]
      split
      · rename_i e
        rw [filter_comm', ← e, h.kids x hx]
        refine List.filter_eq_self.mpr fun y hy => ?_
        rw [← h.kids x hx, List.mem_filter] at hy
        have : y ≠ c := by rintro rfl; rw [hc] at hy; exact absurd hy.2 (by decide)
        simpa using this
      · exact h.kids x hx
  · intro x hx
    have keep : P c ≠ some x → O x = (O x).filter (· ≠ c) := by
      intro hne
      refine (List.filter_eq_self.mpr fun y hy => ?_).symm
      have : y ≠ c := by rintro rfl; exact hne (hO x hy)
      simpa using this
    unfold Browser.detach
    split
    · rename_i hn
      rw [h.olds x hx]
      exact keep (by rw [← hP, hn]; simp)
    · rename_i q hq
      simp only [fupd]
      split
      · rename_i e
        rw [filter_comm', ← e, h.olds x hx]
      · rename_i e
        rw [h.olds x hx]
        exact keep (by rw [← hP, hq]; intro e'; cases e'; exact e rfl)
  · intro x hx
    rw [detach_parent]
    simp only [fupd]; split
    · rfl
    · exact h.oldPar x hx
  · rw [detach_objs]; exact h.len
  · rw [detach_css]; exact h.css
  · rw [detach_listeners]; exact h.listeners

theorem Over.clearAll {b : Browser} : ∀ (l : List Id) {O : Id → List Id} {P : Id → Option Id} {p : Browser}, Over old at0 O P b p →
    (∀ c ∈ l, old c = true) → (∀ q c, c ∈ O q → P c = some q) →
    ∃ O' P', Over old at0 O' P' b (l.foldl Browser.detach p) ∧ (∀ q, O' q = (O q).filter (· ∉ l)) ∧
      (∀ c, P' c = if c ∈ l then none else P c)
  | [], O, P, p, h, _, _ => ⟨O, P, h, fun q => by simp, fun c => by simp⟩
  | c :: l, O, P, p, h, hl, hO => by
      have h1 := h.clear (hl c (by simp)) (fun q => hO q c)
      obtain ⟨O', P', h2, h3, h4⟩ := Over.clearAll l h1 (fun x hx => hl x (by simp [hx])) (by
        intro q x hx
        rw [List.mem_filter] at hx
        have : x ≠ c := by simpa using hx.2
        simp only [fupd, this, if_false]
        exact hO q x hx.1)
      refine ⟨O', P', h2, fun q => ?_, fun x => ?_⟩
      · rw [h3 q, List.filter_filter]
        refine List.filter_congr fun x _ => ?_
        simp only [List.mem_cons, not_or]
        by_cases e1 : x = c <;> by_cases e2 : x ∈ l <;> simp [e1, e2]
      · rw [h4 x]
        simp only [fupd, List.mem_cons]
        by_cases e1 : x = c <;> by_cases e2 : x ∈ l <;> simp [e1, e2]

end

theorem makes_step {b b' : Browser} {c : Cmd} (hs : b.step c = .ok b') {x : Id} (hx : b'.objects x ≠ none) :
    b.objects x ≠ none ∨ makes c = some x := by
  have made : ∀ {id o}, b.create id o = .ok b' → b.objects x ≠ none ∨ some id = some x := by
    intro id o h
    unfold Browser.create at h
    split at h
    · cases h; exact Or.inl hx
    · split at h
      · cases h
      · cases h
        simp only [fupd] at hx
        split at hx
        · rename_i e; exact Or.inr (by rw [e])
        · exact Or.inl hx
  have removed : ∀ {id}, b.remove id = .ok b' → b.objects x ≠ none := by
    intro id h
    unfold Browser.remove at h
    split at h
    · cases h
    · cases h; rw [detach_objects] at hx; exact hx
  have wrote : ∀ {id o o'}, b.get id = some o → b' = { b with objects := fupd b.objects id (some o') } → b.objects x ≠ none := by
    intro id o o' hg e
    rw [e] at hx
    simp only [fupd] at hx
    split at hx
    · rename_i e; rw [e, (get_of hg).1]; simp
    · exact hx
  cases c with
  | createNode id name => exact made hs
  | createText id value => exact made hs
  | createComment id value => exact made hs
  | removeNode id => exact Or.inl (removed hs)
  | removeText id => exact Or.inl (removed hs)
  | removeComment id => exact Or.inl (removed hs)
  | updateText id value =>
    simp only [Browser.step] at hs
    split at hs
    · rename_i hg; cases hs; exact Or.inl (wrote hg rfl)
    · cases hs
  | setAttr id name value =>
    simp only [Browser.step] at hs
    split at hs
    · rename_i hg; cases hs; exact Or.inl (wrote hg rfl)
    · cases hs
  | removeAttr id name =>
    simp only [Browser.step] at hs
    split at hs
    · rename_i hg; cases hs; exact Or.inl (wrote hg rfl)
    · cases hs
  | insertBefore q c ref =>
    have ins : ∀ ref, b.insertBefore q c ref = .ok b' → b.objects x ≠ none := by
      intro ref h
      unfold Browser.insertBefore at h
      split at h
      · split at h
        · cases h
        · split at h
          · cases h; simpa [detach_objects] using hx
          · split at h
            · cases h
            · split at h
              · cases h; exact hx
              · cases h; simpa [detach_objects] using hx
      · cases h
    simp only [Browser.step] at hs
    split at hs
    · split at hs
      · exact Or.inl (ins _ hs)
      · split at hs
        · cases hs
        · exact Or.inl (ins _ hs)
    · cases hs
  | insertCss s v => simp only [Browser.step] at hs; cases hs; exact Or.inl hx
  | callbackAdd id e cb =>
    simp only [Browser.step] at hs
    split at hs
    · cases hs; exact Or.inl hx
    · split at hs
      · cases hs; exact Or.inl hx
      · cases hs
  | callbackRemove id e cb =>
    simp only [Browser.step] at hs
    split at hs
    · split at hs
      · cases hs; exact Or.inl hx
      · cases hs
    · cases hs; exact Or.inl hx

theorem makes_run : ∀ {cs : List Cmd} {b b' : Browser}, b.run cs = .ok b' → ∀ {x : Id}, b'.objects x ≠ none →
    b.objects x ≠ none ∨ ∃ c ∈ cs, makes c = some x
  | [], b, b', hs, x, hx => by cases hs; exact Or.inl hx
  | c :: cs, b, b', hs, x, hx => by
      simp only [Browser.run] at hs
      split at hs
      · cases hs
      · rename_i b1 h1
        rcases makes_run hs hx with h | ⟨d, hd, e⟩
        · rcases makes_step h1 h with h | h
          · exact Or.inl h
          · exact Or.inr ⟨c, by simp, h⟩
        · exact Or.inr ⟨d, by simp [hd], e⟩

theorem over_init {page : Browser} (hp : Arrived page) :
    Over (oldB page) page.objects (fun q => (page.children q).filter (oldB page)) page.parent Browser.init page := by
  have oldRoot : ∀ x, isRoot x = true → oldB page x = false := fun x h => by simp [oldB, h]
  have rootKid : ∀ x, isRoot x = true → x ≠ 1 → page.parent x = some 1 := by
    intro x hx h1
    rw [← hp.link]
    have : x ∈ (page.children 1).filter isRoot := by
      rw [hp.order]
      rcases isRoot_iff.mp hx with rfl | rfl | rfl <;> simp_all
    exact (List.mem_filter.mp this).1
  have initObj : ∀ x, isRoot x = false → Browser.init.objects x = none := by
    intro x hx
    simp only [isRoot, Bool.or_eq_false_iff, decide_eq_false_iff_not] at hx
    simp [Browser.init, hx.1.1, hx.1.2, hx.2]
  have noObj : ∀ x, isRoot x = false → oldB page x = false → page.objects x = none := by
    intro x h1 h2
    simpa [oldB, h1] using h2
  have noKid : ∀ x, isRoot x = false → oldB page x = false → page.children x = [] := by
    intro x h1 h2
    refine List.eq_nil_iff_forall_not_mem.mpr fun y hy => ?_
    exact (hp.nodes y x ((hp.link x y).mp hy)).2 (noObj x h1 h2)
  have kidOld : ∀ q y, y ∈ page.children q → oldB page y = !isRoot y := by
    intro q y hy
    have := (hp.nodes y q ((hp.link q y).mp hy)).1
    simp [oldB, Option.isSome_iff_ne_none.mpr this]
  refine ⟨binv_init, ?_, ?_, ?_, fun _ _ => rfl, ?_, ?_, ?_, ?_, fun _ _ => rfl, fun _ _ => rfl, ?_, hp.css, hp.listeners⟩
  · intro x hx
    cases hr : isRoot x
    · exact absurd (initObj x hr) hx
    · exact oldRoot x hr
  · intro x h1 h2
    rw [noObj x h1 h2, initObj x h1]
  · intro x hx
    obtain ⟨n, a, e⟩ := hp.roots x hx
    obtain ⟨n0, e0⟩ : ∃ n0, Browser.init.objects x = some (.element n0 fun _ => none) := by
      rcases isRoot_iff.mp hx with rfl | rfl | rfl <;> exact ⟨_, rfl⟩
    exact ⟨n0, fun _ => none, n, a, a, e0, e, e, fun k => Or.inr ⟨rfl, rfl⟩⟩
  · intro x hx
    cases hr : isRoot x
    · rfl
    · rw [oldRoot x hr] at hx; cases hx
  · funext x; rw [hp.inMap]; rfl
  · intro x hx
    cases hr : isRoot x
    · have : page.parent x = none := by
        cases e : page.parent x with
        | none => rfl
        | some q => exact absurd (noObj x hr hx) (hp.nodes x q e).1
      rw [this]
      have h2 : x ≠ 2 := by rintro rfl; cases hr
      have h3 : x ≠ 3 := by rintro rfl; cases hr
      simp [Browser.init, h2, h3]
    · by_cases h1 : x = 1
      · rw [h1, hp.html]; rfl
      · rw [rootKid x hr h1]
        rcases isRoot_iff.mp hr with rfl | rfl | rfl
        · exact absurd rfl h1
        · rfl
        · rfl
  · intro x hx
    cases hr : isRoot x
    · rw [noKid x hr hx]
      have h1 : x ≠ 1 := by rintro rfl; cases hr
      simp [Browser.init, h1]
    · by_cases h1 : x = 1
      · rw [h1]
        have : (page.children 1).filter (fun y => !oldB page y) = (page.children 1).filter isRoot :=
          List.filter_congr fun y hy => by rw [kidOld 1 y hy]; simp
        rw [this, hp.order]; rfl
      · have : (page.children x).filter (fun y => !oldB page y) = [] := by
          refine List.filter_eq_nil_iff.mpr fun y hy => ?_
          rw [kidOld x y hy]
          cases hy' : isRoot y
          · simp
          · exfalso
            have hpar := (hp.link x y).mp hy
            by_cases y1 : y = 1
            · rw [y1, hp.html] at hpar; cases hpar
            · rw [rootKid y hy' y1] at hpar; cases hpar; exact h1 rfl
        rw [this]
        simp [Browser.init, h1]
  · have : [1, 2, 3].Subperm page.objs := List.Nodup.subperm (by decide) (by
      intro x hx
      rw [hp.objs]
      obtain ⟨n, a, e⟩ := hp.roots x (isRoot_iff.mpr (by simpa using hx))
      rw [e]; simp)
    exact this.length_le

theorem over_updates {page : Browser} : ∀ (batches : List (List Cmd)) {O P} {b p b' : Browser},
    Over (oldB page) page.objects O P b p → b.run batches.flatten = .ok b' → (∀ x, b'.objects x ≠ none → oldB page x = false) →
      Over (oldB page) page.objects O P b' (batches.foldl Driver.update ⟨p, true⟩).page
  | [], O, P, b, p, b', h, hs, _ => by cases hs; exact h
  | cs :: batches, O, P, b, p, b', h, hs, hnew => by
      rw [List.flatten_cons, Verif.Dom.run_append] at hs
      split at hs
      · rename_i b1 h1
        have hn1 : ∀ x, b1.objects x ≠ none → oldB page x = false := fun x hx => hnew x (objects_run hs hx)
        exact over_updates batches (h.run h1 hn1).1 hs hnew
      · cases hs

/-- **C58.** The program starts on a page that has any content, for example the one that the server has sent, and sends
batches of commands that can be executed (on an empty page). Then, for every number of batches but none:
* the nodes that the program has made have the same content, parent and children as on an empty page;
* head and body contain what they would contain on an empty page, nothing more;
* the html element has the head, the body and whatever else the program has put there in the same order as on an empty page;
* html, head and body have the attributes that the program has set, and those that they had at the beginning and that the
  program has not touched;
* the nodes that were in the head and in the body at the beginning are not there any more;
* the event listeners and the style sheet are those of the program. -/
theorem C58_replaced {page : Browser} (hp : Arrived page) (batches : List (List Cmd)) (hne : batches ≠ []) {b : Browser}
    (hb : Browser.init.run batches.flatten = .ok b)
    (hids : ∀ c ∈ batches.flatten, ∀ x, makes c = some x → ¬ Old page x) :
    let p := (batches.foldl Driver.update ⟨page, false⟩).page
    (∀ x, isRoot x = false → ¬ Old page x → p.objects x = b.objects x ∧ p.inMap x = b.inMap x ∧ p.parent x = b.parent x ∧
      p.children x = b.children x) ∧
    p.children 2 = b.children 2 ∧ p.children 3 = b.children 3 ∧
    (p.children 1).filter (fun x => isRoot x || decide (x ∉ page.objs)) = b.children 1 ∧
    (∀ x, isRoot x = true → ∃ name attr new old name', page.objects x = some (.element name old) ∧
      b.objects x = some (.element name' new) ∧ p.objects x = some (.element name attr) ∧
      ∀ k, attr k = new k ∨ (new k = none ∧ attr k = old k)) ∧
    (∀ x, x ∈ page.children 2 ∨ x ∈ page.children 3 → Old page x ∧ p.parent x = none) ∧
    p.listeners = b.listeners ∧ p.css = b.css := by
  have hnew : ∀ x, b.objects x ≠ none → oldB page x = false := by
    intro x hx
    rcases makes_run hb hx with h | ⟨c, hc, e⟩
    · exact (over_init hp).new x h
    · have := hids c hc x e
      rw [← old_iff] at this
      simpa using this
  cases batches with
  | nil => exact absurd rfl hne
  | cons cs batches =>
    rw [List.flatten_cons, Verif.Dom.run_append] at hb
    split at hb
    rotate_left
    · cases hb
    rename_i b1 h1
    have hn1 : ∀ x, b1.objects x ≠ none → oldB page x = false := fun x hx => hnew x (objects_run hb hx)
    have o0 := over_init hp
    have o1 := (o0.run h1 hn1).1
    have isOld : ∀ q x, q = 2 ∨ q = 3 → x ∈ page.children q → oldB page x = true := by
      intro q x hq hx
      have := o0.kids q (by rcases hq with rfl | rfl <;> rfl)
      have hnil : Browser.init.children q = [] := by rcases hq with rfl | rfl <;> rfl
      rw [hnil, List.filter_eq_nil_iff] at this
      simpa using this x hx
    have hO : ∀ q c, c ∈ (page.children q).filter (oldB page) → page.parent c = some q :=
      fun q c hc => (hp.link q c).mp (List.mem_filter.mp hc).1
    obtain ⟨O2, P2, o2, e2, f2⟩ := o1.clearAll (page.children 3) (fun c hc => isOld 3 c (Or.inr rfl) hc) hO
    obtain ⟨O3, P3, o3, e3, f3⟩ := o2.clearAll (page.children 2) (fun c hc => isOld 2 c (Or.inl rfl) hc) (by
      intro q c hc
      rw [e2, List.mem_filter] at hc
      rw [f2, if_neg (by simpa using hc.2)]
      exact hO q c hc.1)
    have o4 := over_updates batches o3 hb hnew
    have hfold : ((cs :: batches).foldl Driver.update ⟨page, false⟩).page =
        (batches.foldl Driver.update ⟨(page.children 2).foldl Browser.detach ((page.children 3).foldl Browser.detach (execute page cs)), true⟩).page := rfl
    rw [hfold]
    generalize (batches.foldl Driver.update _).page = p at o4
    have hkids : ∀ x, oldB page x = false → O3 x = [] → p.children x = b.children x := by
      intro x hx hO
      have h1 := o4.kids x hx
      have h2 := o4.olds x hx
      rw [hO, List.filter_eq_nil_iff] at h2
      rw [← h1]
      exact (List.filter_eq_self.mpr fun y hy => by simpa using h2 y hy).symm
    have hO3 : ∀ x, x ∈ O3 2 ∨ x ∈ O3 3 → False := by
      intro x hx
      rw [e3, e3, e2, e2] at hx
      simp only [List.mem_filter, decide_eq_true_eq] at hx
      rcases hx with hx | hx
      · exact hx.2 hx.1.1.1
      · exact hx.1.2 hx.1.1.1
    refine ⟨?_, ?_, ?_, ?_, ?_, ?_, o4.listeners, o4.css⟩
    · intro x hr ho
      have hx : oldB page x = false := by rw [← old_iff] at ho; simpa using ho
      refine ⟨o4.objects x hr hx, by rw [o4.inMap], o4.parent x hx, hkids x hx ?_⟩
      have hno : page.objects x = none := by simpa [oldB, hr] using hx
      refine List.eq_nil_iff_forall_not_mem.mpr fun y hy => ?_
      rw [e3, e2] at hy
      have hy := (List.mem_filter.mp (List.mem_filter.mp (List.mem_filter.mp hy).1).1).1
      exact (hp.nodes y x ((hp.link x y).mp hy)).2 hno
    · exact hkids 2 rfl (List.eq_nil_iff_forall_not_mem.mpr fun y hy => hO3 y (Or.inl hy))
    · exact hkids 3 rfl (List.eq_nil_iff_forall_not_mem.mpr fun y hy => hO3 y (Or.inr hy))
    · rw [← o4.kids 1 rfl]
      refine List.filter_congr fun y _ => ?_
      simp only [oldB, hp.objs]
      cases isRoot y <;> cases page.objects y <;> simp
    · intro x hx
      obtain ⟨n, a, n', a', a0, h1, h2, h3, h4⟩ := o4.roots x hx
      exact ⟨n', a', a, a0, n, h3, h1, h2, h4⟩
    · intro x hx
      have hx' : oldB page x = true := by
        rcases hx with hx | hx
        · exact isOld 2 x (Or.inl rfl) hx
        · exact isOld 3 x (Or.inr rfl) hx
      refine ⟨old_iff.mp hx', ?_⟩
      rw [o4.oldPar x hx', f3, f2]
      rcases hx with hx | hx <;> simp [hx]

section
variable {S V : Type} [DecidableEq V]

omit [DecidableEq V] in
theorem Shows.frame {b p : Browser} {ok : Id → Prop} {xs hs} (h : Shows b xs hs)
    (hok : ∀ x, ok x → p.objects x = b.objects x ∧ p.children x = b.children x)
    (hch : ∀ x, ok x → ∀ y ∈ b.children x, b.objects y ≠ none → ok y) (hxs : ∀ x ∈ xs, b.objects x ≠ none → ok x) :
    Shows p xs hs := by
  induction h with
  | nil => exact .nil
  | text e _ ih =>
    have := hok _ (hxs _ List.mem_cons_self (by rw [e]; simp))
    exact .text (by rw [this.1, e]) (ih fun x hx => hxs x (by simp [hx]))
  | comment e _ ih =>
    have := hok _ (hxs _ List.mem_cons_self (by rw [e]; simp))
    exact .comment (by rw [this.1, e]) (ih fun x hx => hxs x (by simp [hx]))
  | element e _ _ ih1 ih2 =>
    have h0 := hxs _ List.mem_cons_self (by rw [e]; simp)
    have := hok _ h0
    exact .element (by rw [this.1, e]) (by rw [this.2]; exact ih1 fun y hy hn => hch _ h0 y hy hn)
      (ih2 fun x hx => hxs x (by simp [hx]))

omit [DecidableEq V] in
/-- Below html only, there are html, head and body. -/
theorem Stays.free {all next b} (h : Stays all next b) : ∀ y, y ≠ 1 → ∀ x ∈ b.children y, isRoot x = false := by
  intro y hy x hx
  rw [h.good.inv.link] at hx
  cases hr : isRoot x with
  | false => rfl
  | true =>
    have := h.good.top x hr
    rw [hx] at this
    split at this
    · cases this
    · cases this; exact absurd rfl hy

omit [DecidableEq V] in
/-- Whatever the page shows, it shows it in the place of the page that was there. -/
theorem takeover_of {page : Browser} (hp : Arrived page) {all next b} (hs : Stays all next b) {ds} (hd : Shows b (b.children 3) ds)
    (batches : List (List Cmd)) (hb : batches.flatten = all) (hids : ∀ c ∈ batches.flatten, ∀ x, makes c = some x → ¬ Old page x) :
    let p := ((batches.map sortCommands).foldl Driver.update ⟨page, false⟩).page
    Shows p (p.children 3) ds ∧ p.children 2 = [] ∧ (p.children 1).filter isRoot = [2, 3] ∧
      ∀ x, x ∈ page.children 2 ∨ x ∈ page.children 3 → p.parent x = none := by
  have hne : batches.map sortCommands ≠ [] := by
    intro e
    rw [List.map_eq_nil_iff] at e
    rw [e] at hb
    obtain ⟨rest, e', -⟩ := hs.split
    have : all = [] := hb.symm
    rw [this] at e'
    simp [opening] at e'
  have hids' : ∀ c ∈ (batches.map sortCommands).flatten, ∀ x, makes c = some x → ¬ Old page x := by
    intro c hc
    refine hids c ?_
    simp only [List.mem_flatten, List.mem_map] at hc ⊢
    obtain ⟨_, ⟨l, hl, rfl⟩, hc⟩ := hc
    refine ⟨l, hl, ?_⟩
    rw [C21_sort_is_stable] at hc
    rcases List.mem_append.mp hc with hc | hc
    · exact (List.mem_filter.mp hc).1
    · exact (List.mem_filter.mp hc).1
  obtain ⟨h1, h2, h3, h4, h5, h6, -⟩ := C58_replaced hp _ hne (hs.batches hb) hids'
  generalize ((batches.map sortCommands).foldl Driver.update ⟨page, false⟩).page = p at h1 h2 h3 h4 h5 h6
  have hnew : ∀ x, b.objects x ≠ none → isRoot x = false → ¬ Old page x := by
    intro x hx hr
    rcases makes_run (hs.batches hb) hx with h | ⟨c, hc, e⟩
    · intro ho
      have := (over_init hp).new x h
      rw [old_iff.mpr ho] at this; cases this
    · exact hids' c hc x e
  refine ⟨?_, ?_, ?_, fun x hx => (h6 x hx).2⟩
  · rw [h3]
    refine hd.frame (ok := fun x => isRoot x = false ∧ ¬ Old page x) ?_ ?_ ?_
    · intro x hx
      have := h1 x hx.1 hx.2
      exact ⟨this.1, this.2.2.2⟩
    · intro x hx y hy hn
      have hr := hs.free x (by rintro rfl; exact absurd hx.1 (by decide)) y hy
      exact ⟨hr, hnew y hn hr⟩
    · intro x hx hn
      have hr := hs.free 3 (by decide) x hx
      exact ⟨hr, hnew x hn hr⟩
  · rw [h2]; exact hs.bare.head
  · have : ((p.children 1).filter (fun x => isRoot x || decide (x ∉ page.objs))).filter isRoot = [2, 3] := by
      rw [h4, hs.html]; rfl
    rw [List.filter_filter] at this
    rw [← this]
    exact List.filter_congr fun y _ => by cases isRoot y <;> simp

/-- **C58 for applications** (partial: `View.Ok`, as C49). Whatever the page has in its head and body when the program
starts, after the commands of the application have been executed, in sorted batches, it shows the application and
nothing else. -/
theorem C58_takeover_partial {page : Browser} (hp : Arrived page) (views : List (View S V)) (hok : ∀ v ∈ views, v.Ok)
    (order : List (Inst S V) → List (Inst S V))
    (hord : ∀ l, (order l).Perm l) (σ : S) (h : List (S × List Sub)) (hc : Complete order h (App.start σ views).1)
    (batches : List (List Cmd)) (hb : batches.flatten = (App.start σ views).2 ++ ((App.start σ views).1.history order h).2)
    (hids : ∀ c ∈ batches.flatten, ∀ x, makes c = some x → ¬ Old page x) :
    let p := ((batches.map sortCommands).foldl Driver.update ⟨page, false⟩).page
    Shows p (p.children 3) (htmls (lastState σ h) views) ∧ p.children 2 = [] ∧ (p.children 1).filter isRoot = [2, 3] ∧
      ∀ x, x ∈ page.children 2 ∨ x ∈ page.children 3 → p.parent x = none := by
  obtain ⟨b, hs⟩ := sends (fun v hv => (hok v hv).fine) hord hc
  refine takeover_of hp hs.stays ?_ batches hb hids
  have := showsAll_of _ hs.agree.holds hs.agree.fits hs.due Shows.nil
  rw [hs.agree.body]
  simpa using this

end

/-! ## An example -/

/-- The page of a server: in the head a style sheet (110 with the text 120), in the body an element (130) with a text (140), the
address of the program as an attribute of the body, and a text (100) between the head and the body. -/
def sentPage : Browser where
  objects := fun x => [(1, Content.element "html" fun _ => none), (2, .element "head" fun _ => none),
    (3, .element "body" fun k => if k = "data-env" then some "x" else none), (100, .text " "), (110, .element "style" fun _ => none),
    (120, .text ".a {}"), (130, .element "div" fun _ => none), (140, .text "loading")].lookup x
  inMap := fun _ => false
  parent := fun x => [(2, 1), (3, 1), (100, 1), (110, 2), (120, 110), (130, 3), (140, 130)].lookup x
  children := fun x => ([(1, [2, 100, 3]), (2, [110]), (110, [120]), (3, [130]), (130, [140])].lookup x).getD []
  objs := [1, 2, 3, 100, 110, 120, 130, 140]
  css := []
  listeners := []

theorem sentPage_arrived : Arrived sentPage where
  nodup := by decide
  objs := by
    intro x
    simp only [sentPage, List.mem_cons, List.not_mem_nil, or_false, List.lookup]
    repeat' (split <;> simp_all)
  roots := by
    intro x hx
    rcases isRoot_iff.mp hx with rfl | rfl | rfl <;> exact ⟨_, _, rfl⟩
  link := by
    intro p c
    simp only [sentPage, List.lookup]
    repeat' (split <;> simp_all)
    all_goals (intro e; exact absurd e.symm (by assumption))
  nodes := by
    intro c p h
    simp only [sentPage, List.lookup] at h
    repeat' (split at h <;> simp_all [sentPage, List.lookup])
    all_goals (subst h; simp)
  html := rfl
  order := by decide
  inMap := fun _ => rfl
  css := rfl
  listeners := rfl

theorem sentPage_ids {l : List Cmd} (h : (l.all fun c => (makes c).all fun x => !oldB sentPage x) = true) :
    ∀ c ∈ l, ∀ x, makes c = some x → ¬ Old sentPage x := by
  intro c hc x hx ho
  have := List.all_eq_true.mp h c hc
  rw [hx] at this
  simp [old_iff.mpr ho] at this

/-- The example of C49 on this page. -/
example : let p := ((exampleBatches.map sortCommands).foldl Driver.update ⟨sentPage, false⟩).page
    Shows p (p.children 3) (htmls 2 exampleView) ∧ p.children 2 = [] ∧ (p.children 1).filter isRoot = [2, 3] ∧
      ∀ x, x ∈ sentPage.children 2 ∨ x ∈ sentPage.children 3 → p.parent x = none :=
  C58_takeover_partial sentPage_arrived exampleView exampleView_ok List.reverse List.reverse_perm 0 exampleHistory exampleHistory_complete
    exampleBatches (by decide +kernel) (sentPage_ids (by decide +kernel))

/-- The program gives the body an attribute. -/
example : ((([[.createNode 1 "html", .createNode 2 "head", .createNode 3 "body", .setAttr 3 "class" "a", .createText 4 "hello",
    .insertBefore 3 4 none]] : List (List Cmd)).foldl Driver.update ⟨sentPage, false⟩).page.objects 3).map
      (fun | .element _ a => (a "class", a "data-env") | _ => (none, none)) = some (some "a", some "x") := by decide +kernel

/-- **The page is not always the one that an empty page would have become.** The attributes of html, head and body that are in the
page of the server stay when the application does not have them any more (here: a class that the application has for the server
only), and so do texts between the head and the body. -/
theorem C58_attributes_violated : ∃ (page : Browser) (batches : List (List Cmd)) (b : Browser), Arrived page ∧ batches ≠ [] ∧
    Browser.init.run batches.flatten = .ok b ∧ (∀ c ∈ batches.flatten, ∀ x, makes c = some x → ¬ Old page x) ∧
    (∃ attr, b.objects 3 = some (.element "body" attr) ∧ attr "data-env" = none) ∧
    (∃ attr, (batches.foldl Driver.update ⟨page, false⟩).page.objects 3 = some (.element "body" attr) ∧ attr "data-env" = some "x") ∧
    b.children 1 = [2, 3] ∧ (batches.foldl Driver.update ⟨page, false⟩).page.children 1 = [100, 2, 3] := by
  have key : ∀ c : List Cmd, c = [.createNode 1 "html", .createNode 2 "head", .insertBefore 1 2 none, .createNode 3 "body",
      .createText 4 "hello", .insertBefore 3 4 none, .insertBefore 1 3 none] → ∃ b, Browser.init.run c = .ok b ∧
        (∃ attr, b.objects 3 = some (.element "body" attr) ∧ attr "data-env" = none) ∧ b.children 1 = [2, 3] := by
    rintro c rfl
    exact ⟨_, rfl, ⟨_, rfl, rfl⟩, by decide⟩
  obtain ⟨b, h1, h2, h3⟩ := key _ rfl
  refine ⟨sentPage, [_], b, sentPage_arrived, by simp, by rw [List.flatten_singleton]; exact h1, sentPage_ids (by decide +kernel), h2, ⟨_, rfl, rfl⟩, h3, by decide +kernel⟩

end Verif.View

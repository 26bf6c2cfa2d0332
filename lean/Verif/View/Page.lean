import Verif.Dom.Batch
/-!
# Single commands on the page, in the form the proofs about views need
-/
namespace Verif.View
open Verif.Dom

/-- Nothing about the node `x` differs. -/
structure SameAt (b b' : Browser) (x : Id) : Prop where
  objects : b'.objects x = b.objects x
  inMap : b'.inMap x = b.inMap x
  children : b'.children x = b.children x
  parent : b'.parent x = b.parent x

theorem SameAt.refl (b : Browser) (x) : SameAt b b x := ⟨rfl, rfl, rfl, rfl⟩
theorem SameAt.trans {a b c : Browser} {x} (h : SameAt a b x) (h' : SameAt b c x) : SameAt a c x :=
  ⟨h'.1.trans h.1, h'.2.trans h.2, h'.3.trans h.3, h'.4.trans h.4⟩
theorem SameAt.symm {b c : Browser} {x} (h : SameAt b c x) : SameAt c b x :=
  ⟨h.1.symm, h.2.symm, h.3.symm, h.4.symm⟩

/-- The node `p` differs at most in its children. -/
structure SameBut (b b' : Browser) (p : Id) : Prop where
  objects : b'.objects p = b.objects p
  inMap : b'.inMap p = b.inMap p
  parent : b'.parent p = b.parent p

theorem SameAt.but {b b' : Browser} {x} (h : SameAt b b' x) : SameBut b b' x := ⟨h.1, h.2, h.4⟩
theorem SameBut.refl (b : Browser) (x) : SameBut b b x := ⟨rfl, rfl, rfl⟩
theorem SameBut.trans {a b c : Browser} {x} (h : SameBut a b x) (h' : SameBut b c x) : SameBut a c x :=
  ⟨h'.1.trans h.1, h'.2.trans h.2, h'.3.trans h.3⟩

/-- A page on which the ids from `n` on are not used. -/
structure Good (b : Browser) (n : Nat) : Prop where
  inv : BInv b
  four : 4 ≤ n
  fresh : ∀ x, n ≤ x → b.objects x = none
  free : ∀ x, b.inMap x = true → isRoot x = false
  top : ∀ x, isRoot x = true → b.parent x = if x = 1 then none else some 1

theorem Good.root {b n} (h : Good b n) {x} (hx : n ≤ x) : isRoot x = false := by
  cases hr : isRoot x with
  | false => rfl
  | true => have := h.four; rcases isRoot_iff.mp hr with rfl | rfl | rfl <;> omega

theorem Good.inMap {b n} (h : Good b n) {x} (hx : n ≤ x) : b.inMap x = false := by
  cases e : b.inMap x with
  | false => rfl
  | true => exact absurd (h.fresh x hx) ((h.inv.objs x).mp (h.inv.inMap x e))

theorem Good.parent {b n} (h : Good b n) {x} (hx : n ≤ x) : b.parent x = none := by
  cases e : b.parent x with
  | none => rfl
  | some p =>
    obtain ⟨h1, -⟩ := h.inv.par x p e
    rw [h.root hx, h.inMap hx] at h1; simp at h1

theorem Good.children {b n} (h : Good b n) {x} (hx : n ≤ x) : b.children x = [] := by
  cases e : b.children x with
  | nil => rfl
  | cons c cs =>
    obtain ⟨-, m, a, h1⟩ := h.inv.par c x ((h.inv.link x c).mp (by rw [e]; simp))
    rw [h.fresh x hx] at h1; cases h1

theorem Good.child_lt {b n} (h : Good b n) {p x : Nat} (hx : x ∈ b.children p) : x < n ∧ p < n := by
  constructor
  · apply Nat.lt_of_not_le; intro hn
    have := (h.inv.link p x).mp hx
    rw [h.parent hn] at this; cases this
  · apply Nat.lt_of_not_le; intro hn
    rw [h.children hn] at hx; cases hx

theorem Good.parent_lt {b n} (h : Good b n) {x p : Nat} (hx : b.parent x = some p) : x < n ∧ p < n :=
  h.child_lt ((h.inv.link p x).mpr hx)

theorem Good.lt {b n} (h : Good b n) {x : Nat} {o} (hx : b.objects x = some o) : x < n := by
  apply Nat.lt_of_not_le; intro hn
  rw [h.fresh x hn] at hx; cases hx

theorem Good.mono {b n m} (h : Good b n) (hm : n ≤ m) : Good b m :=
  ⟨h.inv, Nat.le_trans h.four hm, fun x hx => h.fresh x (Nat.le_trans hm hx), h.free, h.top⟩

/-- What the commands of views have in common, except for the removals: html, head and body are not created, moved or given attributes,
nothing is put into html or head, or before one of them, and no node is put before itself. -/
def Tidy : Cmd → Prop
  | .createNode id _ | .createText id _ | .createComment id _ | .setAttr id _ _ | .removeAttr id _ => isRoot id = false
  | .updateText _ _ => True
  | .insertBefore p c ref => (p ≠ 1 ∧ p ≠ 2) ∧ isRoot c = false ∧ ref ≠ some c ∧ ∀ r, ref = some r → isRoot r = false
  | _ => False

/-- One of these commands is executed. -/
structure Step (b : Browser) (c : Cmd) (b' : Browser) : Prop where
  tidy : Tidy c
  ok : b.step c = .ok b'

/-- Nothing is below a node that was removed. -/
def Whole (b : Browser) : Prop := ∀ x q, b.parent x = some q → isRoot q = true ∨ b.inMap q = true

/-- Commands of views are executed. Nodes are removed together with everything below them. -/
inductive Runs : Browser → List Cmd → Browser → Prop where
  | nil {b} : Runs b [] b
  | cons {b c b1 cs b2} : Step b c b1 → Runs b1 cs b2 → Runs b (c :: cs) b2
  | drop {b rs b1 cs b2} : (∀ c ∈ rs, ∃ x, Cmd.removes c = some x ∧ isRoot x = false) → b.run rs = .ok b1 → (Whole b → Whole b1) →
      Runs b1 cs b2 → Runs b (rs ++ cs) b2

theorem run_append {b : Browser} {cs ds : List Cmd} {b1 b2 : Browser} (h : Runs b cs b1) (h' : Runs b1 ds b2) : Runs b (cs ++ ds) b2 := by
  induction h with
  | nil => exact h'
  | cons hs _ ih => exact .cons hs (ih h')
  | drop h1 h2 h3 _ ih => rw [List.append_assoc]; exact .drop h1 h2 h3 (ih h')

theorem run_cons {b : Browser} {c : Cmd} {ds : List Cmd} {b1 b2 : Browser} (h : Step b c b1) (h' : Runs b1 ds b2) : Runs b (c :: ds) b2 :=
  .cons h h'

theorem run_one {b : Browser} {c : Cmd} {b1 : Browser} (h : Step b c b1) : Runs b [c] b1 := .cons h .nil

/-- The browser executes them without an error. -/
theorem Runs.run {b cs b'} (h : Runs b cs b') : b.run cs = .ok b' := by
  induction h with
  | nil => rfl
  | cons hs _ ih => rw [Browser.run, hs.ok]; exact ih
  | drop _ h2 _ _ ih => rw [Verif.Dom.run_append, h2]; exact ih

/-- A new node. -/
structure Added (b : Browser) (n : Nat) (o : Content) (b' : Browser) : Prop where
  good : Good b' (n + 1)
  same : ∀ x : Nat, x ≠ n → SameAt b b' x
  object : b'.objects n = some o
  inMap : b'.inMap n = true
  parent : b'.parent n = none
  children : b'.children n = []

theorem create_ok {b n} (h : Good b n) (o : Content) : ∃ b', (isRoot n = false ∧ b.create n o = .ok b') ∧ Added b n o b' := by
  have e : b.create n o =
      .ok { b with objects := fupd b.objects n (some o), inMap := fupd b.inMap n true, objs := n :: b.objs } := by
    rw [Browser.create, if_neg (by simp [h.root (Nat.le_refl n)]), if_neg (by simp [h.fresh n (Nat.le_refl n)])]
  refine ⟨_, ⟨h.root (Nat.le_refl n), e⟩, ⟨h.inv.create e, by have := h.four; omega, ?_, ?_, h.top⟩, ?_, by simp [fupd], by simp [fupd],
    h.parent (Nat.le_refl n), h.children (Nat.le_refl n)⟩
  · intro x hx
    have : x ≠ n := by omega
    simp [fupd, this, h.fresh x (by omega)]
  · intro x hx
    by_cases e : x = n
    · subst e; exact h.root (Nat.le_refl x)
    · exact h.free x (by simpa [fupd, e] using hx)
  · intro x hx
    exact ⟨by simp [fupd, hx], by simp [fupd, hx], rfl, rfl⟩

/-- The content of a node is replaced. -/
structure Changed (b : Browser) (id : Nat) (o : Content) (b' : Browser) : Prop where
  good : ∀ n, Good b n → Good b' n
  same : ∀ x : Nat, x ≠ id → SameAt b b' x
  object : b'.objects id = some o
  inMap : b'.inMap id = b.inMap id
  parent : b'.parent id = b.parent id
  children : b'.children id = b.children id

theorem changed {b id o o'} (ho : b.objects id = some o) (he : o'.isElement = o.isElement) :
    Changed b id o' { b with objects := fupd b.objects id (some o') } := by
  refine ⟨fun n h => ⟨h.inv.objects ho he, h.four, ?_, h.free, h.top⟩, ?_, by simp [fupd], rfl, rfl, rfl⟩
  · intro x hx
    have : x ≠ id := by rintro rfl; rw [h.fresh x hx] at ho; cases ho
    simp [fupd, this, h.fresh x hx]
  · intro x hx
    exact ⟨by simp [fupd, hx], rfl, rfl, rfl⟩

theorem get_eq {b : Browser} {id o} (h : b.objects id = some o) (hm : isRoot id = true ∨ b.inMap id = true) :
    b.get id = some o := by
  rw [Browser.get, if_pos (by simpa using hm), h]

theorem updateText_ok {b : Browser} {id v w} (ho : b.objects id = some (.text v)) (hm : b.inMap id = true) :
    ∃ b', Step b (.updateText id w) b' ∧ Changed b id (.text w) b' :=
  ⟨_, ⟨trivial, by simp only [Browser.step, get_eq ho (Or.inr hm)]⟩, changed ho rfl⟩

theorem setAttr_ok {b : Browser} {id n f name v} (ho : b.objects id = some (.element n f)) (hm : b.inMap id = true) (hr : isRoot id = false) :
    ∃ b', Step b (.setAttr id name v) b' ∧
      Changed b id (.element n fun x => if x = name then some v else f x) b' :=
  ⟨_, ⟨hr, by simp only [Browser.step, get_eq ho (Or.inr hm)]⟩, changed ho rfl⟩

theorem removeAttr_ok {b : Browser} {id n f name} (ho : b.objects id = some (.element n f)) (hm : b.inMap id = true) (hr : isRoot id = false) :
    ∃ b', Step b (.removeAttr id name) b' ∧
      Changed b id (.element n fun x => if x = name then none else f x) b' :=
  ⟨_, ⟨hr, by simp only [Browser.step, get_eq ho (Or.inr hm)]⟩, changed ho rfl⟩

/-- A node that children can be inserted into. -/
def Takes (b : Browser) (p : Id) : Prop := ∃ n f, b.objects p = some (.element n f) ∧ (isRoot p = true ∨ b.inMap p = true)

/-- The same for a node other than html and head. -/
def Usable (b : Browser) (p : Id) : Prop := Takes b p ∧ p ≠ 1 ∧ p ≠ 2

theorem Takes.same {b b' : Browser} {p} (h : Takes b p) (hs : SameBut b b' p) : Takes b' p := by
  obtain ⟨n, f, h1, h2⟩ := h
  exact ⟨n, f, by rw [hs.objects, h1], by rw [hs.inMap]; exact h2⟩

theorem Usable.same {b b' : Browser} {p} (h : Usable b p) (hs : SameBut b b' p) : Usable b' p := ⟨h.1.same hs, h.2⟩

/-- A child is inserted, or moved below the same parent. -/
structure Into (b : Browser) (p c : Nat) (l : List Id) (b' : Browser) : Prop where
  good : ∀ n, Good b n → Good b' n
  same : ∀ x : Nat, x ≠ p → x ≠ c → SameAt b b' x
  but : SameBut b b' p
  objects : b'.objects c = b.objects c
  inMap : b'.inMap c = b.inMap c
  below : b'.children c = b.children c
  parent : b'.parent c = some p
  children : b'.children p = l

theorem insert_step {b n p c o L R} (h : Good b n) (hp : Takes b p) (ho : b.objects c = some o)
    (hm : isRoot c = true ∧ b.parent c = some p ∨ b.inMap c = true)
    (hpar : b.parent c = none ∨ b.parent c = some p) (hup : ∀ l, Up b.parent p l → c ∉ l)
    (hl : (b.children p).filter (· ≠ c) = L ++ R) :
    ∃ b', b.step (.insertBefore p c R.head?) = .ok b' ∧ Into b p c (L ++ c :: R) b' := by
  obtain ⟨nm, f, hop, hmp⟩ := hp
  have hcp : c ≠ p := by
    rintro rfl
    obtain ⟨l, hl⟩ := h.inv.forest c
    exact hup l hl hl.head
  have hnd : (L ++ R).Nodup := hl ▸ (h.inv.nodup p).filter _
  have hmemR : ∀ r, R.head? = some r → r ∈ b.children p ∧ r ≠ c := by
    intro r hr
    have : r ∈ L ++ R := by
      cases R with
      | nil => cases hr
      | cons x R => simp at hr; simp [hr]
    rw [← hl] at this
    simpa using this
  have hchain : c ∉ chain b.parent b.objs.length p :=
    hup _ (h.inv.chain_eq ((h.inv.objs p).mpr (by rw [hop]; simp)))
  -- the step is an insertion that does not throw
  have hstep : ∃ b', b.step (.insertBefore p c R.head?) = .ok b' ∧ b.insertBefore p c R.head? = .ok b' := by
    simp only [Browser.step, get_eq hop hmp, get_eq ho (hm.imp_left (·.1))]
    cases hr : R.head? with
    | none => simp only [Browser.insertBefore, hop, if_neg hchain]; exact ⟨_, rfl, rfl⟩
    | some r =>
      obtain ⟨h1, h2⟩ := hmemR r hr
      have hrp := (h.inv.link p r).mp h1
      obtain ⟨h3, -⟩ := h.inv.par r p hrp
      have : b.objects r ≠ none := by
        rcases h3 with h3 | h3
        · obtain ⟨n, a, e⟩ := h.inv.roots r h3; rw [e]; simp
        · exact (h.inv.objs r).mp (h.inv.inMap r h3)
      obtain ⟨o', ho'⟩ := Option.ne_none_iff_exists'.mp this
      simp only [get_eq ho' h3, Option.isNone_some, Bool.false_eq_true, if_false, Browser.insertBefore, hop,
        if_neg hchain, hrp, ne_eq, not_true_eq_false, if_neg h2]
      exact ⟨_, rfl, rfl⟩
  obtain ⟨b', hs, hi⟩ := hstep
  have hself : R.head? ≠ some c := fun e => (hmemR c e).2 rfl
  obtain ⟨I, -, -, -⟩ := h.inv.inserted hself hi
  refine ⟨b', hs, ?_, ?_, ?_, by rw [I.objects], by rw [I.inMap], ?_, by rw [I.parent]; simp [fupd], ?_⟩
  · intro m hg
    exact ⟨hg.inv.step hs, hg.four, fun x hx => by rw [I.objects]; exact hg.fresh x hx, fun x hx => hg.free x (by rwa [I.inMap] at hx), fun x hx => by
      rw [I.parent, ← hg.top x hx]
      by_cases e : x = c
      · subst e
        rcases hm with hm | hm
        · rw [hm.2]; simp [fupd]
        · rw [hg.free x hm] at hx; cases hx
      · simp [fupd, e]⟩
  · intro x hxp hxc
    refine ⟨by rw [I.objects], by rw [I.inMap], ?_, by rw [I.parent]; simp [fupd, hxc]⟩
    rw [I.children, if_neg hxp]
    apply List.filter_eq_self.mpr
    intro y hy
    have := (h.inv.link x y).mp hy
    simp only [decide_eq_true_eq]
    rintro rfl
    rcases hpar with e | e <;> rw [e] at this <;> cases this
    exact hxp rfl
  · exact ⟨by rw [I.objects], by rw [I.inMap], by rw [I.parent]; simp [fupd, Ne.symm hcp]⟩
  · rw [I.children, if_neg hcp]
    apply List.filter_eq_self.mpr
    intro y hy
    have := (h.inv.link c y).mp hy
    simp only [decide_eq_true_eq]
    rintro rfl
    rcases hpar with e | e <;> rw [e] at this <;> cases this
    exact hcp rfl
  · rw [I.children, if_pos rfl]
    cases hr : R.head? with
    | none =>
      have : R = [] := by cases R with
        | nil => rfl
        | cons => cases hr
      subst this
      simp only [listInsert, hl, List.append_nil]
    | some r =>
      cases R with
      | nil => cases hr
      | cons x R =>
        simp at hr; subst hr
        simp only [listInsert, hl]
        apply insertBeforeIn_split
        intro hx
        have := (List.nodup_append.mp hnd).2.2 x hx x (by simp)
        exact this rfl

theorem insert_ok {b n p c o L R} (h : Good b n) (hp : Usable b p) (ho : b.objects c = some o) (hm : b.inMap c = true)
    (hpar : b.parent c = none ∨ b.parent c = some p) (hup : ∀ l, Up b.parent p l → c ∉ l)
    (hl : (b.children p).filter (· ≠ c) = L ++ R) :
    ∃ b', Step b (.insertBefore p c R.head?) b' ∧ Into b p c (L ++ c :: R) b' := by
  obtain ⟨b', h1, h2⟩ := insert_step h hp.1 ho (Or.inr hm) hpar hup hl
  have hmem : ∀ r, R.head? = some r → r ∈ b.children p ∧ r ≠ c := by
    intro r hr
    have : r ∈ L ++ R := by
      cases R with
      | nil => cases hr
      | cons x R => simp at hr; simp [hr]
    rw [← hl] at this
    simpa using this
  refine ⟨b', ⟨⟨hp.2, h.free c hm, fun e => (hmem c e).2 rfl, fun r hr => ?_⟩, h1⟩, h2⟩
  have h3 := (h.inv.link p r).mp (hmem r hr).1
  cases e : isRoot r with
  | false => rfl
  | true =>
    rw [h.top r e] at h3
    split at h3
    · cases h3
    · cases h3; exact absurd rfl hp.2.1

/-- Nodes are removed. -/
def without (b : Browser) (D : List Id) : Browser :=
  { b with
    inMap := fun x => if x ∈ D then false else b.inMap x
    parent := fun x => if x ∈ D then none else b.parent x
    children := fun p => (b.children p).filter (· ∉ D) }

theorem remove_eq {b : Browser} (h : BInv b) {x} (hm : b.inMap x = true) :
    b.remove x = .ok (without b [x]) := by
  have ho := (h.objs x).mp (h.inMap x hm)
  obtain ⟨o, ho⟩ := Option.ne_none_iff_exists'.mp ho
  rw [Browser.remove, get_eq ho (Or.inr hm)]
  simp only [Except.ok.injEq]
  have h1 : ({ b with inMap := fupd b.inMap x false } : Browser).detach x =
      { b.detach x with inMap := fupd b.inMap x false } := by
    unfold Browser.detach
    simp only
    cases b.parent x <;> rfl
  rw [h1]
  have e1 : (b.detach x).children = fun p => (b.children p).filter (· ∉ [x]) := by
    funext p; rw [h.detach_children]; simp
  have e2 : (b.detach x).parent = fun y => if y ∈ [x] then none else b.parent y := by
    rw [detach_parent]; funext y; simp [fupd]
  simp only [without]
  rw [e1, e2, detach_objects, detach_objs, detach_css, detach_listeners]
  congr 1
  funext y; simp [fupd]

theorem without_cons (b : Browser) (x D) : without (without b [x]) D = without b (x :: D) := by
  simp only [without, List.filter_filter]
  congr 1
  · funext y; by_cases h : y = x <;> simp [h]
  · funext y; by_cases h : y = x <;> simp [h]
  · funext p; congr 1; funext y; by_cases h : y = x <;> simp [h]

theorem remove_run : ∀ {cs : List Cmd} {D : List Id} {b : Browser}, BInv b →
    List.Forall₂ (fun c x => Cmd.removes c = some x) cs D → D.Nodup → (∀ x ∈ D, b.inMap x = true) →
    b.run cs = .ok (without b D) := by
  intro cs D b h hf
  induction hf generalizing b with
  | nil => intro _ _; simp [Browser.run, without]
  | @cons c x cs D hc _ ih =>
    intro hn hm
    have h1 := remove_eq h (hm x (by simp))
    have hb := h.remove h1
    rw [Browser.run, step_removes hc, h1]
    simp only
    rw [ih hb (List.nodup_cons.mp hn).2 ?_, without_cons]
    intro y hy
    have : y ≠ x := fun e => (List.nodup_cons.mp hn).1 (e ▸ hy)
    simp [without, this, hm y (List.mem_cons_of_mem _ hy)]

theorem good_without {b n D} (h : Good b n) {b'} {cs : List Cmd} (hs : b.run cs = .ok b') (hD : ∀ x ∈ D, b.inMap x = true)
    (e : b' = without b D) : Good b' n :=
  ⟨h.inv.run hs, h.four, fun x hx => by rw [e]; exact h.fresh x hx, fun x hx => h.free x (by
    rw [e] at hx; simp only [without] at hx; split at hx
    · cases hx
    · exact hx), fun x hx => by
    rw [e, ← h.top x hx]
    simp only [without]
    rw [if_neg]
    intro hxD
    rw [h.free x (hD x hxD)] at hx; cases hx⟩

theorem without_same {b : Browser} {D x} (hx : x ∉ D) (hc : ∀ y ∈ b.children x, y ∉ D) : SameAt b (without b D) x :=
  ⟨rfl, by simp [without, hx], by simpa [without] using hc, by simp [without, hx]⟩

end Verif.View

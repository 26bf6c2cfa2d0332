import Verif.View.Leak
/-!
# Views in any order: the nodes are there, wherever they stand

The proofs of C49 follow the order of the nodes, and so leave out the views whose nodes get into a wrong order. Here the order is left
out instead: for all views, every node has the right parent, and no other nodes are there.
-/
namespace Verif.View
open Verif.Dom

mutual
/-- The page has the node, below `p`, as it was last rendered; the nodes below an element stand in any order. -/
def Has (b : Browser) (p : Id) : Inst S V → Prop
  | .element id name attrs children =>
      b.inMap id = true ∧ (∃ attr, b.objects id = some (.element name attr) ∧ ((attrs.map (·.name)).Nodup → attr = attrFn attrs)) ∧
        (∀ y, y ∈ b.children id ↔ y ∈ topsAll children) ∧ HasAll b id children
  | .text id value => b.inMap id = true ∧ b.objects id = some (.text value)
  | .computedText id _ last => b.inMap id = true ∧ b.objects id = some (.text last)
  | .value id p' _ _ _ _ content =>
      p' = p ∧ b.inMap id = true ∧ (∃ s, b.objects id = some (.comment s)) ∧ HasAll b p content
  | .list id p' _ _ _ _ content =>
      p' = p ∧ b.inMap id = true ∧ (∃ s, b.objects id = some (.comment s)) ∧ HasAll b p content
  | .fragment id p' content =>
      p' = p ∧ b.inMap id = true ∧ (∃ s, b.objects id = some (.comment s)) ∧ HasAll b p content
def HasAll (b : Browser) (p : Id) : List (Inst S V) → Prop
  | [] => True
  | i :: is => Has b p i ∧ HasAll b p is
end

theorem hasAll_append {b : Browser} {p} : ∀ (is js : List (Inst S V)), HasAll b p (is ++ js) ↔ HasAll b p is ∧ HasAll b p js
  | [], _ => by simp [HasAll]
  | i :: is, js => by simp [HasAll, hasAll_append is js, and_assoc]

theorem hasAll_iff {b : Browser} {p} : ∀ (is : List (Inst S V)), HasAll b p is ↔ ∀ i ∈ is, Has b p i
  | [] => by simp [HasAll]
  | i :: is => by simp [HasAll, hasAll_iff is]

theorem mem_topsAll {is : List (Inst S V)} {y} : y ∈ topsAll is ↔ ∃ i ∈ is, y ∈ tops i := by
  induction is with
  | nil => simp [topsAll]
  | cons i is ih => simp [topsAll, ih]

theorem id_mem_tops (i : Inst S V) : i.id ∈ tops i := by cases i <;> simp [Inst.id, tops]

mutual
theorem Has.frame {b b' : Browser} : ∀ (i : Inst S V) {p}, SameOn b b' (ids i) → Has b p i → Has b' p i
  | .element id _ _ children, _, hs, h => by
      obtain ⟨h1, h2⟩ := SameOn.cons.mp hs
      obtain ⟨a, ⟨f, c, c'⟩, d, e⟩ := h
      exact ⟨by rw [h1.2.1, a], ⟨f, by rw [h1.1, c], c'⟩, by rw [h1.2.2]; exact d, HasAll.frame children h2 e⟩
  | .text id _, _, hs, h => by
      obtain ⟨h1, -⟩ := SameOn.cons.mp hs
      exact ⟨by rw [h1.2.1, h.1], by rw [h1.1, h.2]⟩
  | .computedText id _ _, _, hs, h => by
      obtain ⟨h1, -⟩ := SameOn.cons.mp hs
      exact ⟨by rw [h1.2.1, h.1], by rw [h1.1, h.2]⟩
  | .value id _ _ _ _ _ content, _, hs, h => by
      obtain ⟨h1, h2⟩ := SameOn.cons.mp hs
      obtain ⟨a, c, ⟨s, d⟩, e⟩ := h
      exact ⟨a, by rw [h1.2.1, c], ⟨s, by rw [h1.1, d]⟩, HasAll.frame content h2 e⟩
  | .list id _ _ _ _ _ content, _, hs, h => by
      obtain ⟨h1, h2⟩ := SameOn.cons.mp hs
      obtain ⟨a, c, ⟨s, d⟩, e⟩ := h
      exact ⟨a, by rw [h1.2.1, c], ⟨s, by rw [h1.1, d]⟩, HasAll.frame content h2 e⟩
  | .fragment id _ content, _, hs, h => by
      obtain ⟨h1, h2⟩ := SameOn.cons.mp hs
      obtain ⟨a, c, ⟨s, d⟩, e⟩ := h
      exact ⟨a, by rw [h1.2.1, c], ⟨s, by rw [h1.1, d]⟩, HasAll.frame content h2 e⟩
theorem HasAll.frame {b b' : Browser} : ∀ (is : List (Inst S V)) {p}, SameOn b b' (idsAll is) → HasAll b p is → HasAll b' p is
  | [], _, _, _ => trivial
  | i :: is, _, hs, h => by
      obtain ⟨h1, h2⟩ := SameOn.append.mp hs
      exact ⟨Has.frame i h1 h.1, HasAll.frame is h2 h.2⟩
end

mutual
theorem has_inMap {b : Browser} : ∀ (i : Inst S V) {p}, Has b p i → ∀ x ∈ ids i, b.inMap x = true
  | .element id _ _ children, _, h, x, hx => by
      rcases List.mem_cons.mp hx with rfl | hx
      · exact h.1
      · exact hasAll_inMap children h.2.2.2 x hx
  | .text id _, _, h, x, hx => by rw [List.mem_singleton.mp hx]; exact h.1
  | .computedText id _ _, _, h, x, hx => by rw [List.mem_singleton.mp hx]; exact h.1
  | .value id _ _ _ _ _ content, _, h, x, hx => by
      rcases List.mem_cons.mp hx with rfl | hx
      · exact h.2.1
      · exact hasAll_inMap content h.2.2.2 x hx
  | .list id _ _ _ _ _ content, _, h, x, hx => by
      rcases List.mem_cons.mp hx with rfl | hx
      · exact h.2.1
      · exact hasAll_inMap content h.2.2.2 x hx
  | .fragment id _ content, _, h, x, hx => by
      rcases List.mem_cons.mp hx with rfl | hx
      · exact h.2.1
      · exact hasAll_inMap content h.2.2.2 x hx
theorem hasAll_inMap {b : Browser} : ∀ (is : List (Inst S V)) {p}, HasAll b p is → ∀ x ∈ idsAll is, b.inMap x = true
  | [], _, _, x, hx => by cases hx
  | i :: is, _, h, x, hx => by
      rcases List.mem_append.mp hx with hx | hx
      · exact has_inMap i h.1 x hx
      · exact hasAll_inMap is h.2 x hx
end

theorem has_lt {b : Browser} {n p} {is : List (Inst S V)} (hg : Good b n) (h : HasAll b p is) {x : Nat} (hx : x ∈ idsAll is) : x < n := by
  have := hasAll_inMap is h x hx
  apply Nat.lt_of_not_le; intro hn
  rw [hg.inMap hn] at this; cases this

mutual
theorem has_children {b : Browser} : ∀ (i : Inst S V) {p}, Has b p i → ∀ x ∈ ids i, ∀ y ∈ b.children x,
    y ∈ ids i ∨ ∃ s, b.objects x = some (.comment s) ∨ b.objects x = some (.text s)
  | .element id _ _ children, _, h, x, hx, y, hy => by
      rcases List.mem_cons.mp hx with rfl | hx
      · exact Or.inl (List.mem_cons_of_mem _ (topsAll_sub children y ((h.2.2.1 y).mp hy)))
      · exact (hasAll_children children h.2.2.2 x hx y hy).imp (List.mem_cons_of_mem _) (fun h => h)
  | .text id _, _, h, x, hx, y, hy => by
      rw [List.mem_singleton.mp hx]; exact Or.inr ⟨_, Or.inr h.2⟩
  | .computedText id _ _, _, h, x, hx, y, hy => by
      rw [List.mem_singleton.mp hx]; exact Or.inr ⟨_, Or.inr h.2⟩
  | .value id _ _ _ _ _ content, _, h, x, hx, y, hy => by
      rcases List.mem_cons.mp hx with rfl | hx
      · obtain ⟨s, e⟩ := h.2.2.1; exact Or.inr ⟨s, Or.inl e⟩
      · exact (hasAll_children content h.2.2.2 x hx y hy).imp (List.mem_cons_of_mem _) (fun h => h)
  | .list id _ _ _ _ _ content, _, h, x, hx, y, hy => by
      rcases List.mem_cons.mp hx with rfl | hx
      · obtain ⟨s, e⟩ := h.2.2.1; exact Or.inr ⟨s, Or.inl e⟩
      · exact (hasAll_children content h.2.2.2 x hx y hy).imp (List.mem_cons_of_mem _) (fun h => h)
  | .fragment id _ content, _, h, x, hx, y, hy => by
      rcases List.mem_cons.mp hx with rfl | hx
      · obtain ⟨s, e⟩ := h.2.2.1; exact Or.inr ⟨s, Or.inl e⟩
      · exact (hasAll_children content h.2.2.2 x hx y hy).imp (List.mem_cons_of_mem _) (fun h => h)
theorem hasAll_children {b : Browser} : ∀ (is : List (Inst S V)) {p}, HasAll b p is → ∀ x ∈ idsAll is,
    ∀ y ∈ b.children x, y ∈ idsAll is ∨ ∃ s, b.objects x = some (.comment s) ∨ b.objects x = some (.text s)
  | [], _, _, x, hx, _, _ => by cases hx
  | i :: is, _, h, x, hx, y, hy => by
      rcases List.mem_append.mp hx with hx | hx
      · exact (has_children i h.1 x hx y hy).imp (List.mem_append_left _) (fun h => h)
      · exact (hasAll_children is h.2 x hx y hy).imp (List.mem_append_right _) (fun h => h)
end

theorem hasAll_closed {b : Browser} {n} (hg : Good b n) {is : List (Inst S V)} {p} (h : HasAll b p is) {x} (hx : x ∈ idsAll is)
    {y} (hy : y ∈ b.children x) : y ∈ idsAll is := by
  rcases hasAll_children is h x hx y hy with h1 | ⟨s, h1⟩
  · exact h1
  · obtain ⟨-, nm, f, e⟩ := hg.inv.par y x ((hg.inv.link x y).mp hy)
    rcases h1 with h1 | h1 <;> rw [e] at h1 <;> cases h1

mutual
theorem ids_stand {b : Browser} : ∀ (i : Inst S V) {p}, Has b p i → ∀ x ∈ ids i, x ∈ tops i ∨ ∃ q ∈ ids i, x ∈ b.children q
  | .element id _ _ children, _, h, x, hx => by
      rcases List.mem_cons.mp hx with rfl | hx
      · exact Or.inl (by simp [tops])
      · right
        rcases idsAll_stand children h.2.2.2 x hx with h1 | ⟨q, hq, h1⟩
        · exact ⟨id, by simp [ids], (h.2.2.1 x).mpr h1⟩
        · exact ⟨q, List.mem_cons_of_mem _ hq, h1⟩
  | .text id _, _, _, x, hx => Or.inl hx
  | .computedText id _ _, _, _, x, hx => Or.inl hx
  | .value id _ _ _ _ _ content, _, h, x, hx => by
      rcases List.mem_cons.mp hx with rfl | hx
      · exact Or.inl (by simp [tops])
      · rcases idsAll_stand content h.2.2.2 x hx with h1 | ⟨q, hq, h1⟩
        · exact Or.inl (by simp [tops, h1])
        · exact Or.inr ⟨q, List.mem_cons_of_mem _ hq, h1⟩
  | .list id _ _ _ _ _ content, _, h, x, hx => by
      rcases List.mem_cons.mp hx with rfl | hx
      · exact Or.inl (by simp [tops])
      · rcases idsAll_stand content h.2.2.2 x hx with h1 | ⟨q, hq, h1⟩
        · exact Or.inl (by simp [tops, h1])
        · exact Or.inr ⟨q, List.mem_cons_of_mem _ hq, h1⟩
  | .fragment id _ content, _, h, x, hx => by
      rcases List.mem_cons.mp hx with rfl | hx
      · exact Or.inl (by simp [tops])
      · rcases idsAll_stand content h.2.2.2 x hx with h1 | ⟨q, hq, h1⟩
        · exact Or.inl (by simp [tops, h1])
        · exact Or.inr ⟨q, List.mem_cons_of_mem _ hq, h1⟩
theorem idsAll_stand {b : Browser} : ∀ (is : List (Inst S V)) {p}, HasAll b p is → ∀ x ∈ idsAll is,
    x ∈ topsAll is ∨ ∃ q ∈ idsAll is, x ∈ b.children q
  | [], _, _, x, hx => by cases hx
  | i :: is, _, h, x, hx => by
      rcases List.mem_append.mp hx with hx | hx
      · exact (ids_stand i h.1 x hx).imp (List.mem_append_left _) fun ⟨q, hq, h1⟩ => ⟨q, List.mem_append_left _ hq, h1⟩
      · exact (idsAll_stand is h.2 x hx).imp (List.mem_append_right _) fun ⟨q, hq, h1⟩ => ⟨q, List.mem_append_right _ hq, h1⟩
end

/-- The nodes `is` are on the page, as children of `p`. -/
structure Sits (b : Browser) (p : Nat) (is : List (Inst S V)) : Prop where
  has : HasAll b p is
  tops : ∀ y ∈ topsAll is, y ∈ b.children p
  nodup : (idsAll is).Nodup
  ne : p ∉ idsAll is

/-- The nodes among them that are children of `p`. -/
theorem Sits.child {b : Browser} {n p} {is : List (Inst S V)} (h : Sits b p is) (hg : Good b n) {y} (hy : y ∈ b.children p)
    (hi : y ∈ idsAll is) : y ∈ topsAll is := by
  rcases idsAll_stand is h.has y hi with h1 | ⟨q, hq, h1⟩
  · exact h1
  · have e1 := (hg.inv.link q y).mp h1
    have e2 := (hg.inv.link p y).mp hy
    rw [e1] at e2; cases e2
    exact absurd hq h.ne

theorem Sits.perm {b : Browser} {p} {is js : List (Inst S V)} (h : Sits b p is) (hp : is.Perm js) : Sits b p js :=
  ⟨(hasAll_iff _).mpr fun i hi => (hasAll_iff _).mp h.has i (hp.mem_iff.mpr hi),
    fun y hy => by
      obtain ⟨i, hi, h1⟩ := mem_topsAll.mp hy
      exact h.tops y (mem_topsAll.mpr ⟨i, hp.mem_iff.mpr hi, h1⟩),
    (idsAll_perm hp).nodup_iff.mp h.nodup, fun hx => h.ne ((idsAll_perm hp).mem_iff.mpr hx)⟩

theorem Sits.split {b : Browser} {p} {is js : List (Inst S V)} (h : Sits b p (is ++ js)) :
    Sits b p is ∧ Sits b p js ∧ ∀ x ∈ idsAll is, x ∉ idsAll js := by
  obtain ⟨h1, h2⟩ := (hasAll_append _ _).mp h.has
  have hn := h.nodup
  have hne := h.ne
  have ht := h.tops
  simp only [idsAll_append, topsAll_append, List.mem_append] at hn hne ht
  obtain ⟨n1, n2, n3⟩ := List.nodup_append.mp hn
  exact ⟨⟨h1, fun y hy => ht y (Or.inl hy), n1, fun hx => hne (Or.inl hx)⟩,
    ⟨h2, fun y hy => ht y (Or.inr hy), n2, fun hx => hne (Or.inr hx)⟩, fun x hx hx' => n3 x hx x hx' rfl⟩

theorem Sits.append {b : Browser} {p} {is js : List (Inst S V)} (h1 : Sits b p is) (h2 : Sits b p js)
    (hd : ∀ x ∈ idsAll is, x ∉ idsAll js) : Sits b p (is ++ js) := by
  refine ⟨(hasAll_append _ _).mpr ⟨h1.has, h2.has⟩, fun y hy => ?_, ?_, ?_⟩
  · rw [topsAll_append] at hy
    exact (List.mem_append.mp hy).elim (h1.tops y) (h2.tops y)
  · rw [idsAll_append]
    exact List.nodup_append.mpr ⟨h1.nodup, h2.nodup, fun x hx y hy e => hd x hx (e ▸ hy)⟩
  · rw [idsAll_append]; simp [h1.ne, h2.ne]

/-- After some commands the nodes `is` are children of `p`, instead of the nodes in `own`. Apart from these and the children of `p`, what
was there before is unchanged. -/
structure Makes (b : Browser) (n : Nat) (p : Nat) (own : Nat → Prop) (is : List (Inst S V)) (b' : Browser) (n' : Nat) : Prop where
  good : Good b' n'
  le : n ≤ n'
  same : ∀ x : Nat, x < n → ¬ own x → x ≠ p → SameAt b b' x
  but : SameBut b b' p
  kids : ∀ y : Nat, y ∈ b'.children p ↔ y ∈ topsAll is ∨ y ∈ b.children p ∧ ¬ own y
  has : HasAll b' p is
  nodup : (idsAll is).Nodup
  ids : ∀ x : Nat, x ∈ idsAll is → own x ∨ n ≤ x
  ne : p ∉ idsAll is

theorem Makes.sits {b n p own b' n'} {is : List (Inst S V)} (h : Makes b n p own is b' n') : Sits b' p is :=
  ⟨h.has, fun y hy => (h.kids y).mpr (Or.inl hy), h.nodup, h.ne⟩

/-- Nothing happens. -/
theorem Makes.none {b : Browser} {n p : Nat} (hg : Good b n) : Makes b n p (fun _ => False) ([] : List (Inst S V)) b n :=
  ⟨hg, Nat.le_refl _, fun x _ _ _ => .refl b x, .refl b p, by simp [topsAll], trivial, by simp [idsAll], by simp [idsAll], by simp [idsAll]⟩

/-- Nodes to which nothing happens. -/
theorem Makes.self {b : Browser} {n p : Nat} {is : List (Inst S V)} (hg : Good b n) (h : Sits b p is) :
    Makes b n p (· ∈ idsAll is) is b n := by
  refine ⟨hg, Nat.le_refl _, fun x _ _ _ => .refl b x, .refl b p, fun y => ⟨fun hy => ?_, ?_⟩, h.has, h.nodup, fun x hx => Or.inl hx, h.ne⟩
  · by_cases hi : y ∈ idsAll is
    · exact Or.inl (h.child hg hy hi)
    · exact Or.inr ⟨hy, hi⟩
  · rintro (hy | hy)
    · exact h.tops y hy
    · exact hy.1

/-- Other nodes stay. -/
theorem Makes.keeps {b n p own b' n'} {is js : List (Inst S V)} (h : Makes b n p own is b' n') (hs : Sits b p js)
    (hj : ∀ x : Nat, x ∈ idsAll js → x < n ∧ ¬ own x) : Sits b' p js := by
  refine ⟨HasAll.frame js (fun x hx => ?_) hs.has, fun y hy => (h.kids y).mpr (Or.inr ⟨hs.tops y hy, (hj y (topsAll_sub js y hy)).2⟩),
    hs.nodup, hs.ne⟩
  have := h.same x (hj x hx).1 (hj x hx).2 (fun e => hs.ne (e ▸ hx))
  exact ⟨this.objects, this.inMap, this.children⟩

/-- One after the other. -/
theorem Makes.and {b n p o1 is b1 n1 o2 js b2 n2} {own : Nat → Prop} (h1 : Makes (S := S) (V := V) b n p o1 is b1 n1)
    (h2 : Makes (S := S) (V := V) b1 n1 p o2 js b2 n2) (hd : ∀ x, o1 x → ¬ o2 x) (hlt : ∀ x : Nat, o2 x → x < n)
    (ho : ∀ x, own x ↔ o1 x ∨ o2 x) : Makes b n p own (is ++ js) b2 n2 := by
  have hno : ∀ x : Nat, x ∈ idsAll is → x < n1 ∧ ¬ o2 x := fun x hx => by
    refine ⟨has_lt h1.good h1.has hx, ?_⟩
    rcases h1.ids x hx with h | h
    · exact hd x h
    · intro h'; have := hlt x h'; omega
  have hk := h2.keeps h1.sits hno
  have hdis : ∀ x ∈ idsAll is, x ∉ idsAll js := by
    intro x hx hj
    obtain ⟨hx1, hx2⟩ := hno x hx
    rcases h2.ids x hj with h | h
    · exact hx2 h
    · omega
  have hall := hk.append h2.sits hdis
  refine ⟨h2.good, Nat.le_trans h1.le h2.le, fun x hx hx' hp => ?_, h1.but.trans h2.but, fun y => ?_, hall.has, hall.nodup, ?_, hall.ne⟩
  · rw [ho, not_or] at hx'
    exact (h1.same x hx hx'.1 hp).trans (h2.same x (Nat.lt_of_lt_of_le hx h1.le) hx'.2 hp)
  · rw [h2.kids, h1.kids, topsAll_append, List.mem_append, ho]
    have := fun h => (hno y (topsAll_sub is y h)).2
    tauto
  · intro x hx
    rw [idsAll_append] at hx
    rw [ho]
    have := h1.le
    rcases List.mem_append.mp hx with hx | hx
    · rcases h1.ids x hx with h | h
      · exact Or.inl (Or.inl h)
      · exact Or.inr h
    · rcases h2.ids x hx with h | h
      · exact Or.inl (Or.inr h)
      · exact Or.inr (by omega)

theorem Makes.perm {b n p own is js b' n'} (h : Makes (S := S) (V := V) b n p own is b' n') (hp : is.Perm js) : Makes b n p own js b' n' := by
  have hs := h.sits.perm hp
  refine ⟨h.good, h.le, h.same, h.but, fun y => ?_, hs.has, hs.nodup, fun x hx => h.ids x ((idsAll_perm hp).mem_iff.mpr hx), hs.ne⟩
  rw [h.kids]
  have : y ∈ topsAll is ↔ y ∈ topsAll js := by
    simp only [mem_topsAll]
    exact ⟨fun ⟨i, hi, h1⟩ => ⟨i, hp.mem_iff.mp hi, h1⟩, fun ⟨i, hi, h1⟩ => ⟨i, hp.mem_iff.mpr hi, h1⟩⟩
  rw [this]

/-- The same with other names for the nodes that are replaced. -/
theorem Makes.of {b n p o1 is b' n'} {own : Nat → Prop} (h : Makes (S := S) (V := V) b n p o1 is b' n') (h1 : ∀ x, o1 x → own x)
    (h2 : ∀ x ∈ b.children p, own x → o1 x) : Makes b n p own is b' n' := by
  refine ⟨h.good, h.le, fun x hx hxo => h.same x hx (fun h' => hxo (h1 x h')), h.but, fun y => ?_, h.has, h.nodup,
    fun x hx => (h.ids x hx).imp (h1 x) (fun h => h), h.ne⟩
  rw [h.kids]
  have a := h1 y
  have c := h2 y
  tauto

/-- A child is inserted somewhere, or moved. -/
theorem put_ok {b : Browser} {n p c : Nat} {o} (h : Good b n) (hp : Usable b p) (ho : b.objects c = some o) (hm : b.inMap c = true)
    (hpar : b.parent c = none ∨ b.parent c = some p) (hup : ∀ l, Up b.parent p l → c ∉ l) (ref : Option Id)
    (hr : ∀ r, ref = some r → r ∈ b.children p ∧ r ≠ c) :
    ∃ b' l, Step b (.insertBefore p c ref) b' ∧ Into b p c l b' ∧ ∀ y, y ∈ l ↔ y = c ∨ y ∈ b.children p := by
  obtain ⟨L, R, hl, hR⟩ : ∃ L R, (b.children p).filter (· ≠ c) = L ++ R ∧ R.head? = ref := by
    cases ref with
    | none => exact ⟨_, [], (List.append_nil _).symm, rfl⟩
    | some r =>
      obtain ⟨h1, h2⟩ := hr r rfl
      obtain ⟨L, R, e⟩ := List.append_of_mem (show r ∈ (b.children p).filter (· ≠ c) by simp [h1, h2])
      exact ⟨L, r :: R, e, rfl⟩
  obtain ⟨b', h1, h2⟩ := insert_ok h hp ho hm hpar hup hl
  rw [hR] at h1
  refine ⟨b', _, h1, h2, fun y => ?_⟩
  have : y ∈ (b.children p).filter (· ≠ c) ↔ y ∈ L ++ R := by rw [hl]
  simp only [List.mem_append, List.mem_cons] at this ⊢
  simp only [ne_eq, decide_not, List.mem_filter, Bool.not_eq_eq_eq_not, Bool.not_true, decide_eq_false_iff_not] at this
  by_cases e : y = c
  · simp [e]
  · simp only [e, not_false_eq_true, and_true, false_or] at this ⊢
    exact this.symm

theorem put_created {b b1 b2 : Browser} {n n1 n2 p c : Nat} {o} (hg : Good b n) (hg1 : Good b1 n1)
    (hs : ∀ x : Nat, x < n → SameAt b b1 x) (hg2 : Good b2 n2)
    (hs2 : ∀ x : Nat, n ≤ x → x < n1 → SameAt b1 b2 x) (hp : Usable b2 p) (hpn : ¬ (n ≤ p ∧ p < n1)) (hc : n ≤ c)
    (ho : b1.objects c = some o) (hm : b1.inMap c = true) (hpar : b1.parent c = none) (ref : Option Id)
    (hr : ∀ r, ref = some r → r ∈ b2.children p) :
    ∃ b3 l, Step b2 (.insertBefore p c ref) b3 ∧ Into b2 p c l b3 ∧ ∀ y, y ∈ l ↔ y = c ∨ y ∈ b2.children p := by
  have hcn1 : c < n1 := hg1.lt ho
  have hsc := hs2 c hc hcn1
  have hpar2 : b2.parent c = none := by rw [hsc.parent, hpar]
  refine put_ok hg2 hp (by rw [hsc.objects, ho]) (by rw [hsc.inMap, hm]) (Or.inl hpar2) ?_ ref ?_
  · intro l hl hcl
    refine up_avoid (own := fun x => n ≤ x ∧ x < n1) ?_ hl hpn c hcl ⟨hc, hcn1⟩
    rintro y q hy ⟨hq1, hq2⟩
    have : y ∈ b1.children q := by rw [← (hs2 q hq1 hq2).children]; exact (hg2.inv.link q y).mpr hy
    exact range_closed hg hg1 hs ((hg1.inv.link q y).mp this) hq1
  · intro r e
    refine ⟨hr r e, ?_⟩
    rintro rfl
    rw [(hg2.inv.link p r).mp (hr r e)] at hpar2; cases hpar2

theorem Makes.after_insert {b2 b3 : Browser} {n p c : Nat} {l own} {is : List (Inst S V)} {b4 n4} (hi : Into b2 p c l b3)
    (hl : ∀ y, y ∈ l ↔ y = c ∨ y ∈ b2.children p) (hc : own c) (h : Makes b3 n p own is b4 n4) : Makes b2 n p own is b4 n4 := by
  refine ⟨h.good, h.le, fun x hx hxo hxp => (hi.same x hxp (by rintro rfl; exact hxo hc)).trans (h.same x hx hxo hxp),
    hi.but.trans h.but, fun y => ?_, h.has, h.nodup, h.ids, h.ne⟩
  rw [h.kids, hi.children, hl]
  by_cases e : y = c
  · subst e; simp [hc]
  · simp [e]

/-- A marker with its content. -/
theorem Makes.marker {b n b' n' o2} {p c : Nat} {own : Nat → Prop} {content : List (Inst S V)} {i : Inst S V} {s}
    (h : Makes b n p o2 content b' n') (hm : b.inMap c = true) (ho : b.objects c = some (.comment s)) (hk : c ∈ b.children p) (hcp : c ≠ p)
    (hnc : ¬ o2 c) (hg : Good b n) (hown : ∀ x, own x ↔ o2 x ∨ x = c) (ht : View.tops i = topsAll content ++ [c])
    (hi : View.ids i = c :: idsAll content)
    (hh : b'.inMap c = true → (∃ s, b'.objects c = some (.comment s)) → HasAll b' p content → Has b' p i) :
    Makes b n p own [i] b' n' := by
  have hlt : c < n := hg.lt ho
  have hs := h.same c hlt hnc hcp
  have hcn : c ∉ idsAll content := fun hx => by
    rcases h.ids c hx with h' | h'
    · exact hnc h'
    · omega
  refine ⟨h.good, h.le, fun x hx hxo hxp => h.same x hx (fun h' => hxo ((hown x).mpr (Or.inl h'))) hxp, h.but, fun y => ?_,
    ⟨hh ?_ ⟨s, ?_⟩ h.has, trivial⟩, ?_, ?_, ?_⟩
  · rw [h.kids, hown]
    simp only [topsAll, ht, List.append_nil, List.mem_append, List.mem_singleton, not_or]
    by_cases e : y = c
    · subst e; simp [hk, hnc]
    · simp [e]
  · rw [hs.inMap, hm]
  · rw [hs.objects, ho]
  · simp only [idsAll, hi, List.append_nil, List.nodup_cons]; exact ⟨hcn, h.nodup⟩
  · intro x hx
    simp only [idsAll, hi, List.append_nil, List.mem_cons] at hx
    rw [hown]
    rcases hx with rfl | hx
    · exact Or.inl (Or.inr rfl)
    · exact (h.ids x hx).imp Or.inl (fun h => h)
  · simp only [idsAll, hi, List.append_nil, List.mem_cons, not_or]
    exact ⟨fun e => hcp e.symm, h.ne⟩

/-- Nodes are dropped. -/
theorem drop_ok {b : Browser} {n p : Nat} {js : List (Inst S V)} {cs : List Cmd} {D : List Id} (hg : Good b n) (h : Sits b p js)
    (hc : List.Forall₂ (fun c x => Cmd.removes c = some x) cs D) (hD : D.Perm (idsAll js)) :
    ∃ b2, Runs b cs b2 ∧ Makes b n p (· ∈ idsAll js) ([] : List (Inst S V)) b2 n := by
  have hh := h.has
  have hp := h.ne
  have hmem : ∀ x, x ∈ D ↔ x ∈ idsAll js := fun x => hD.mem_iff
  have hrun := remove_run hg.inv hc (hD.nodup_iff.mpr h.nodup) (fun x hx => hasAll_inMap js hh x ((hmem x).mp hx))
  have hg2 := good_without hg hrun (fun x hx => hasAll_inMap js hh x ((hmem x).mp hx)) rfl
  have hpar : ∀ x ∈ idsAll js, ∀ q, b.parent x = some q → q = p ∨ q ∈ idsAll js := by
    intro x hx q hq
    rcases idsAll_stand js hh x hx with h1 | ⟨r, hr, h1⟩
    · left
      have := (hg.inv.link p x).mp (h.tops x h1)
      rw [hq] at this; exact Option.some.inj this
    · right
      have := (hg.inv.link r x).mp h1
      rw [hq] at this; rw [Option.some.inj this]; exact hr
  have hsame : ∀ x : Nat, x ∉ idsAll js → x ≠ p → SameAt b (without b D) x := by
    intro x hx hxp
    refine without_same (fun h => hx ((hmem x).mp h)) fun y hy hyD => ?_
    rcases hpar y ((hmem y).mp hyD) x ((hg.inv.link x y).mp hy) with h1 | h1
    · exact hxp h1
    · exact hx h1
  have hbut : SameBut b (without b D) p :=
    ⟨rfl, by simp [without, hmem, hp], by simp [without, hmem, hp]⟩
  have hwhole : Whole b → Whole (without b D) := by
    intro hw x q hq
    simp only [without] at hq ⊢
    split at hq
    · cases hq
    rename_i hx
    by_cases hqD : q ∈ D
    · refine absurd ((hmem x).mpr ?_) hx
      exact hasAll_closed hg hh ((hmem q).mp hqD) ((hg.inv.link q x).mpr hq)
    · rw [if_neg hqD]; exact hw x q hq
  have hruns : Runs b cs (without b D) := by
    have := Runs.drop (cs := []) (fun c hcm => ?_) hrun hwhole .nil
    · simpa using this
    · obtain ⟨x, hx, hxD⟩ := forall₂_left hc c hcm
      exact ⟨x, hx, hg.free x (hasAll_inMap js hh x ((hmem x).mp hxD))⟩
  refine ⟨_, hruns, hg2, Nat.le_refl _, fun x _ hxo hxp => hsame x hxo hxp, hbut, fun y => ?_, trivial, by simp [idsAll], by simp [idsAll],
    by simp [idsAll]⟩
  simp [without, topsAll, hmem]

section
variable [DecidableEq V]

/-- The node, created with the ids from `lo` to `hi`, can be inserted at any later time, in any place. -/
structure Pledge (lo hi : Nat) (b1 : Browser) (c : Created S V) : Prop where
  low : lo ≤ c.id
  high : (c.id : Nat) < hi
  insert : ∀ b2 n2 (p : Nat) (ref : Option Id), Good b2 n2 → hi ≤ n2 → (∀ x : Nat, lo ≤ x → x < hi → SameAt b1 b2 x) → Usable b2 p →
    ¬ (lo ≤ p ∧ p < hi) → (∀ r, ref = some r → r ∈ b2.children p) →
    ∃ b4, Runs b2 (c.insert p ref n2).2.1 b4 ∧
      Makes b2 n2 p (fun x => lo ≤ x ∧ x < hi) [(c.insert p ref n2).1] b4 (c.insert p ref n2).2.2 ∧ (c.insert p ref n2).1.id = c.id

omit [DecidableEq V] in
theorem Pledge.later {lo hi b1} {c : Created S V} (h : Pledge lo hi b1 c) {b2}
    (hs : ∀ x : Nat, lo ≤ x → x < hi → SameAt b1 b2 x) : Pledge lo hi b2 c :=
  ⟨h.low, h.high, fun b3 n3 p ref h1 h2 h3 => h.insert b3 n3 p ref h1 h2 fun x hx hx' => (hs x hx hx').trans (h3 x hx hx')⟩

/-- A view creates its node, and the node can be inserted. -/
def Works (σ : S) (v : View S V) : Prop :=
  ∀ b n, Good b n → ∃ b1, Runs b (create σ v n).2.1 b1 ∧ n ≤ (create σ v n).2.2 ∧ Good b1 (create σ v n).2.2 ∧
    (∀ x : Nat, x < n → SameAt b b1 x) ∧ Pledge n (create σ v n).2.2 b1 (create σ v n).1

/-- A node is created and inserted. -/
theorem Works.fresh {σ : S} {v : View S V} (hv : Works σ v) {b n p} {ref : Option Id} (hg : Good b n) (hp : Usable b p)
    (hr : ∀ r, ref = some r → r ∈ b.children p) :
    let c := create σ v n
    let i := c.1.insert p ref c.2.2
    ∃ b', Runs b (c.2.1 ++ i.2.1) b' ∧ Makes b n p (fun _ => False) [i.1] b' i.2.2 := by
  intro c i
  obtain ⟨b1, hr1, hle, hg1, hs, hpr⟩ := hv b n hg
  have hpn := hp.lt hg
  obtain ⟨b4, hr4, he, -⟩ := hpr.insert b1 _ p ref hg1 (Nat.le_refl _) (fun x _ _ => .refl b1 x)
    (hp.same (hs p hpn).but) (by omega) (by rw [(hs p hpn).children]; exact hr)
  refine ⟨b4, run_append hr1 hr4, ⟨he.good, Nat.le_trans hle he.le, fun x hx _ hxp => ?_, (hs p hpn).but.trans he.but,
    fun y => ?_, he.has, he.nodup, fun x hx => ?_, he.ne⟩⟩
  · exact (hs x hx).trans (he.same x (Nat.lt_of_lt_of_le hx hle) (by omega) hxp)
  · rw [he.kids, (hs p hpn).children]
    have : y ∈ b.children p → y < n := fun hy => (hg.child_lt hy).1
    constructor
    · rintro (h | h)
      · exact Or.inl h
      · exact Or.inr ⟨h.1, fun h => h⟩
    · rintro (h | h)
      · exact Or.inl h
      · exact Or.inr ⟨h.1, fun h' => by have := this h.1; omega⟩
  · right
    rcases he.ids x hx with h | h
    · exact h.1
    · exact Nat.le_trans hle h

omit [DecidableEq V] in
/-- One node with nothing below it: the result of inserting it. -/
theorem makes_leaf {b2 b3 : Browser} {n n1 n2 p c : Nat} {l} {i : Inst S V} (hg2 : Good b2 n2)
    (hi : Into b2 p c l b3) (hl : ∀ y, y ∈ l ↔ y = c ∨ y ∈ b2.children p) (hpn : ¬ (n ≤ p ∧ p < n1)) (hc : n ≤ c) (hc1 : c < n1)
    (hown : ∀ y : Nat, y ∈ b2.children p → ¬ (n ≤ y ∧ y < n1)) (ht : View.tops i = [c]) (hids : View.ids i = [c]) (hh : Has b3 p i) :
    Makes b2 n2 p (fun x => n ≤ x ∧ x < n1) [i] b3 n2 := by
  have hpc : p ≠ c := by rintro rfl; exact hpn ⟨hc, hc1⟩
  refine ⟨hi.good _ hg2, Nat.le_refl _, fun x _ hx hxp => hi.same x hxp ?_, hi.but, fun y => ?_, ⟨hh, trivial⟩, ?_, ?_, ?_⟩
  · rintro rfl; exact hx ⟨hc, hc1⟩
  · rw [hi.children, hl]
    simp only [topsAll, ht, List.append_nil, List.mem_singleton]
    have := hown y
    tauto
  · simp [idsAll, hids]
  · intro x hx; simp [idsAll, hids] at hx; subst hx; exact Or.inl ⟨hc, hc1⟩
  · simp [idsAll, hids, hpc]

omit [DecidableEq V] in
/-- What was created and not inserted is not among the children of `p`. -/
theorem outside {b b1 b2 : Browser} {n n1 n2 p : Nat} (hg : Good b n) (hg1 : Good b1 n1)
    (hs : ∀ x : Nat, x < n → SameAt b b1 x) (hg2 : Good b2 n2) (hs2 : ∀ x : Nat, n ≤ x → x < n1 → SameAt b1 b2 x)
    (hpn : ¬ (n ≤ p ∧ p < n1)) {y : Nat} (hy : y ∈ b2.children p) : ¬ (n ≤ y ∧ y < n1) := by
  rintro ⟨h1, h2⟩
  have e := (hg2.inv.link p y).mp hy
  rw [(hs2 y h1 h2).parent] at e
  by_cases hp : p < n
  · have := (hg1.inv.link p y).mpr e
    rw [(hs p hp).children] at this
    have := (hg.child_lt this).1
    omega
  · have := (hg1.parent_lt e).2
    omega

theorem works_text {σ : S} (value : String) : Works σ (.text value : View S V) := by
  intro b n hg
  obtain ⟨b1, hb, ha⟩ := create_ok hg (.text value)
  have hs1 : ∀ x : Nat, x < n → SameAt b b1 x := fun x hx => ha.same x (by omega)
  refine ⟨b1, run_one ⟨hb.1, hb.2⟩, Nat.le_succ n, ha.good, hs1, Nat.le_refl _, Nat.lt_succ_self _, ?_⟩
  intro b2 n2 p ref hg2 hn2 hs2 hp hpn hr
  obtain ⟨b3, l, hb3, hi, hl⟩ := put_created hg ha.good hs1 hg2 hs2 hp hpn (Nat.le_refl n) ha.object ha.inMap ha.parent ref hr
  have hsn := hs2 n (Nat.le_refl n) (Nat.lt_succ_self n)
  refine ⟨b3, run_one hb3, makes_leaf hg2 hi hl hpn (Nat.le_refl n) (Nat.lt_succ_self n)
    (fun y hy => outside hg ha.good hs1 hg2 hs2 hpn hy) rfl rfl ⟨?_, ?_⟩, rfl⟩
  · show b3.inMap n = true
    rw [hi.inMap, hsn.inMap, ha.inMap]
  · show b3.objects n = _
    rw [hi.objects, hsn.objects, ha.object]

theorem works_computedText {σ : S} (f : S → String) : Works σ (.computedText f : View S V) := by
  intro b n hg
  obtain ⟨b0, hb0, ha⟩ := create_ok hg (.text "")
  obtain ⟨b1, hb1, hu⟩ := updateText_ok (w := f σ) ha.object ha.inMap
  have hg1 := hu.good _ ha.good
  have hs1 : ∀ x : Nat, x < n → SameAt b b1 x := fun x hx => (ha.same x (by omega)).trans (hu.same x (by omega))
  refine ⟨b1, run_cons ⟨hb0.1, hb0.2⟩ (run_one hb1), Nat.le_succ n, hg1, hs1, Nat.le_refl _, Nat.lt_succ_self _, ?_⟩
  intro b2 n2 p ref hg2 hn2 hs2 hp hpn hr
  obtain ⟨b3, l, hb3, hi, hl⟩ := put_created hg hg1 hs1 hg2 hs2 hp hpn (Nat.le_refl n)
    hu.object (by rw [hu.inMap, ha.inMap]) (by rw [hu.parent, ha.parent]) ref hr
  have hsn := hs2 n (Nat.le_refl n) (Nat.lt_succ_self n)
  refine ⟨b3, run_one hb3, makes_leaf hg2 hi hl hpn (Nat.le_refl n) (Nat.lt_succ_self n)
    (fun y hy => outside hg hg1 hs1 hg2 hs2 hpn hy) rfl rfl ⟨?_, ?_⟩, rfl⟩
  · show b3.inMap n = true
    rw [hi.inMap, hsn.inMap, hu.inMap, ha.inMap]
  · show b3.objects n = _
    rw [hi.objects, hsn.objects, hu.object]

/-- The children of an element. -/
theorem childrenWork {σ : S} {p} : ∀ (vs : List (View S V)) {b n}, (∀ v ∈ vs, Works σ v) → Good b n → Usable b p →
    ∃ b', Runs b (createChildren σ p vs n).2.1 b' ∧
      Makes b n p (fun _ => False) (createChildren σ p vs n).1 b' (createChildren σ p vs n).2.2
  | [], b, n, _, hg, _ => ⟨b, .nil, Makes.none hg⟩
  | v :: vs, b, n, hv, hg, hp => by
      obtain ⟨b1, hr1, he1⟩ := (hv v (by simp)).fresh (ref := none) hg hp (by simp)
      obtain ⟨b2, hr2, he2⟩ := childrenWork vs (fun w hw => hv w (List.mem_cons_of_mem _ hw)) he1.good (hp.same he1.but)
      exact ⟨b2, run_append hr1 hr2, he1.and he2 (fun _ h => h.elim) (fun _ h => h.elim) (by simp)⟩

/-- The attributes of a new element, which may be given more than once. -/
theorem attrsWork {S : Type} {σ : S} {id nm} : ∀ (attrs : List (String × (S → Option String))) {b : Browser} {F},
    b.objects id = some (.element nm F) → b.inMap id = true → isRoot id = false →
    ∃ b' G, Runs b (attrs.map fun a => attrCmd id a.1 (a.2 σ)) b' ∧ Changed b id (.element nm G) b' ∧
      ((attrs.map (·.1)).Nodup → ∀ x, G x = if x ∈ attrs.map (·.1) then (attrs.find? fun a => a.1 = x).bind (fun a => a.2 σ) else F x)
  | [], b, F, ho, hm, _ => ⟨b, F, .nil, ⟨fun _ h => h, fun x _ => .refl b x, ho, rfl, rfl, rfl⟩, by simp⟩
  | a :: as, b, F, ho, hm, hr => by
      obtain ⟨b1, hb1, hc1⟩ : ∃ b1, Step b (attrCmd id a.1 (a.2 σ)) b1 ∧
          Changed b id (.element nm fun x => if x = a.1 then a.2 σ else F x) b1 := by
        cases e : a.2 σ with
        | some w => exact setAttr_ok ho hm hr
        | none => exact removeAttr_ok ho hm hr
      obtain ⟨b2, G, hb2, hc2, hG⟩ := attrsWork (σ := σ) as hc1.object (by rw [hc1.inMap, hm]) hr
      refine ⟨b2, G, run_cons hb1 hb2, ⟨fun n h => hc2.good n (hc1.good n h), fun x hx => (hc1.same x hx).trans (hc2.same x hx),
        hc2.object, by rw [hc2.inMap, hc1.inMap], by rw [hc2.parent, hc1.parent], by rw [hc2.children, hc1.children]⟩, ?_⟩
      intro hn x
      simp only [List.map_cons, List.nodup_cons] at hn
      rw [hG hn.2 x]
      by_cases h : x = a.1
      · subst h; simp [hn.1]
      · have : ¬ a.1 = x := fun e => h e.symm
        simp only [List.map_cons, List.mem_cons, h, false_or, List.find?_cons, this, decide_false, if_false]

theorem works_element {σ : S} {name : String} {attrs : List (String × (S → Option String))} {vs : List (View S V)}
    (hv : ∀ v ∈ vs, Works σ v) : Works σ (.element name attrs vs) := by
  intro b n hg
  obtain ⟨b0, hb0, ha⟩ := create_ok hg (.element name fun _ => none)
  obtain ⟨b1, G, hb1, hc1, hG⟩ := attrsWork (σ := σ) attrs ha.object ha.inMap hb0.1
  have hg1 := hc1.good _ ha.good
  have hm1 : b1.inMap n = true := by rw [hc1.inMap, ha.inMap]
  obtain ⟨b2, hb2, he⟩ := childrenWork (σ := σ) (p := n) vs hv hg1 ⟨⟨_, _, hc1.object, Or.inr hm1⟩, by have := hg.four; exact ⟨Nat.ne_of_gt (by omega), Nat.ne_of_gt (by omega)⟩⟩
  have hle := he.le
  have hs2 : ∀ x : Nat, x < n → SameAt b b2 x := fun x hx =>
    ((ha.same x (by omega)).trans (hc1.same x (by omega))).trans (he.same x (by omega) id (by omega))
  have hrun : Runs b (create σ (.element name attrs vs) n).2.1 b2 := run_cons ⟨hb0.1, hb0.2⟩ (run_append hb1 hb2)
  refine ⟨b2, hrun, by show n ≤ (createChildren σ n vs (n + 1)).2.2; omega, he.good, hs2, Nat.le_refl _,
    by show n < (createChildren σ n vs (n + 1)).2.2; omega, ?_⟩
  intro b3 n3 p ref hg3 hn3 hs3 hp hpn hr
  have hob : b2.objects n = some (.element name G) := by rw [he.but.objects, hc1.object]
  have hmb : b2.inMap n = true := by rw [he.but.inMap, hm1]
  obtain ⟨b4, l, hb4, hi, hl⟩ := put_created hg he.good hs2 hg3 hs3 hp hpn (Nat.le_refl n)
    hob hmb (by rw [he.but.parent, hc1.parent, ha.parent]) ref hr
  have hout : ∀ y : Nat, y ∈ b3.children p → ¬ (n ≤ y ∧ y < (createChildren σ n vs (n + 1)).2.2) := fun y hy => outside hg he.good hs2 hg3 hs3 hpn hy
  have hn3' : (createChildren σ n vs (n + 1)).2.2 ≤ n3 := hn3
  have hsn := hs3 n (Nat.le_refl n) (by show n < (createChildren σ n vs (n + 1)).2.2; omega)
  have hpn' : ¬ (n ≤ p ∧ p < (createChildren σ n vs (n + 1)).2.2) := hpn
  have hids : ∀ x : Nat, x ∈ idsAll (createChildren σ n vs (n + 1)).1 → n < x ∧ x < (createChildren σ n vs (n + 1)).2.2 := by
    intro x hx
    have := he.ids x hx
    simp only [false_or] at this
    exact ⟨by omega, has_lt he.good he.has hx⟩
  refine ⟨b4, run_one hb4, ?_, rfl⟩
  have hall : SameOn b2 b4 (idsAll (createChildren σ n vs (n + 1)).1) := by
    intro x hx
    obtain ⟨hx1, hx2⟩ := hids x hx
    have := (hs3 x (by omega) hx2).trans (hi.same x (by rintro rfl; exact hpn' ⟨by omega, hx2⟩) (by omega))
    exact ⟨this.objects, this.inMap, this.children⟩
  refine ⟨hi.good _ hg3, Nat.le_refl _, fun x hx hxo hxp => hi.same x hxp ?_, hi.but, fun y => ?_, ⟨⟨?_, ⟨G, ?_, ?_⟩, fun y => ?_, ?_⟩, trivial⟩, ?_, ?_, ?_⟩
  · rintro rfl; exact hxo ⟨Nat.le_refl _, by show x < (createChildren σ x vs (x + 1)).2.2; omega⟩
  · rw [hi.children, hl]
    simp only [topsAll, Created.insert, create, View.tops, List.append_nil, List.mem_singleton]
    have := hout y
    tauto
  · rw [hi.inMap, hsn.inMap, hmb]
  · rw [hi.objects, hsn.objects, hob]
  · intro hn'
    have hn : (attrs.map (·.1)).Nodup := by simpa [Function.comp_def] using hn'
    funext x
    rw [hG hn x]
    simp only [attrFn]
    clear hn hn' hb1 hG hrun hs3 hn3 hpn hb4 hi hsn hall hr hout
    induction attrs with
    | nil => rfl
    | cons a as ih =>
      simp only [List.map_cons, List.mem_cons, List.find?_cons]
      by_cases e : a.1 = x
      · simp [e]
      · simp only [e, decide_false]
        have e' : ¬ x = a.1 := fun h => e h.symm
        simp only [e', false_or]
        exact ih
  · rw [hi.below, hsn.children, he.kids, hc1.children, ha.children]; simp
  · exact HasAll.frame _ hall he.has
  · simp only [idsAll, Created.insert, create, View.ids, List.append_nil, List.nodup_cons]
    exact ⟨he.ne, he.nodup⟩
  · intro x hx
    simp only [idsAll, Created.insert, create, View.ids, List.append_nil, List.mem_cons] at hx
    left
    rcases hx with rfl | hx
    · exact ⟨Nat.le_refl _, by show x < (createChildren σ x vs (x + 1)).2.2; omega⟩
    · have := hids x hx; exact ⟨by omega, this.2⟩
  · simp only [idsAll, Created.insert, create, View.ids, List.append_nil, List.mem_cons, not_or]
    refine ⟨?_, fun hx => ?_⟩
    · rintro rfl; exact hpn' ⟨Nat.le_refl _, by omega⟩
    · have := hids p hx; exact hpn' ⟨by omega, this.2⟩

/-- A new content is inserted before a marker, the old one is dropped. -/
theorem valueWorks {σ : S} {shown : V → Bool} {render : V → View S V} (hb : ∀ v, Works σ (render v)) {b n} {p id : Nat} {v : V}
    {old : List (Inst S V)} (hg : Good b n) (hp : Usable b p) (hs : Sits b p old) (hid : id ∈ b.children p) :
    let r := onValue (fun v m => create σ (render v) m) id p shown v old n
    ∃ b', Runs b r.2.1 b' ∧ Makes b n p (· ∈ idsAll old) r.1 b' r.2.2 := by
  intro r
  obtain ⟨D, hD, hDp⟩ := dropsAll_removes old
  have hlt : ∀ x : Nat, x ∈ idsAll old → x < n := fun x hx => has_lt hg hs.has hx
  by_cases hsh : shown v = true
  · obtain ⟨b1, hr1, he1⟩ := (hb v).fresh (ref := some id) hg hp (by rintro r ⟨⟩; exact hid)
    obtain ⟨b2, hr2, he2⟩ := drop_ok he1.good (he1.keeps hs fun x hx => ⟨hlt x hx, fun h => h⟩) hD hDp
    have er : r = ([((create σ (render v) n).1.insert p (some id) (create σ (render v) n).2.2).1],
        (create σ (render v) n).2.1 ++ ((create σ (render v) n).1.insert p (some id) (create σ (render v) n).2.2).2.1 ++ dropsAll old,
        ((create σ (render v) n).1.insert p (some id) (create σ (render v) n).2.2).2.2) := by
      simp only [r, onValue, if_pos hsh]
    rw [er]
    exact ⟨b2, run_append hr1 hr2, he1.and he2 (fun _ h => h.elim) hlt (by simp)⟩
  · have er : r = ([], dropsAll old, n) := by simp only [r, onValue, if_neg hsh]
    obtain ⟨b2, hr2, he2⟩ := drop_ok hg hs hD hDp
    rw [er]
    exact ⟨b2, hr2, he2⟩

/-- Inserting a node of the old list again. -/
def Again (p : Nat) (again : Id → Inst S V → Nat → Inst S V × List Cmd × Nat) (i : Inst S V) : Prop :=
  ∀ ref b n, Good b n → Usable b p → Sits b p [i] → ref ∈ b.children p → ref ∉ ids i →
    ∃ b', Runs b (again ref i n).2.1 b' ∧ Makes b n p (· ∈ ids i) [(again ref i n).1] b' (again ref i n).2.2 ∧ (again ref i n).1.id = i.id

/-- The loop over the items between the ones kept at the start and at the end. -/
theorem placeWorks {σ : S} {key : V → V} {render : V → View S V} {p : Nat} {again : Id → Inst S V → Nat → Inst S V × List Cmd × Nat}
    (hb : ∀ v, Works σ (render v)) : ∀ (vs : List V) (cache : List (V × Inst S V)) (ref : Id) (n : Nat) {b}, Good b n → Usable b p →
    (∀ c ∈ cache, Again p again c.2) → Sits b p (nodes cache) → ref ∈ b.children p → ref ∉ idsAll (nodes cache) →
    let r := place key (createBefore σ render p) again vs cache ref n
    ∃ b', Runs b r.cmds b' ∧ Makes b n p (· ∈ idsAll (nodes cache)) (nodes r.pairs ++ nodes r.cache) b' r.next
  | [], cache, ref, n, b, hg, _, _, hs, _, _ => ⟨b, .nil, by simpa [place, nodes] using Makes.self hg hs⟩
  | v :: vs, cache, ref, n, b, hg, hp, hag, hs, hr, hrn => by
      cases e : pop key (key v) cache with
      | some q =>
        obtain ⟨i, cache'⟩ := q
        obtain ⟨A, w, B, rfl, rfl, -⟩ := pop_some e
        have hperm : (nodes (A ++ (w, i) :: B)).Perm ([i] ++ nodes (A ++ B)) := by
          simp only [nodes, List.map_append, List.map_cons]
          exact List.perm_middle
        obtain ⟨hs1, hs2, hd⟩ := (hs.perm hperm).split
        have hmem : ∀ x, x ∈ idsAll (nodes (A ++ (w, i) :: B)) ↔ x ∈ ids i ∨ x ∈ idsAll (nodes (A ++ B)) := fun x => by
          rw [(idsAll_perm hperm).mem_iff, idsAll_append]; simp [idsAll]
        rw [hmem, not_or] at hrn
        have hlt : ∀ x : Nat, x ∈ idsAll (nodes (A ++ B)) → x < n := fun x hx => has_lt hg hs2.has hx
        have hd' : ∀ x, x ∈ ids i → x ∉ idsAll (nodes (A ++ B)) := fun x hx => hd x (by simpa [idsAll] using hx)
        obtain ⟨b1, hb1, he1, hid⟩ := hag (w, i) (by simp) ref b n hg hp hs1 hr hrn.1
        simp only at hb1 he1 hid
        obtain ⟨b2, hb2, he2⟩ := placeWorks (key := key) (again := again) hb vs (A ++ B) (again ref i n).1.id (again ref i n).2.2 he1.good (hp.same he1.but)
          (fun c hc => hag c (by
            rcases List.mem_append.mp hc with hc | hc
            · simp [hc]
            · simp [hc])) (he1.keeps hs2 fun x hx => ⟨hlt x hx, fun h => hd' x h hx⟩)
          ((he1.kids _).mpr (Or.inl (by simp only [topsAll, List.append_nil]; exact id_mem_tops _)))
          (by rw [hid]; exact hd' _ (id_mem_ids i))
        have ep : place key (createBefore σ render p) again (v :: vs) (A ++ (w, i) :: B) ref n =
            let r := again ref i n
            let t := place key (createBefore σ render p) again vs (A ++ B) r.1.id r.2.2
            ⟨t.pairs ++ [(v, r.1)], t.cache, r.2.1 ++ t.cmds, t.next⟩ := by
          simp only [place, e]
        rw [ep]
        refine ⟨b2, run_append hb1 hb2, ?_⟩
        refine (he1.and (own := (· ∈ idsAll (nodes (A ++ (w, i) :: B)))) he2 hd' hlt hmem).perm ?_
        simp only [nodes, List.map_append, List.map_cons, List.map_nil]
        rw [← List.append_assoc]
        exact List.perm_append_comm.append_right _
      | none =>
        have hlt : ∀ x : Nat, x ∈ idsAll (nodes cache) → x < n := fun x hx => has_lt hg hs.has hx
        obtain ⟨b1, hb1, he1⟩ := (hb v).fresh (ref := some ref) hg hp (by rintro r ⟨⟩; exact hr)
        have hge : ∀ x : Nat, x ∈ idsAll [(createBefore σ render p ref v n).1] → n ≤ x := fun x hx => (he1.ids x hx).resolve_left fun h => h
        obtain ⟨b2, hb2, he2⟩ := placeWorks (key := key) (again := again) hb vs cache (createBefore σ render p ref v n).1.id (createBefore σ render p ref v n).2.2 he1.good
          (hp.same he1.but) hag (he1.keeps hs fun x hx => ⟨hlt x hx, fun h => h⟩)
          ((he1.kids _).mpr (Or.inl (by simp only [topsAll, List.append_nil]; exact id_mem_tops _)))
          (fun h => by
            have := hge _ (by simp only [idsAll, List.append_nil]; exact id_mem_ids _)
            exact absurd (hlt _ h) (Nat.not_lt.mpr this))
        have ep : place key (createBefore σ render p) again (v :: vs) cache ref n =
            let r := createBefore σ render p ref v n
            let t := place key (createBefore σ render p) again vs cache r.1.id r.2.2
            ⟨t.pairs ++ [(v, r.1)], t.cache, r.2.1 ++ t.cmds, t.next⟩ := by
          simp only [place, e]
        rw [ep]
        refine ⟨b2, run_append hb1 hb2, ?_⟩
        refine (he1.and (own := (· ∈ idsAll (nodes cache))) he2 (fun _ h => h.elim) hlt (by simp)).perm ?_
        simp only [nodes, List.map_append, List.map_cons, List.map_nil]
        rw [← List.append_assoc]
        exact List.perm_append_comm.append_right _

/-- The callback of a list. -/
theorem listWorks {σ : S} {key : V → V} {render : V → View S V} {p id : Nat} {again : Id → Inst S V → Nat → Inst S V × List Cmd × Nat}
    {order : List (Inst S V) → List (Inst S V)} (hb : ∀ v, Works σ (render v)) (hord : ∀ l, (order l).Perm l)
    {cur : List (V × Inst S V)} {new : List V} {n : Nat} {b} (hg : Good b n) (hp : Usable b p)
    (hag : ∀ c ∈ cur, Again p again c.2) (hs : Sits b p (nodes cur)) (hid : id ∈ b.children p) (hidn : id ∉ idsAll (nodes cur)) :
    let r := onList key (createBefore σ render p) again order id cur new n
    ∃ b', Runs b r.2.1 b' ∧ Makes b n p (· ∈ idsAll (nodes cur)) (nodes r.1) b' r.2.2 := by
  obtain ⟨e1, -⟩ := pairsTop_eq cur new
  obtain ⟨e2, -⟩ := pairsBottom_eq (pairsTop cur new).2.1 (pairsTop cur new).2.2
  simp only [onList]
  generalize pairsTop cur new = t at e1 e2 ⊢
  generalize pairsBottom t.2.1 t.2.2 = u at e2 ⊢
  generalize t.1 = T at *
  generalize u.1 = B at *
  generalize u.2.1 = C at *
  rw [e2] at e1
  subst e1
  have hperm : (nodes (T ++ (C ++ B))).Perm (nodes C ++ (nodes T ++ nodes B)) := by
    simp only [nodes, List.map_append]
    rw [← List.append_assoc, ← List.append_assoc]
    exact List.perm_append_comm.append_right _
  obtain ⟨hsC, hsTB, hd⟩ := (hs.perm hperm).split
  have hmem : ∀ x, x ∈ idsAll (nodes (T ++ (C ++ B))) ↔ x ∈ idsAll (nodes C) ∨ x ∈ idsAll (nodes T ++ nodes B) := fun x => by
    rw [(idsAll_perm hperm).mem_iff, idsAll_append, List.mem_append]
  have hltC : ∀ x : Nat, x ∈ idsAll (nodes C) → x < n := fun x hx => has_lt hg hsC.has hx
  have hltTB : ∀ x : Nat, x ∈ idsAll (nodes T ++ nodes B) → x < n := fun x hx => has_lt hg hsTB.has hx
  rw [hmem, not_or] at hidn
  generalize href : ((B.head?.map (·.2.id)).getD id) = ref
  obtain ⟨hr, hrn⟩ : ref ∈ b.children p ∧ ref ∉ idsAll (nodes C) := by
    cases B with
    | nil => simp at href; subst href; exact ⟨hid, hidn.1⟩
    | cons x B =>
      simp at href; subst href
      refine ⟨hsTB.tops _ ?_, fun h => hd _ h ?_⟩
      · simp only [topsAll_append, List.mem_append, nodes, List.map_cons, topsAll]
        exact Or.inr (Or.inl (id_mem_tops _))
      · simp only [idsAll_append, List.mem_append, nodes, List.map_cons, idsAll]
        exact Or.inr (Or.inl (id_mem_ids _))
  obtain ⟨b1, hb1, he1⟩ := placeWorks (key := key) (again := again) hb u.2.2.reverse C ref n hg hp (fun c hc => hag c (by simp [hc])) hsC hr hrn
  generalize place key (createBefore σ render p) again u.2.2.reverse C ref n = m at *
  -- the old nodes that are left
  obtain ⟨hsP, hsM, hdM⟩ := he1.sits.split
  obtain ⟨D, hD, hDp⟩ := dropsAll_removes (order (nodes m.cache))
  obtain ⟨b2, hb2, he2⟩ := drop_ok he1.good hsM hD (hDp.trans (idsAll_perm (hord _)))
  have hm1 : ∀ x : Nat, x ∈ idsAll (nodes m.pairs) → x ∈ idsAll (nodes C) ∨ n ≤ x := fun x hx => he1.ids x (by simp [idsAll_append, hx])
  have hm2 : ∀ x : Nat, x ∈ idsAll (nodes m.cache) → x ∈ idsAll (nodes C) ∨ n ≤ x := fun x hx => he1.ids x (by simp [idsAll_append, hx])
  have hltP : ∀ x : Nat, x ∈ idsAll (nodes m.pairs) → x < m.next := fun x hx => has_lt he1.good hsP.has hx
  have hall : Makes b n p (· ∈ idsAll (nodes C)) (nodes m.pairs) b2 m.next := by
    have hk := he2.keeps hsP fun x hx => ⟨hltP x hx, hdM x hx⟩
    refine ⟨he2.good, he1.le, fun x hx hxo hxp => ?_, he1.but.trans he2.but, fun y => ?_, hk.has, hk.nodup, hm1, hk.ne⟩
    · refine (he1.same x hx hxo hxp).trans (he2.same x (by have := he1.le; omega) (fun h => ?_) hxp)
      rcases hm2 x h with h | h
      · exact hxo h
      · omega
    · rw [he2.kids, he1.kids]
      simp only [topsAll, List.not_mem_nil, false_or, topsAll_append, List.mem_append]
      have a1 : y ∈ topsAll (nodes m.pairs) → y ∉ idsAll (nodes m.cache) := fun h => hdM y (topsAll_sub _ y h)
      have a2 : y ∈ topsAll (nodes m.cache) → y ∈ idsAll (nodes m.cache) := fun h => topsAll_sub _ y h
      have a3 : y ∈ b.children p → ¬ y ∈ idsAll (nodes C) → y ∉ idsAll (nodes m.cache) := fun h h' h'' => by
        rcases hm2 y h'' with h3 | h3
        · exact h' h3
        · have := (hg.child_lt h).1; omega
      tauto
  have hTB : Sits b2 p (nodes T ++ nodes B) := hall.keeps hsTB fun x hx => ⟨hltTB x hx, fun h => hd x h hx⟩
  refine ⟨b2, run_append hb1 hb2, ?_⟩
  refine (hall.and (own := (· ∈ idsAll (nodes (T ++ (C ++ B))))) (Makes.self hall.good hTB) (fun x hx => hd x hx) hltTB hmem).perm ?_
  simp only [nodes, List.map_append]
  rw [← List.append_assoc]
  exact List.perm_append_comm.append_right _

end
end Verif.View

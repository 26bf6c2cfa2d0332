import Verif.View.Inst
/-!
# C49: creating and inserting the nodes of a view
-/
namespace Verif.View
open Verif.Dom

theorem ids_lt {b : Browser} {n p} {is : List (Inst S V)} (hg : Good b n) (h : HoldsAll b p is) {x : Nat} (hx : x ∈ idsAll is) :
    x < n := by
  have := holdsAll_inMap is h x hx
  apply Nat.lt_of_not_le; intro hn
  rw [hg.inMap hn] at this; cases this

/-- After some commands the nodes `is`, made from the views `vs`, are children of `p` between `L` and `R`. Apart from
the nodes in `own` and the children of `p`, what was there before is unchanged. -/
structure Ends (b : Browser) (n : Nat) (p : Id) (own : Nat → Prop) (vs : List (View S V)) (L R : List Id)
    (is : List (Inst S V)) (b' : Browser) (n' : Nat) : Prop where
  good : Good b' n'
  le : n ≤ n'
  same : ∀ x : Nat, x < n → ¬ own x → x ≠ p → SameAt b b' x
  but : SameBut b b' p
  children : b'.children p = L ++ topsAll is ++ R
  holds : HoldsAll b' p is
  fits : FitsAll vs is
  nodup : (idsAll is).Nodup
  ids : ∀ x : Nat, x ∈ idsAll is → own x ∨ n ≤ x
  ne : p ∉ idsAll is

theorem Ends.none {b : Browser} {n p L R} (own) (hg : Good b n) (hc : b.children p = L ++ R) :
    Ends b n p own ([] : List (View S V)) L R [] b n :=
  ⟨hg, Nat.le_refl _, fun x _ _ _ => .refl b x, .refl b p, by simpa [topsAll] using hc, trivial, trivial, by simp [idsAll],
    by simp [idsAll], by simp [idsAll]⟩

/-- The nodes of one are not changed by the next. -/
theorem Ends.keeps {b n p o1 vs L1 R1 is b1 n1 o2 ws L2 R2 js b2 n2} (h1 : Ends (S := S) (V := V) b n p o1 vs L1 R1 is b1 n1)
    (h2 : Ends (S := S) (V := V) b1 n1 p o2 ws L2 R2 js b2 n2) (hd : ∀ x, o1 x → ¬ o2 x) (hlt : ∀ x : Nat, o2 x → x < n) :
    HoldsAll b2 p is ∧ ∀ x ∈ idsAll is, x ∉ idsAll js := by
  have hno : ∀ x : Nat, x ∈ idsAll is → x < n1 ∧ ¬ o2 x := fun x hx => by
    refine ⟨ids_lt h1.good h1.holds hx, ?_⟩
    rcases h1.ids x hx with h | h
    · exact hd x h
    · intro h'; have := hlt x h'; omega
  constructor
  · refine HoldsAll.frame is (fun x hx => ?_) h1.holds
    obtain ⟨hx1, hx2⟩ := hno x hx
    have := h2.same x hx1 hx2 (fun e => h1.ne (e ▸ hx))
    exact ⟨this.objects, this.inMap, this.children⟩
  · intro x hx hj
    obtain ⟨hx1, hx2⟩ := hno x hx
    rcases h2.ids x hj with h | h
    · exact hx2 h
    · omega

/-- One after the other, from left to right. -/
theorem Ends.right {b n p o1 vs L1 R1 is b1 n1 o2 ws L2 R2 js b2 n2 L R} {own : Nat → Prop}
    (h1 : Ends (S := S) (V := V) b n p o1 vs L1 R1 is b1 n1)
    (h2 : Ends (S := S) (V := V) b1 n1 p o2 ws L2 R2 js b2 n2) (hd : ∀ x, o1 x → ¬ o2 x) (hlt : ∀ x : Nat, o2 x → x < n)
    (ho : ∀ x, o1 x ∨ o2 x → own x) (hL : L2 = L ++ topsAll is) (hR : R2 = R) :
    Ends b n p own (vs ++ ws) L R (is ++ js) b2 n2 := by
  obtain ⟨hk, hn⟩ := h1.keeps h2 hd hlt
  refine ⟨h2.good, Nat.le_trans h1.le h2.le, fun x hx hx' hp => ?_, h1.but.trans h2.but, ?_,
    (holdsAll_append _ _).mpr ⟨hk, h2.holds⟩, fitsAll_append h1.fits h2.fits, ?_, ?_, ?_⟩
  · exact (h1.same x hx (fun h => hx' (ho x (Or.inl h))) hp).trans
      (h2.same x (Nat.lt_of_lt_of_le hx h1.le) (fun h => hx' (ho x (Or.inr h))) hp)
  · rw [h2.children, hL, hR, topsAll_append]; simp
  · rw [idsAll_append]
    exact List.nodup_append.mpr ⟨h1.nodup, h2.nodup, fun x hx y hy e => hn x hx (e ▸ hy)⟩
  · intro x hx
    rw [idsAll_append] at hx
    have := h1.le
    rcases List.mem_append.mp hx with hx | hx
    · rcases h1.ids x hx with h | h
      · exact Or.inl (ho x (Or.inl h))
      · exact Or.inr h
    · rcases h2.ids x hx with h | h
      · exact Or.inl (ho x (Or.inr h))
      · exact Or.inr (by omega)
  · rw [idsAll_append]; simp [h1.ne, h2.ne]

/-- One after the other, from right to left. -/
theorem Ends.left {b n p o1 vs L1 R1 is b1 n1 o2 ws L2 R2 js b2 n2 L R} {own : Nat → Prop}
    (h1 : Ends (S := S) (V := V) b n p o1 vs L1 R1 is b1 n1)
    (h2 : Ends (S := S) (V := V) b1 n1 p o2 ws L2 R2 js b2 n2) (hd : ∀ x, o1 x → ¬ o2 x) (hlt : ∀ x : Nat, o2 x → x < n)
    (ho : ∀ x, o1 x ∨ o2 x → own x) (hL : L2 = L) (hR : R2 = topsAll is ++ R) :
    Ends b n p own (ws ++ vs) L R (js ++ is) b2 n2 := by
  obtain ⟨hk, hn⟩ := h1.keeps h2 hd hlt
  refine ⟨h2.good, Nat.le_trans h1.le h2.le, fun x hx hx' hp => ?_, h1.but.trans h2.but, ?_,
    (holdsAll_append _ _).mpr ⟨h2.holds, hk⟩, fitsAll_append h2.fits h1.fits, ?_, ?_, ?_⟩
  · exact (h1.same x hx (fun h => hx' (ho x (Or.inl h))) hp).trans
      (h2.same x (Nat.lt_of_lt_of_le hx h1.le) (fun h => hx' (ho x (Or.inr h))) hp)
  · rw [h2.children, hL, hR, topsAll_append]; simp
  · rw [idsAll_append]
    exact List.nodup_append.mpr ⟨h2.nodup, h1.nodup, fun x hx y hy e => hn y hy (e ▸ hx)⟩
  · intro x hx
    rw [idsAll_append] at hx
    have := h1.le
    rcases List.mem_append.mp hx with hx | hx
    · rcases h2.ids x hx with h | h
      · exact Or.inl (ho x (Or.inr h))
      · exact Or.inr (by omega)
    · rcases h1.ids x hx with h | h
      · exact Or.inl (ho x (Or.inl h))
      · exact Or.inr h
  · rw [idsAll_append]; simp [h1.ne, h2.ne]

/-- A node and its ancestors are outside of a set that has all children of its nodes. -/
theorem up_avoid {b : Browser} {own : Nat → Prop} (hc : ∀ y q, b.parent y = some q → own q → own y) {p l}
    (h : Up b.parent p l) (hp : ¬ own p) : ∀ x ∈ l, ¬ own x := by
  induction h with
  | top _ => intro x hx; simp at hx; rwa [hx]
  | up e _ ih =>
    intro x hx
    rcases List.mem_cons.mp hx with rfl | hx
    · exact hp
    · exact ih (fun hq => hp (hc _ _ e hq)) x hx

/-- What was created is not connected with what was there before. -/
theorem range_closed {b b1 : Browser} {n n1} (hg : Good b n) (hg1 : Good b1 n1) (hs : ∀ x : Nat, x < n → SameAt b b1 x) {y q : Nat}
    (h : b1.parent y = some q) (hq : n ≤ q) : n ≤ y ∧ y < n1 := by
  refine ⟨?_, (hg1.parent_lt h).1⟩
  apply Nat.le_of_not_lt; intro hy
  rw [(hs y hy).parent] at h
  have := (hg.parent_lt h).2
  omega

section
variable [DecidableEq V]

/-- The node, created from the view `v` with the ids from `lo` to `hi`, can be inserted at any later time, in any
place. -/
structure Promise (σ : S) (v : View S V) (lo hi : Nat) (b1 : Browser) (c : Created S V) : Prop where
  low : lo ≤ c.id
  high : (c.id : Nat) < hi
  insert : ∀ b2 n2 (p : Nat) L R, Good b2 n2 → hi ≤ n2 → (∀ x : Nat, lo ≤ x → x < hi → SameAt b1 b2 x) → Usable b2 p →
    ¬ (lo ≤ p ∧ p < hi) → b2.children p = L ++ R →
    ∃ b4, Runs b2 (c.insert p R.head? n2).2.1 b4 ∧
      Ends b2 n2 p (fun x => lo ≤ x ∧ x < hi) [v] L R [(c.insert p R.head? n2).1] b4 (c.insert p R.head? n2).2.2 ∧
      due σ (c.insert p R.head? n2).1 = [] ∧ (c.insert p R.head? n2).1.id = c.id

theorem Promise.later {σ : S} {v : View S V} {lo hi b1 c} (h : Promise σ v lo hi b1 c) {b2}
    (hs : ∀ x : Nat, lo ≤ x → x < hi → SameAt b1 b2 x) : Promise σ v lo hi b2 c :=
  ⟨h.low, h.high, fun b3 n3 p L R h1 h2 h3 => h.insert b3 n3 p L R h1 h2 fun x hx hx' => (hs x hx hx').trans (h3 x hx hx')⟩

/-- A view that creates its node properly. -/
def Builds (σ : S) (v : View S V) : Prop :=
  ∀ b n, Good b n → ∃ b1, Runs b (create σ v n).2.1 b1 ∧ n ≤ (create σ v n).2.2 ∧ Good b1 (create σ v n).2.2 ∧
    (∀ x : Nat, x < n → SameAt b b1 x) ∧ Promise σ v n (create σ v n).2.2 b1 (create σ v n).1

theorem Usable.lt {b : Browser} {n} {p : Nat} (hg : Good b n) (h : Usable b p) : p < n := by
  obtain ⟨⟨_, _, h, _⟩, _⟩ := h; exact hg.lt h

/-- A node is created and inserted. -/
theorem Builds.fresh {σ : S} {v : View S V} (hv : Builds σ v) {b n p L R} (hg : Good b n) (hp : Usable b p)
    (hc : b.children p = L ++ R) :
    let c := create σ v n
    let i := c.1.insert p R.head? c.2.2
    ∃ b', Runs b (c.2.1 ++ i.2.1) b' ∧ Ends b n p (fun _ => False) [v] L R [i.1] b' i.2.2 ∧ due σ i.1 = [] := by
  intro c i
  obtain ⟨b1, hr, hle, hg1, hs, hpr⟩ := hv b n hg
  have hpn := hp.lt hg
  obtain ⟨b4, hr4, he, hd, -⟩ := hpr.insert b1 _ p L R hg1 (Nat.le_refl _) (fun x _ _ => .refl b1 x)
    (hp.same (hs p hpn).but) (by omega) (by rw [(hs p hpn).children, hc])
  refine ⟨b4, run_append hr hr4, ⟨he.good, Nat.le_trans hle he.le, fun x hx _ hxp => ?_, (hs p hpn).but.trans he.but,
    he.children, he.holds, he.fits, he.nodup, fun x hx => ?_, he.ne⟩, hd⟩
  · exact (hs x hx).trans (he.same x (Nat.lt_of_lt_of_le hx hle) (by omega) hxp)
  · right
    rcases he.ids x hx with h | h
    · exact h.1
    · exact Nat.le_trans hle h

/-- Inserting a node that has no parent: what was created is outside of the ancestors of `p`. -/
theorem insert_created {b b1 b2 : Browser} {n n1 n2 p c : Nat} {o L R} (hg : Good b n) (hg1 : Good b1 n1)
    (hs : ∀ x : Nat, x < n → SameAt b b1 x) (hg2 : Good b2 n2) (_hn2 : n1 ≤ n2)
    (hs2 : ∀ x : Nat, n ≤ x → x < n1 → SameAt b1 b2 x) (hp : Usable b2 p) (hpn : ¬ (n ≤ p ∧ p < n1)) (hc : n ≤ c)
    (ho : b1.objects c = some o) (hm : b1.inMap c = true) (hpar : b1.parent c = none) (hch : b2.children p = L ++ R) :
    ∃ b3, Step b2 (.insertBefore p c R.head?) b3 ∧ Into b2 p c (L ++ c :: R) b3 := by
  have hcn1 : c < n1 := hg1.lt ho
  have hsc := hs2 c hc hcn1
  have hpar2 : b2.parent c = none := by rw [hsc.parent, hpar]
  refine insert_ok hg2 hp (by rw [hsc.objects, ho]) (by rw [hsc.inMap, hm]) (Or.inl hpar2) ?_ ?_
  · intro l hl hcl
    refine up_avoid (own := fun x => n ≤ x ∧ x < n1) ?_ hl hpn c hcl ⟨hc, hcn1⟩
    rintro y q hy ⟨hq1, hq2⟩
    have : y ∈ b1.children q := by rw [← (hs2 q hq1 hq2).children]; exact (hg2.inv.link q y).mpr hy
    exact range_closed hg hg1 hs ((hg1.inv.link q y).mp this) hq1
  · rw [← hch]
    refine List.filter_eq_self.mpr fun x hx => ?_
    simp only [ne_eq, decide_not, Bool.not_eq_eq_eq_not, Bool.not_true, decide_eq_false_iff_not]
    rintro rfl
    rw [(hg2.inv.link p x).mp hx] at hpar2; cases hpar2

omit [DecidableEq V] in
/-- One node without subscriptions of other nodes below it: the result of inserting it. -/
theorem ends_leaf {b2 b3 : Browser} {n n1 n2 p c : Nat} {L R} {v : View S V} {i : Inst S V} (hg2 : Good b2 n2)
    (hi : Into b2 p c (L ++ c :: R) b3) (hpn : ¬ (n ≤ p ∧ p < n1)) (hc : n ≤ c) (hc1 : c < n1)
    (ht : tops i = [c]) (hids : ids i = [c]) (hh : Holds b3 p i) (hf : Fits v i) :
    Ends b2 n2 p (fun x => n ≤ x ∧ x < n1) [v] L R [i] b3 n2 := by
  have hpc : p ≠ c := by rintro rfl; exact hpn ⟨hc, hc1⟩
  refine ⟨hi.good _ hg2, Nat.le_refl _, fun x _ hx hxp => hi.same x hxp ?_, hi.but, ?_, ⟨hh, trivial⟩, ⟨hf, trivial⟩, ?_, ?_, ?_⟩
  · rintro rfl; exact hx ⟨hc, hc1⟩
  · rw [hi.children]; simp [topsAll, ht]
  · simp [idsAll, hids]
  · intro x hx; simp [idsAll, hids] at hx; subst hx; exact Or.inl ⟨hc, hc1⟩
  · simp [idsAll, hids, hpc]

theorem builds_text {σ : S} (value : String) : Builds σ (.text value : View S V) := by
  intro b n hg
  obtain ⟨b1, hb, ha⟩ := create_ok hg (.text value)
  refine ⟨b1, run_one ⟨hb.1, hb.2⟩, Nat.le_succ n, ha.good, fun x hx => ha.same x (by omega), Nat.le_refl _, Nat.lt_succ_self _, ?_⟩
  intro b2 n2 p L R hg2 hn2 hs2 hp hpn hch
  obtain ⟨b3, hb3, hi⟩ := insert_created hg ha.good (fun x hx => ha.same x (by omega)) hg2 hn2 hs2 hp hpn (Nat.le_refl n)
    ha.object ha.inMap ha.parent hch
  have hsn := hs2 n (Nat.le_refl n) (Nat.lt_succ_self n)
  refine ⟨b3, run_one hb3, ends_leaf hg2 hi hpn (Nat.le_refl n) (Nat.lt_succ_self n) rfl rfl ⟨?_, ?_⟩ rfl, rfl, rfl⟩
  · show b3.inMap n = true
    rw [hi.inMap, hsn.inMap, ha.inMap]
  · show b3.objects n = _
    rw [hi.objects, hsn.objects, ha.object]

theorem builds_computedText {σ : S} (f : S → String) : Builds σ (.computedText f : View S V) := by
  intro b n hg
  obtain ⟨b0, hb0, ha⟩ := create_ok hg (.text "")
  obtain ⟨b1, hb1, hu⟩ := updateText_ok (w := f σ) ha.object ha.inMap
  have hg1 := hu.good _ ha.good
  have hs1 : ∀ x : Nat, x < n → SameAt b b1 x := fun x hx => (ha.same x (by omega)).trans (hu.same x (by omega))
  refine ⟨b1, run_cons ⟨hb0.1, hb0.2⟩ (run_one hb1), Nat.le_succ n, hg1, hs1, Nat.le_refl _, Nat.lt_succ_self _, ?_⟩
  intro b2 n2 p L R hg2 hn2 hs2 hp hpn hch
  obtain ⟨b3, hb3, hi⟩ := insert_created hg hg1 hs1 hg2 hn2 hs2 hp hpn (Nat.le_refl n)
    hu.object (by rw [hu.inMap, ha.inMap]) (by rw [hu.parent, ha.parent]) hch
  have hsn := hs2 n (Nat.le_refl n) (Nat.lt_succ_self n)
  refine ⟨b3, run_one hb3, ends_leaf hg2 hi hpn (Nat.le_refl n) (Nat.lt_succ_self n) rfl rfl ⟨?_, ?_⟩ rfl, ?_, rfl⟩
  · show b3.inMap n = true
    rw [hi.inMap, hsn.inMap, hu.inMap, ha.inMap]
  · show b3.objects n = _
    rw [hi.objects, hsn.objects, hu.object]
  · simp [Created.insert, create, due]

/-- The children of an element. -/
theorem children_ok {σ : S} {p} : ∀ (vs : List (View S V)) {b n L}, (∀ v ∈ vs, Builds σ v) → Good b n → Usable b p →
    b.children p = L →
    ∃ b', Runs b (createChildren σ p vs n).2.1 b' ∧
      Ends b n p (fun _ => False) vs L [] (createChildren σ p vs n).1 b' (createChildren σ p vs n).2.2 ∧
      dueAll σ (createChildren σ p vs n).1 = []
  | [], b, n, L, _, hg, _, hc => ⟨b, .nil, Ends.none _ hg (by simpa using hc), rfl⟩
  | v :: vs, b, n, L, hv, hg, hp, hc => by
      obtain ⟨b1, hr1, he1, hd1⟩ := (hv v (by simp)).fresh (R := []) hg hp (by simpa using hc)
      obtain ⟨b2, hr2, he2, hd2⟩ := children_ok vs (L := L ++ topsAll [_]) (fun w hw => hv w (List.mem_cons_of_mem _ hw)) he1.good
        (hp.same he1.but) (by simpa using he1.children)
      refine ⟨b2, run_append hr1 hr2, ?_, ?_⟩
      · exact he1.right he2 (fun _ h => h.elim) (fun _ h => h.elim) (by simp) rfl rfl
      · simp only [createChildren, dueAll, List.append_eq_nil_iff]; exact ⟨hd1, hd2⟩

/-- The attributes of a new element. -/
theorem attrs_ok {S : Type} {σ : S} {id nm} : ∀ (attrs : List (String × (S → Option String))) {b : Browser} {F},
    (attrs.map (·.1)).Nodup → b.objects id = some (.element nm F) → b.inMap id = true → isRoot id = false →
    ∃ b' G, Runs b (attrs.map fun a => attrCmd id a.1 (a.2 σ)) b' ∧ Changed b id (.element nm G) b' ∧
      ∀ x, G x = if x ∈ attrs.map (·.1) then (attrs.find? fun a => a.1 = x).bind (fun a => a.2 σ) else F x
  | [], b, F, _, ho, hm, _ => ⟨b, F, .nil, ⟨fun _ h => h, fun x _ => .refl b x, ho, rfl, rfl, rfl⟩, by simp⟩
  | a :: as, b, F, hn, ho, hm, hr => by
      obtain ⟨b1, hb1, hc1⟩ : ∃ b1, Step b (attrCmd id a.1 (a.2 σ)) b1 ∧
          Changed b id (.element nm fun x => if x = a.1 then a.2 σ else F x) b1 := by
        cases e : a.2 σ with
        | some w => exact setAttr_ok ho hm hr
        | none => exact removeAttr_ok ho hm hr
      simp only [List.map_cons, List.nodup_cons] at hn
      obtain ⟨b2, G, hb2, hc2, hG⟩ := attrs_ok (σ := σ) as hn.2 hc1.object (by rw [hc1.inMap, hm]) hr
      refine ⟨b2, G, run_cons hb1 hb2, ⟨fun n h => hc2.good n (hc1.good n h), fun x hx => (hc1.same x hx).trans (hc2.same x hx),
        hc2.object, by rw [hc2.inMap, hc1.inMap], by rw [hc2.parent, hc1.parent], by rw [hc2.children, hc1.children]⟩, ?_⟩
      intro x
      rw [hG x]
      by_cases h : x = a.1
      · subst h; simp [hn.1]
      · have : ¬ a.1 = x := fun e => h e.symm
        simp only [List.map_cons, List.mem_cons, h, false_or, List.find?_cons, this, decide_false, if_false]

theorem builds_element {σ : S} {name : String} {attrs : List (String × (S → Option String))} {vs : List (View S V)}
    (hn : (attrs.map (·.1)).Nodup) (hv : ∀ v ∈ vs, Builds σ v) : Builds σ (.element name attrs vs) := by
  intro b n hg
  obtain ⟨b0, hb0, ha⟩ := create_ok hg (.element name fun _ => none)
  obtain ⟨b1, G, hb1, hc1, hG⟩ := attrs_ok (σ := σ) attrs hn ha.object ha.inMap hb0.1
  have hg1 := hc1.good _ ha.good
  have hm1 : b1.inMap n = true := by rw [hc1.inMap, ha.inMap]
  obtain ⟨b2, hb2, he, hd⟩ := children_ok (σ := σ) (p := n) vs (L := []) hv hg1 ⟨⟨_, _, hc1.object, Or.inr hm1⟩, by have := hg.four; exact ⟨Nat.ne_of_gt (by omega), Nat.ne_of_gt (by omega)⟩⟩
    (by rw [hc1.children, ha.children])
  have hle := he.le
  have hs2 : ∀ x : Nat, x < n → SameAt b b2 x := fun x hx =>
    ((ha.same x (by omega)).trans (hc1.same x (by omega))).trans (he.same x (by omega) id (by omega))
  have hrun : Runs b (create σ (.element name attrs vs) n).2.1 b2 := run_cons ⟨hb0.1, hb0.2⟩ (run_append hb1 hb2)
  refine ⟨b2, hrun, by show n ≤ (createChildren σ n vs (n + 1)).2.2; omega, he.good, hs2, Nat.le_refl _,
    by show n < (createChildren σ n vs (n + 1)).2.2; omega, ?_⟩
  intro b3 n3 p L R hg3 hn3 hs3 hp hpn hch
  have hob : b2.objects n = some (.element name G) := by rw [he.but.objects, hc1.object]
  have hmb : b2.inMap n = true := by rw [he.but.inMap, hm1]
  obtain ⟨b4, hb4, hi⟩ := insert_created hg he.good hs2 hg3 hn3 hs3 hp hpn (Nat.le_refl n)
    hob hmb (by rw [he.but.parent, hc1.parent, ha.parent]) hch
  have hn3' : (createChildren σ n vs (n + 1)).2.2 ≤ n3 := hn3
  have hsn := hs3 n (Nat.le_refl n) (by show n < (createChildren σ n vs (n + 1)).2.2; omega)
  have hpn' : ¬ (n ≤ p ∧ p < (createChildren σ n vs (n + 1)).2.2) := hpn
  have hids : ∀ x : Nat, x ∈ idsAll (createChildren σ n vs (n + 1)).1 → n < x ∧ x < (createChildren σ n vs (n + 1)).2.2 := by
    intro x hx
    have := he.ids x hx
    simp only [false_or] at this
    exact ⟨by omega, ids_lt he.good he.holds hx⟩
  refine ⟨b4, run_one hb4, ?_, ?_, rfl⟩
  · have hall : SameOn b2 b4 (idsAll (createChildren σ n vs (n + 1)).1) := by
      intro x hx
      obtain ⟨hx1, hx2⟩ := hids x hx
      have := (hs3 x (by omega) hx2).trans (hi.same x (by rintro rfl; exact hpn' ⟨by omega, hx2⟩) (by omega))
      exact ⟨this.objects, this.inMap, this.children⟩
    refine ⟨hi.good _ hg3, Nat.le_refl _, fun x hx hxo hxp => hi.same x hxp ?_, hi.but, ?_, ⟨⟨?_, ?_, ?_, ?_⟩, trivial⟩, ⟨⟨rfl, ?_, he.fits⟩, trivial⟩, ?_, ?_, ?_⟩
    · rintro rfl; exact hxo ⟨Nat.le_refl _, by show x < (createChildren σ x vs (x + 1)).2.2; omega⟩
    · rw [hi.children]; simp [topsAll, Created.insert, create, tops]
    · rw [hi.inMap, hsn.inMap, hmb]
    · rw [hi.objects, hsn.objects, hob]
      congr 2
      funext x
      rw [hG x]
      simp only [attrFn]
      clear hn hb1 hG hrun hs3 hn3 hpn hb4 hi hsn hall hch
      induction attrs with
      | nil => rfl
      | cons a as ih =>
        simp only [List.map_cons, List.mem_cons, List.find?_cons]
        by_cases e : a.1 = x
        · simp [e]
        · simp only [e, decide_false]
          have e' : ¬ x = a.1 := fun h => e h.symm
          simp only [e', false_or]
          exact ih
    · rw [hi.below, hsn.children, he.children]; simp
    · exact HoldsAll.frame _ hall he.holds
    · simp [Function.comp_def]
    · simp only [idsAll, Created.insert, create, View.ids, List.append_nil, List.nodup_cons]
      exact ⟨he.ne, he.nodup⟩
    · intro x hx
      simp only [idsAll, Created.insert, create, View.ids, List.append_nil, List.mem_cons] at hx
      left
      rcases hx with rfl | hx
      · exact ⟨Nat.le_refl _, by show x < (createChildren σ x vs (x + 1)).2.2; omega⟩
      · have := hids x hx; exact ⟨by omega, this.2⟩
    · simp only [idsAll, Created.insert, create, View.ids, List.append_nil, List.mem_cons, not_or]
      refine ⟨?_, fun hx => ?_⟩
      · rintro rfl; exact hpn' ⟨Nat.le_refl _, by omega⟩
      · have := hids p hx; exact hpn' ⟨by omega, this.2⟩
  · simp only [Created.insert, create, due, List.append_eq_nil_iff]
    exact ⟨by simp; rintro _ _ _ _ rfl; rfl, hd⟩

end
end Verif.View

import Verif.View.Build
import Mathlib.Tactic.Tauto
/-!
# C49: markers, their content, and dropping
-/
namespace Verif.View
open Verif.Dom

theorem fits_plain {v : View S V} {i : Inst S V} (h : Fits v i) (hp : v.plain = true) : tops i = [i.id] := by
  cases v with
  | element => cases i <;> first | rfl | exact h.elim
  | text => cases i <;> first | rfl | exact h.elim
  | computedText => cases i <;> first | rfl | exact h.elim
  | value => simp [View.plain] at hp
  | list => simp [View.plain] at hp
  | fragment => simp [View.plain] at hp

/-- A node is not above its parent. -/
theorem child_not_up {b : Browser} {p c l} (h : b.parent c = some p) (hl : Up b.parent p l) : c ∉ l := by
  intro hc
  obtain ⟨x, y, rfl, hy⟩ := hl.suffix hc
  have := hy.unique (.up h hl)
  have := congrArg List.length this
  simp at this
  omega

mutual
theorem drops_removes : ∀ (i : Inst S V), ∃ D, List.Forall₂ (fun c x => Cmd.removes c = some x) (drops i) D ∧ D.Perm (ids i)
  | .element id _ _ children => by
      obtain ⟨D, h, hp⟩ := dropsAll_removes children
      exact ⟨id :: D, .cons rfl h, hp.cons _⟩
  | .text id _ => ⟨[id], .cons rfl .nil, .refl _⟩
  | .computedText id _ _ => ⟨[id], .cons rfl .nil, .refl _⟩
  | .value id _ _ _ _ _ content => by
      obtain ⟨D, h, hp⟩ := dropsAll_removes content
      exact ⟨id :: D, .cons rfl h, hp.cons _⟩
  | .list id _ _ _ _ _ content => by
      obtain ⟨D, h, hp⟩ := dropsAll_removes content
      exact ⟨id :: D, .cons rfl h, hp.cons _⟩
  | .fragment id _ content => by
      obtain ⟨D, h, hp⟩ := dropsRev_removes content
      exact ⟨id :: D, .cons rfl h, hp.cons _⟩
theorem dropsAll_removes : ∀ (is : List (Inst S V)),
    ∃ D, List.Forall₂ (fun c x => Cmd.removes c = some x) (dropsAll is) D ∧ D.Perm (idsAll is)
  | [] => ⟨[], .nil, .refl _⟩
  | i :: is => by
      obtain ⟨D, h, hp⟩ := drops_removes i
      obtain ⟨E, h', hp'⟩ := dropsAll_removes is
      exact ⟨D ++ E, List.rel_append h h', hp.append hp'⟩
theorem dropsRev_removes : ∀ (is : List (Inst S V)),
    ∃ D, List.Forall₂ (fun c x => Cmd.removes c = some x) (dropsRev is) D ∧ D.Perm (idsAll is)
  | [] => ⟨[], .nil, .refl _⟩
  | i :: is => by
      obtain ⟨D, h, hp⟩ := drops_removes i
      obtain ⟨E, h', hp'⟩ := dropsRev_removes is
      exact ⟨E ++ D, List.rel_append h' h, List.perm_append_comm.trans (hp.append hp')⟩
end

theorem idsAll_perm {is js : List (Inst S V)} (h : is.Perm js) : (idsAll is).Perm (idsAll js) := by
  induction h with
  | nil => exact .refl _
  | cons x _ ih => exact List.Perm.append_left _ ih
  | swap x y l =>
    simp only [idsAll, ← List.append_assoc]
    exact List.Perm.append_right _ List.perm_append_comm
  | trans _ _ ih ih' => exact ih.trans ih'

mutual
theorem ids_tops {b : Browser} : ∀ (i : Inst S V) {p}, Holds b p i → ∀ x ∈ ids i, x ∈ tops i ∨ ∃ q ∈ ids i, x ∈ b.children q
  | .element id _ _ children, _, h, x, hx => by
      rcases List.mem_cons.mp hx with rfl | hx
      · exact Or.inl (by simp [tops])
      · right
        rcases idsAll_tops children h.2.2.2 x hx with h1 | ⟨q, hq, h1⟩
        · exact ⟨id, by simp [ids], by rw [h.2.2.1]; exact h1⟩
        · exact ⟨q, List.mem_cons_of_mem _ hq, h1⟩
  | .text id _, _, _, x, hx => Or.inl hx
  | .computedText id _ _, _, _, x, hx => Or.inl hx
  | .value id _ _ _ _ _ content, _, h, x, hx => by
      rcases List.mem_cons.mp hx with rfl | hx
      · exact Or.inl (by simp [tops])
      · rcases idsAll_tops content h.2.2.2 x hx with h1 | ⟨q, hq, h1⟩
        · exact Or.inl (by simp [tops, h1])
        · exact Or.inr ⟨q, List.mem_cons_of_mem _ hq, h1⟩
  | .list id _ _ _ _ _ content, _, h, x, hx => by
      rcases List.mem_cons.mp hx with rfl | hx
      · exact Or.inl (by simp [tops])
      · rcases idsAll_tops content h.2.2.2 x hx with h1 | ⟨q, hq, h1⟩
        · exact Or.inl (by simp [tops, h1])
        · exact Or.inr ⟨q, List.mem_cons_of_mem _ hq, h1⟩
  | .fragment id _ content, _, h, x, hx => by
      rcases List.mem_cons.mp hx with rfl | hx
      · exact Or.inl (by simp [tops])
      · rcases idsAll_tops content h.2.2.2 x hx with h1 | ⟨q, hq, h1⟩
        · exact Or.inl (by simp [tops, h1])
        · exact Or.inr ⟨q, List.mem_cons_of_mem _ hq, h1⟩
theorem idsAll_tops {b : Browser} : ∀ (is : List (Inst S V)) {p}, HoldsAll b p is → ∀ x ∈ idsAll is,
    x ∈ topsAll is ∨ ∃ q ∈ idsAll is, x ∈ b.children q
  | [], _, _, x, hx => by cases hx
  | i :: is, _, h, x, hx => by
      rcases List.mem_append.mp hx with hx | hx
      · exact (ids_tops i h.1 x hx).imp (List.mem_append_left _) fun ⟨q, hq, h1⟩ => ⟨q, List.mem_append_left _ hq, h1⟩
      · exact (idsAll_tops is h.2 x hx).imp (List.mem_append_right _) fun ⟨q, hq, h1⟩ => ⟨q, List.mem_append_right _ hq, h1⟩
end

theorem forall₂_left {R : α → β → Prop} {l m} (h : List.Forall₂ R l m) : ∀ a ∈ l, ∃ x, R a x ∧ x ∈ m := by
  induction h with
  | nil => intro a ha; cases ha
  | cons h1 _ ih =>
    intro a ha
    rcases List.mem_cons.mp ha with rfl | ha
    · exact ⟨_, h1, by simp⟩
    · obtain ⟨x, h2, h3⟩ := ih a ha; exact ⟨x, h2, List.mem_cons_of_mem _ h3⟩

/-- Some children of `p` are dropped. -/
theorem Ends.drop {b n own R b1 n1} {p : Nat} {vs : List (View S V)} {is js : List (Inst S V)} {L0 L1 : List Id} {cs : List Cmd} {D : List Id}
    (h : Ends b n p own vs (L0 ++ topsAll js ++ L1) R is b1 n1) (hh : HoldsAll b1 p js) (hn : (idsAll js).Nodup)
    (hd : ∀ x ∈ idsAll is, x ∉ idsAll js) (ho : ∀ x ∈ idsAll js, own x) (hp : p ∉ idsAll js)
    (hc : List.Forall₂ (fun c x => Cmd.removes c = some x) cs D) (hD : D.Perm (idsAll js)) :
    ∃ b2, Runs b1 cs b2 ∧ Ends b n p own vs (L0 ++ L1) R is b2 n1 := by
  have hmem : ∀ x, x ∈ D ↔ x ∈ idsAll js := fun x => hD.mem_iff
  have hrun := remove_run h.good.inv hc (hD.nodup_iff.mpr hn) (fun x hx => holdsAll_inMap js hh x ((hmem x).mp hx))
  have hg2 := good_without h.good hrun (fun x hx => holdsAll_inMap js hh x ((hmem x).mp hx)) rfl
  have hpar : ∀ x ∈ idsAll js, ∀ q, b1.parent x = some q → q = p ∧ x ∈ topsAll js ∨ q ∈ idsAll js := by
    intro x hx q hq
    rcases idsAll_tops js hh x hx with h1 | ⟨r, hr, h1⟩
    · left
      have : x ∈ b1.children p := by rw [h.children]; simp [h1]
      have := (h.good.inv.link p x).mp this
      rw [hq] at this; exact ⟨Option.some.inj this, h1⟩
    · right
      have := (h.good.inv.link r x).mp h1
      rw [hq] at this; rw [Option.some.inj this]; exact hr
  have hsame : ∀ x : Nat, x ∉ idsAll js → x ≠ p → SameAt b1 (without b1 D) x := by
    intro x hx hxp
    refine without_same (fun h => hx ((hmem x).mp h)) fun y hy hyD => ?_
    rcases hpar y ((hmem y).mp hyD) x ((h.good.inv.link x y).mp hy) with h1 | h1
    · exact hxp h1.1
    · exact hx h1
  have hbut : SameBut b1 (without b1 D) p :=
    ⟨rfl, by simp [without, hmem, hp], by simp [without, hmem, hp]⟩
  have hwhole : Whole b1 → Whole (without b1 D) := by
    intro hw x q hq
    simp only [without] at hq ⊢
    split at hq
    · cases hq
    rename_i hx
    by_cases hqD : q ∈ D
    · refine absurd ((hmem x).mpr ?_) hx
      exact holdsAll_closed h.good hh ((hmem q).mp hqD) ((h.good.inv.link q x).mpr hq)
    · rw [if_neg hqD]; exact hw x q hq
  have hruns : Runs b1 cs (without b1 D) := by
    have := Runs.drop (cs := []) (fun c hcm => ?_) hrun hwhole .nil
    · simpa using this
    · obtain ⟨x, hx, hxD⟩ := forall₂_left hc c hcm
      exact ⟨x, hx, h.good.free x (holdsAll_inMap js hh x ((hmem x).mp hxD))⟩
  refine ⟨_, hruns, hg2, h.le, fun x hx hxo hxp => (h.same x hx hxo hxp).trans (hsame x (fun hj => hxo (ho x hj)) hxp),
    h.but.trans hbut, ?_, ?_, h.fits, h.nodup, h.ids, h.ne⟩
  · have hnd := h.good.inv.nodup p
    have hkeep : ∀ x ∈ b1.children p, x ∉ topsAll js → x ∉ D := by
      intro x hx hxt hxD
      rcases hpar x ((hmem x).mp hxD) p ((h.good.inv.link p x).mp hx) with h1 | h1
      · exact hxt h1.2
      · exact hp h1
    rw [h.children] at hnd hkeep
    simp only [without, h.children]
    have e1 : L0.filter (· ∉ D) = L0 := List.filter_eq_self.mpr fun x hx => by
      refine decide_eq_true (hkeep x (by simp [hx]) fun hj => ?_)
      simp only [List.nodup_append, List.mem_append, List.append_assoc] at hnd
      exact hnd.2.2 x hx x (by simp [hj]) rfl
    have e2 : (topsAll js).filter (· ∉ D) = [] := List.filter_eq_nil_iff.mpr fun x hx => by
      simp [hmem, topsAll_sub js x hx]
    have e3 : (L1 ++ topsAll is ++ R).filter (· ∉ D) = L1 ++ topsAll is ++ R := List.filter_eq_self.mpr fun x hx => by
      refine decide_eq_true (hkeep x (by simp only [List.mem_append] at hx ⊢; tauto) fun hj => ?_)
      simp only [List.append_assoc] at hnd hx
      have := (List.nodup_append.mp hnd).2.1
      exact (List.nodup_append.mp this).2.2 x hj x hx rfl
    have : L0 ++ topsAll js ++ L1 ++ topsAll is ++ R = L0 ++ (topsAll js ++ (L1 ++ topsAll is ++ R)) := by simp
    rw [this, List.filter_append, List.filter_append, e1, e2, e3]
    simp
  · refine HoldsAll.frame is (fun x hx => ?_) h.holds
    have := hsame x (hd x hx) (fun e => h.ne (e ▸ hx))
    exact ⟨this.objects, this.inMap, this.children⟩

/-- Nodes to which nothing happens. -/
theorem Ends.self {b n L R} {p : Nat} {vs : List (View S V)} {is : List (Inst S V)} (hg : Good b n) (hh : HoldsAll b p is) (hf : FitsAll vs is)
    (hn : (idsAll is).Nodup) (hp : p ∉ idsAll is) (hc : b.children p = L ++ topsAll is ++ R) :
    Ends b n p (· ∈ idsAll is) vs L R is b n :=
  ⟨hg, Nat.le_refl _, fun x _ _ _ => .refl b x, .refl b p, hc, hh, hf, hn, fun _ hx => Or.inl hx, hp⟩

theorem Ends.after_insert {b2 b3 : Browser} {n p c : Nat} {l L R own} {vs : List (View S V)} {is b4 n4} (hi : Into b2 p c l b3) (hc : own c)
    (h : Ends b3 n p own vs L R is b4 n4) : Ends b2 n p own vs L R is b4 n4 :=
  ⟨h.good, h.le, fun x hx hxo hxp => (hi.same x hxp (by rintro rfl; exact hxo hc)).trans (h.same x hx hxo hxp),
    hi.but.trans h.but, h.children, h.holds, h.fits, h.nodup, h.ids, h.ne⟩

/-- A marker with its content. -/
theorem Ends.marker {b n b' n' L R o2} {p c : Nat} {own : Nat → Prop} {vs : List (View S V)} {content : List (Inst S V)} {v : View S V}
    {i : Inst S V} {s} (h : Ends b n p o2 vs L (c :: R) content b' n') (hm : b.inMap c = true)
    (ho : b.objects c = some (.comment s)) (hlt : c < n) (hcp : c ≠ p) (hc : own c) (hnc : ¬ o2 c) (hsub : ∀ x, o2 x → own x)
    (ht : tops i = topsAll content ++ [c]) (hi : View.ids i = c :: idsAll content)
    (hh : b'.inMap c = true → (∃ s, b'.objects c = some (.comment s)) → HoldsAll b' p content → Holds b' p i)
    (hf : FitsAll vs content → Fits v i) : Ends b n p own [v] L R [i] b' n' := by
  have hs := h.same c hlt hnc hcp
  have hcn : c ∉ idsAll content := fun hx => by
    rcases h.ids c hx with h' | h'
    · exact hnc h'
    · omega
  refine ⟨h.good, h.le, fun x hx hxo hxp => h.same x hx (fun h' => hxo (hsub x h')) hxp, h.but, ?_, ⟨hh ?_ ⟨s, ?_⟩ h.holds, trivial⟩,
    ⟨hf h.fits, trivial⟩, ?_, ?_, ?_⟩
  · rw [h.children]; simp [topsAll, ht]
  · rw [hs.inMap, hm]
  · rw [hs.objects, ho]
  · simp only [idsAll, hi, List.append_nil, List.nodup_cons]; exact ⟨hcn, h.nodup⟩
  · intro x hx
    simp only [idsAll, hi, List.append_nil, List.mem_cons] at hx
    rcases hx with rfl | hx
    · exact Or.inl hc
    · exact (h.ids x hx).imp (hsub x) (fun h => h)
  · simp only [idsAll, hi, List.append_nil, List.mem_cons, not_or]
    exact ⟨fun e => hcp e.symm, h.ne⟩

section
variable [DecidableEq V]

theorem dueAll_append {σ : S} : ∀ (is js : List (Inst S V)), dueAll σ (is ++ js) = dueAll σ is ++ dueAll σ js
  | [], _ => rfl
  | i :: is, js => by simp [dueAll, dueAll_append is js]

/-- A new content is inserted before a marker, the old one is dropped. -/
theorem value_ok {σ : S} {shown : V → Bool} {render : V → View S V} (hb : ∀ v, Builds σ (render v)) {b n L R} {p id : Nat} {v : V}
    {old : List (Inst S V)} (hg : Good b n) (hp : Usable b p) (hh : HoldsAll b p old) (hn : (idsAll old).Nodup)
    (hpo : p ∉ idsAll old) (hc : b.children p = L ++ topsAll old ++ id :: R) :
    let r := onValue (fun v m => create σ (render v) m) id p shown v old n
    ∃ b', Runs b r.2.1 b' ∧
      Ends b n p (· ∈ idsAll old) (if shown v then [render v] else []) L (id :: R) r.1 b' r.2.2 ∧ dueAll σ r.1 = [] := by
  intro r
  obtain ⟨D, hD, hDp⟩ := dropsAll_removes old
  by_cases hs : shown v = true
  · obtain ⟨b1, hr1, he1, hd1⟩ := (hb v).fresh (L := L ++ topsAll old) (R := id :: R) hg hp hc
    have hold : ∀ x : Nat, x ∈ idsAll old → x < n ∧ x ≠ p := fun x hx => ⟨ids_lt hg hh hx, fun e => hpo (e ▸ hx)⟩
    have hh1 : HoldsAll b1 p old := HoldsAll.frame old (fun x hx => by
      have := he1.same x (hold x hx).1 (fun h => h) (hold x hx).2
      exact ⟨this.objects, this.inMap, this.children⟩) hh
    have he1' : Ends b n p (· ∈ idsAll old) [render v] (L ++ topsAll old ++ []) (id :: R) [_] b1 _ :=
      ⟨he1.good, he1.le, fun x hx _ hxp => he1.same x hx (fun h => h) hxp, he1.but, by simpa using he1.children, he1.holds, he1.fits,
        he1.nodup, fun x hx => Or.inr ((he1.ids x hx).resolve_left fun h => h), he1.ne⟩
    obtain ⟨b2, hr2, he2⟩ := he1'.drop hh1 hn (fun x hx hx' => by
      have := (he1.ids x hx).resolve_left fun h => h
      have := (hold x hx').1
      omega) (fun x hx => hx) hpo hD hDp
    have er : r = ([((create σ (render v) n).1.insert p (some id) (create σ (render v) n).2.2).1],
        (create σ (render v) n).2.1 ++ ((create σ (render v) n).1.insert p (some id) (create σ (render v) n).2.2).2.1 ++ dropsAll old,
        ((create σ (render v) n).1.insert p (some id) (create σ (render v) n).2.2).2.2) := by
      simp only [r, onValue, if_pos hs]
    rw [er]
    refine ⟨b2, run_append hr1 hr2, ?_, by simp only [dueAll, List.append_nil]; exact hd1⟩
    simp only [hs, if_true]
    simpa using he2
  · have er : r = ([], dropsAll old, n) := by simp only [r, onValue, if_neg hs]
    have he : Ends b n p (· ∈ idsAll old) ([] : List (View S V)) (L ++ topsAll old ++ []) (id :: R) [] b n :=
      Ends.none _ hg (by simpa using hc)
    obtain ⟨b2, hr2, he2⟩ := he.drop hh hn (by simp [idsAll]) (fun x hx => hx) hpo hD hDp
    rw [er]
    refine ⟨b2, hr2, ?_, rfl⟩
    simp only [hs]
    simpa using he2

theorem pop_some {key : V → V} {k : V} : ∀ {cache : List (V × Inst S V)} {i cache'}, pop key k cache = some (i, cache') →
    ∃ A w B, cache = A ++ (w, i) :: B ∧ cache' = A ++ B ∧ key w = k
  | (v, j) :: cache, i, cache', h => by
      unfold pop at h
      by_cases e : key v = k
      · simp only [e, if_true, Option.some.injEq, Prod.mk.injEq] at h
        obtain ⟨rfl, rfl⟩ := h
        exact ⟨[], v, cache, rfl, rfl, e⟩
      · simp only [e, if_false] at h
        split at h
        · cases h
        · rename_i j' c' hp
          simp only [Option.some.injEq, Prod.mk.injEq] at h
          obtain ⟨rfl, rfl⟩ := h
          obtain ⟨A, w, B, rfl, rfl, hk⟩ := pop_some hp
          exact ⟨(v, j) :: A, w, B, rfl, rfl, hk⟩

omit [DecidableEq V] in
theorem fitsAll_split {vs ws : List (View S V)} : ∀ {is : List (Inst S V)} {js}, vs.length = is.length → FitsAll (vs ++ ws) (is ++ js) →
    FitsAll vs is ∧ FitsAll ws js := by
  induction vs with
  | nil => intro is js hl h; cases is with
    | nil => exact ⟨trivial, h⟩
    | cons => simp at hl
  | cons v vs ih => intro is js hl h; cases is with
    | nil => simp at hl
    | cons i is =>
      have := ih (by simpa using hl) h.2
      exact ⟨⟨h.1, this.1⟩, this.2⟩

/-- The nodes of some pairs. -/
abbrev nodes (ps : List (V × Inst S V)) : List (Inst S V) := ps.map (·.2)

/-- The loop over the items between the ones kept at the start and at the end. -/
theorem place_ok {σ : S} {key : V → V} {render : V → View S V} {p : Nat} {again : Id → Inst S V → Nat → Inst S V × List Cmd × Nat}
    (hb : ∀ v, Builds σ (render v)) (hpl : ∀ v, (render v).plain = true) (hk : ∀ v w, key v = key w → render v = render w) :
    ∀ (vs : List V) (cache : List (V × Inst S V)) (ref : Id) (n : Nat) {b L R}, Good b n → Usable b p →
    (∀ c ∈ cache, ∀ ref n, again ref c.2 n = (c.2, [.insertBefore p c.2.id (some ref)], n)) →
    HoldsAll b p (nodes cache) → FitsAll (cache.map fun c => render c.1) (nodes cache) → (idsAll (nodes cache)).Nodup →
    p ∉ idsAll (nodes cache) → b.children p = L ++ topsAll (nodes cache) ++ ref :: R →
    let r := place key (createBefore σ render p) again vs cache ref n
    ∃ b', Runs b r.cmds b' ∧
      Ends b n p (· ∈ idsAll (nodes cache)) (vs.reverse.map render) (L ++ topsAll (nodes r.cache)) (ref :: R) (nodes r.pairs) b' r.next ∧
      r.pairs.map (·.1) = vs.reverse ∧ HoldsAll b' p (nodes r.cache) ∧ (idsAll (nodes r.cache)).Nodup ∧
      (∀ x ∈ idsAll (nodes r.pairs), x ∉ idsAll (nodes r.cache)) ∧
      (∀ x ∈ idsAll (nodes r.cache), x ∈ idsAll (nodes cache)) ∧
      (∀ t ∈ dueAll σ (nodes r.pairs), t ∈ dueAll σ (nodes cache))
  | [], cache, ref, n, b, L, R, hg, _, _, hh, hf, hn, hpc, hc => by
      refine ⟨b, .nil, ?_, rfl, hh, hn, by simp [place, idsAll], fun x hx => hx, by simp [place, dueAll]⟩
      exact Ends.none _ hg hc
  | v :: vs, cache, ref, n, b, L, R, hg, hp, hag, hh, hf, hn, hpc, hc => by
      cases e : pop key (key v) cache with
      | some q =>
        obtain ⟨i, cache'⟩ := q
        obtain ⟨A, w, B, rfl, rfl, hkw⟩ := pop_some e
        have hr := hag (w, i) (by simp) ref n
        simp only at hr
        have ep : place key (createBefore σ render p) again (v :: vs) (A ++ (w, i) :: B) ref n =
            let t := place key (createBefore σ render p) again vs (A ++ B) i.id n
            ⟨t.pairs ++ [(v, i)], t.cache, .insertBefore p i.id (some ref) :: t.cmds, t.next⟩ := by
          simp only [place, e, hr, List.singleton_append]
        rw [ep]
        simp only [nodes, List.map_append, List.map_cons] at hh hf hn hpc hc
        obtain ⟨hfA, hfi, hfB⟩ := fitsAll_split (by simp) hf
        obtain ⟨hhA, hhi, hhB⟩ := (holdsAll_append _ _).mp hh
        have hti := fits_plain hfi (hpl w)
        simp only [topsAll_append, topsAll, hti] at hc
        simp only [idsAll_append, idsAll] at hn hpc
        have hidc : i.id ∈ b.children p := by rw [hc]; simp
        have hpar := (hg.inv.link p i.id).mp hidc
        have hnd := hg.inv.nodup p
        have hfilt : (b.children p).filter (· ≠ i.id) = (L ++ topsAll (nodes (A ++ B))) ++ ref :: R := by
          have hnd' := hnd
          rw [hc] at hnd'
          have e1 : L ++ (topsAll (A.map (·.2)) ++ ([i.id] ++ topsAll (B.map (·.2)))) ++ ref :: R =
              (L ++ topsAll (A.map (·.2))) ++ (i.id :: (topsAll (B.map (·.2)) ++ ref :: R)) := by simp
          have e2 : L ++ topsAll (nodes (A ++ B)) ++ ref :: R =
              (L ++ topsAll (A.map (·.2))) ++ (topsAll (B.map (·.2)) ++ ref :: R) := by simp [nodes, topsAll_append]
          rw [e1] at hnd'
          rw [hc, e1, e2, List.filter_append, List.filter_cons]
          obtain ⟨n1, n2, n3⟩ := List.nodup_append.mp hnd'
          congr 1
          · exact List.filter_eq_self.mpr fun x hx => by simpa using n3 x hx i.id (by simp)
          · simp only [ne_eq, not_true_eq_false, decide_false, Bool.false_eq_true, if_false]
            refine List.filter_eq_self.mpr fun x hx => ?_
            have := (List.nodup_cons.mp n2).1
            simp only [ne_eq, decide_not, Bool.not_eq_eq_eq_not, Bool.not_true, decide_eq_false_iff_not]
            rintro rfl; exact this hx
        have hmi : b.inMap i.id = true := holds_inMap i hhi _ (id_mem_ids i)
        obtain ⟨o, hoi⟩ := Option.ne_none_iff_exists'.mp ((hg.inv.objs i.id).mp (hg.inv.inMap _ hmi))
        obtain ⟨b1, hb1, hi1⟩ := insert_ok (c := i.id) hg hp hoi hmi (Or.inr hpar)
          (fun l hl => child_not_up hpar hl) hfilt
        have hsub : ∀ x ∈ ids i, x ∈ idsAll (nodes (A ++ (w, i) :: B)) := fun x hx => by
          simp [nodes, idsAll_append, idsAll, hx]
        have hpi : p ∉ ids i := fun h => hpc (by simp [h])
        have hsame : ∀ x : Nat, x ≠ p → b1.objects x = b.objects x ∧ b1.inMap x = b.inMap x ∧ b1.children x = b.children x := by
          intro x hx
          by_cases ex : x = i.id
          · subst ex; exact ⟨hi1.objects, hi1.inMap, hi1.below⟩
          · have := hi1.same x hx ex; exact ⟨this.objects, this.inMap, this.children⟩
        have he1 : Ends b n p (· ∈ ids i) [render v] (L ++ topsAll (nodes (A ++ B))) (ref :: R) [i] b1 n := by
          refine ⟨hi1.good _ hg, Nat.le_refl _, fun x _ hx hxp => hi1.same x hxp ?_, hi1.but, ?_, ⟨?_, trivial⟩, ⟨?_, trivial⟩, ?_, ?_, ?_⟩
          · rintro rfl; exact hx (id_mem_ids i)
          · rw [hi1.children]; simp [topsAll, hti]
          · exact Holds.frame i (fun x hx => hsame x (fun h => hpi (h ▸ hx))) hhi
          · rw [hk v w hkw.symm]; exact hfi
          · have := (List.nodup_append.mp (List.nodup_append.mp hn).2.1).1
            simpa [idsAll] using this
          · intro x hx; simp [idsAll] at hx; exact Or.inl hx
          · simpa [idsAll] using hpi
        have hn' : (idsAll (nodes (A ++ B))).Nodup := by
          simp only [nodes, List.map_append, idsAll_append]
          refine List.Nodup.sublist ?_ hn
          exact List.Sublist.append_left (List.sublist_append_right _ _) _
        have hdis : ∀ x ∈ ids i, x ∉ idsAll (nodes (A ++ B)) := by
          intro x hx hx'
          simp only [nodes, List.map_append, idsAll_append, List.mem_append] at hx'
          obtain ⟨-, n2, n3⟩ := List.nodup_append.mp hn
          rcases hx' with hx' | hx'
          · exact n3 x hx' x (by simp [hx]) rfl
          · exact (List.nodup_append.mp n2).2.2 x hx x hx' rfl
        have hpAB : p ∉ idsAll (nodes (A ++ B)) := by
          simp only [nodes, List.map_append, idsAll_append, List.mem_append] at hpc ⊢
          tauto
        have hhAB : HoldsAll b1 p (nodes (A ++ B)) := by
          refine HoldsAll.frame _ (fun x hx => hsame x (fun h => hpAB (h ▸ hx))) ?_
          simp only [nodes, List.map_append]
          exact (holdsAll_append _ _).mpr ⟨hhA, hhB⟩
        obtain ⟨b2, hb2, he2, hm, hl, hln, hld, hls, hdue⟩ := place_ok hb hpl hk vs (A ++ B) i.id n (L := L) (R := ref :: R) (hi1.good _ hg)
          (hp.same hi1.but) (fun c hc => hag c (by simp only [List.mem_append, List.mem_cons] at hc ⊢; tauto)) hhAB
          (by simp only [nodes, List.map_append]; exact fitsAll_append hfA hfB) hn' hpAB
          (by rw [hi1.children])
        have hlt : ∀ x : Nat, x ∈ idsAll (nodes (A ++ B)) → x < n := fun x hx => ids_lt (hi1.good _ hg) hhAB hx
        refine ⟨b2, run_cons hb1 hb2, ?_, ?_, hl, hln, ?_, ?_, ?_⟩
        · have := he1.left (own := (· ∈ idsAll (nodes (A ++ (w, i) :: B)))) (L := L ++ topsAll (nodes (place key (createBefore σ render p) again vs (A ++ B) i.id n).cache))
            (R := ref :: R) he2 hdis hlt ?_ rfl (by simp [topsAll, hti])
          · simpa [nodes] using this
          · intro x hx
            simp only [nodes, List.map_append, List.map_cons, idsAll_append, idsAll, List.mem_append] at hx ⊢
            tauto
        · simp [hm]
        · intro x hx
          simp only [nodes, List.map_append, idsAll_append, List.map_cons, List.map_nil, idsAll, List.append_nil, List.mem_append] at hx
          rcases hx with hx | hx
          · exact hld x hx
          · intro hx'; exact hdis x hx (hls x hx')
        · intro x hx
          have := hls x hx
          simp only [nodes, List.map_append, List.map_cons, idsAll_append, idsAll, List.mem_append] at this ⊢
          tauto
        · intro t ht
          simp only [nodes, List.map_append, List.map_cons, List.map_nil, dueAll_append, dueAll, List.append_nil, List.mem_append] at ht ⊢
          rcases ht with ht | ht
          · have := hdue t ht
            simp only [nodes, List.map_append, dueAll_append, List.mem_append] at this
            tauto
          · tauto
      | none =>
        obtain ⟨b1, hb1, he1, hd1⟩ := (hb v).fresh (L := L ++ topsAll (nodes cache)) (R := ref :: R) hg hp hc
        let i := (create σ (render v) n).1.insert p (some ref) (create σ (render v) n).2.2
        have ep : place key (createBefore σ render p) again (v :: vs) cache ref n =
            let t := place key (createBefore σ render p) again vs cache i.1.id i.2.2
            ⟨t.pairs ++ [(v, i.1)], t.cache, ((create σ (render v) n).2.1 ++ i.2.1) ++ t.cmds, t.next⟩ := by
          simp only [place, e, createBefore, i]
        rw [ep]
        have hti : tops i.1 = [i.1.id] := fits_plain he1.fits.1 (hpl v)
        have hold : ∀ x : Nat, x ∈ idsAll (nodes cache) → x < n ∧ x ≠ p := fun x hx => ⟨ids_lt hg hh hx, fun e => hpc (e ▸ hx)⟩
        have hh1 : HoldsAll b1 p (nodes cache) := HoldsAll.frame _ (fun x hx => by
          have := he1.same x (hold x hx).1 (fun h => h) (hold x hx).2
          exact ⟨this.objects, this.inMap, this.children⟩) hh
        obtain ⟨b2, hb2, he2, hm, hl, hln, hld, hls, hdue⟩ := place_ok hb hpl hk vs cache i.1.id i.2.2 (L := L) (R := ref :: R) he1.good
          (hp.same he1.but) hag hh1 hf hn hpc (by
            have := he1.children
            simp only [topsAll, List.append_nil] at this
            rw [this]; show _ ++ tops i.1 ++ _ = _; rw [hti]; simp)
        have hfr : ∀ x : Nat, x ∈ ids i.1 → n ≤ x := fun x hx =>
          (he1.ids x (by simpa [idsAll] using hx)).resolve_left fun h => h
        refine ⟨b2, run_append hb1 hb2, ?_, ?_, hl, hln, ?_, hls, ?_⟩
        · have := he1.left (own := (· ∈ idsAll (nodes cache))) (L := L ++ topsAll (nodes (place key (createBefore σ render p) again vs cache i.1.id i.2.2).cache))
            (R := ref :: R) he2 (fun _ h => h.elim) (fun x hx => (hold x hx).1) (fun x hx => hx.resolve_left fun h => h) rfl
            (by show _ = topsAll [i.1] ++ _; simp [topsAll, hti])
          simpa [nodes, i] using this
        · simp [hm]
        · intro x hx
          simp only [nodes, List.map_append, idsAll_append, List.map_cons, List.map_nil, idsAll, List.append_nil, List.mem_append] at hx
          rcases hx with hx | hx
          · exact hld x hx
          · intro hx'
            have h1 := hfr x hx
            have h2 := (hold x (hls x hx')).1
            omega
        · intro t ht
          simp only [nodes, List.map_append, List.map_cons, List.map_nil, dueAll_append, dueAll, List.append_nil, List.mem_append] at ht
          rcases ht with ht | ht
          · exact hdue t ht
          · have hd1' : due σ i.1 = [] := hd1
            rw [hd1'] at ht; cases ht

end
end Verif.View

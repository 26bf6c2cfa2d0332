import Verif.View.Marker
/-!
# C49: lists, fragments, and running a subscription
-/
namespace Verif.View
open Verif.Dom

section
variable [DecidableEq V]

theorem pairsTop_eq : ∀ (cur : List (V × Inst S V)) (new : List V),
    cur = (pairsTop cur new).1 ++ (pairsTop cur new).2.1 ∧ new = (pairsTop cur new).1.map (·.1) ++ (pairsTop cur new).2.2
  | [], new => by simp [pairsTop]
  | _ :: _, [] => by simp [pairsTop]
  | (v, i) :: cur, w :: new => by
      have ih := pairsTop_eq cur new
      by_cases e : v = w
      · subst e
        simp only [pairsTop, if_true, List.cons_append, List.map_cons, List.cons.injEq, true_and]
        exact ih
      · simp [pairsTop, e]

theorem pairsBottom_eq (cur : List (V × Inst S V)) (new : List V) :
    cur = (pairsBottom cur new).2.1 ++ (pairsBottom cur new).1 ∧
      new = (pairsBottom cur new).2.2 ++ (pairsBottom cur new).1.map (·.1) := by
  obtain ⟨h1, h2⟩ := pairsTop_eq cur.reverse new.reverse
  have h1 := congrArg List.reverse h1
  have h2 := congrArg List.reverse h2
  simp only [List.reverse_reverse, List.reverse_append] at h1 h2
  simp only [pairsBottom, List.map_reverse]
  exact ⟨h1, h2⟩

/-- The callback of a list. -/
theorem list_ok {σ : S} {key : V → V} {render : V → View S V} {p id : Nat} {again : Id → Inst S V → Nat → Inst S V × List Cmd × Nat}
    {order : List (Inst S V) → List (Inst S V)}
    (hb : ∀ v, Builds σ (render v)) (hpl : ∀ v, (render v).plain = true) (hk : ∀ v w, key v = key w → render v = render w)
    (hord : ∀ l, (order l).Perm l) {cur : List (V × Inst S V)} {new : List V} {n : Nat} {b L R} (hg : Good b n) (hp : Usable b p)
    (hag : ∀ c ∈ cur, ∀ ref n, again ref c.2 n = (c.2, [.insertBefore p c.2.id (some ref)], n))
    (hh : HoldsAll b p (nodes cur)) (hf : FitsAll (cur.map fun c => render c.1) (nodes cur)) (hn : (idsAll (nodes cur)).Nodup)
    (hpc : p ∉ idsAll (nodes cur)) (hc : b.children p = L ++ topsAll (nodes cur) ++ id :: R) :
    let r := onList key (createBefore σ render p) again order id cur new n
    ∃ b', Runs b r.2.1 b' ∧ Ends b n p (· ∈ idsAll (nodes cur)) (new.map render) L (id :: R) (nodes r.1) b' r.2.2 ∧
      r.1.map (·.1) = new ∧ ∀ t ∈ dueAll σ (nodes r.1), t ∈ dueAll σ (nodes cur) := by
  intro r
  obtain ⟨ht1, ht2⟩ := pairsTop_eq cur new
  obtain ⟨hb1, hb2⟩ := pairsBottom_eq (pairsTop cur new).2.1 (pairsTop cur new).2.2
  have er : r = ((pairsTop cur new).1 ++ (place key (createBefore σ render p) again
      (pairsBottom (pairsTop cur new).2.1 (pairsTop cur new).2.2).2.2.reverse (pairsBottom (pairsTop cur new).2.1 (pairsTop cur new).2.2).2.1
      (((pairsBottom (pairsTop cur new).2.1 (pairsTop cur new).2.2).1.head?.map (·.2.id)).getD id) n).pairs ++
      (pairsBottom (pairsTop cur new).2.1 (pairsTop cur new).2.2).1, _, _) := rfl
  generalize hT : (pairsTop cur new).1 = T at er ht1 ht2
  have hr21 : r.2.1 = (place key (createBefore σ render p) again
      (pairsBottom (pairsTop cur new).2.1 (pairsTop cur new).2.2).2.2.reverse (pairsBottom (pairsTop cur new).2.1 (pairsTop cur new).2.2).2.1
      (((pairsBottom (pairsTop cur new).2.1 (pairsTop cur new).2.2).1.head?.map (·.2.id)).getD id) n).cmds ++ dropsAll (order (nodes (place key (createBefore σ render p) again
      (pairsBottom (pairsTop cur new).2.1 (pairsTop cur new).2.2).2.2.reverse (pairsBottom (pairsTop cur new).2.1 (pairsTop cur new).2.2).2.1
      (((pairsBottom (pairsTop cur new).2.1 (pairsTop cur new).2.2).1.head?.map (·.2.id)).getD id) n).cache)) := rfl
  have hr22 : r.2.2 = (place key (createBefore σ render p) again
      (pairsBottom (pairsTop cur new).2.1 (pairsTop cur new).2.2).2.2.reverse (pairsBottom (pairsTop cur new).2.1 (pairsTop cur new).2.2).2.1
      (((pairsBottom (pairsTop cur new).2.1 (pairsTop cur new).2.2).1.head?.map (·.2.id)).getD id) n).next := rfl
  have hr1 := congrArg Prod.fst er
  simp only at hr1
  clear er
  rw [hr21, hr22, hr1]
  clear hr21 hr22 hr1
  clear_value r
  clear r
  generalize (pairsTop cur new).2.1 = C1 at *
  generalize (pairsTop cur new).2.2 = new1 at *
  generalize (pairsBottom C1 new1).1 = B at *
  generalize (pairsBottom C1 new1).2.1 = C at *
  generalize (pairsBottom C1 new1).2.2 = mid at *
  subst hb1 hb2 ht1 ht2
  clear hT
  simp only [nodes, List.map_append] at hh hf hn hpc hc
  obtain ⟨hhT, hhC, hhB⟩ : HoldsAll b p (nodes T) ∧ HoldsAll b p (nodes C) ∧ HoldsAll b p (nodes B) := by
    obtain ⟨h1, h2⟩ := (holdsAll_append _ _).mp hh
    exact ⟨h1, (holdsAll_append _ _).mp h2⟩
  obtain ⟨hfT, hfC, hfB⟩ : FitsAll (T.map fun c => render c.1) (nodes T) ∧ FitsAll (C.map fun c => render c.1) (nodes C) ∧
      FitsAll (B.map fun c => render c.1) (nodes B) := by
    obtain ⟨h1, h2⟩ := fitsAll_split (by simp) hf
    exact ⟨h1, fitsAll_split (by simp) h2⟩
  simp only [idsAll_append] at hn hpc
  simp only [topsAll_append] at hc
  obtain ⟨hnT, hnCB, hdT⟩ := List.nodup_append.mp hn
  obtain ⟨hnC, hnB, hdC⟩ := List.nodup_append.mp hnCB
  simp only [List.mem_append, not_or] at hpc hdT
  obtain ⟨hpT, hpC, hpB⟩ := hpc
  have hltT : ∀ x : Nat, x ∈ idsAll (nodes T) → x < n := fun x hx => ids_lt hg hhT hx
  have hltC : ∀ x : Nat, x ∈ idsAll (nodes C) → x < n := fun x hx => ids_lt hg hhC hx
  have hltB : ∀ x : Nat, x ∈ idsAll (nodes B) → x < n := fun x hx => ids_lt hg hhB hx
  generalize href : ((B.head?.map (·.2.id)).getD id) = ref
  obtain ⟨R', hR'⟩ : ∃ R', topsAll (nodes B) ++ id :: R = ref :: R' := by
    cases B with
    | nil => simp at href; subst href; exact ⟨R, rfl⟩
    | cons x B =>
      simp at href; subst href
      exact ⟨topsAll (nodes B) ++ id :: R, by simp [nodes, topsAll, fits_plain hfB.1 (hpl _)]⟩
  obtain ⟨b1, hb1, he1, hm, hl, hln, hld, hls, hdue⟩ := place_ok (again := again) hb hpl hk mid.reverse C ref n
    (L := L ++ topsAll (nodes T)) (R := R') hg hp (fun c hc => hag c (by simp [hc])) hhC hfC hnC hpC
    (by rw [hc, ← hR']; simp)
  generalize place key (createBefore σ render p) again mid.reverse C ref n = m at *
  rw [List.reverse_reverse] at hm he1
  obtain ⟨D, hD, hDp⟩ := dropsAll_removes (order (nodes m.cache))
  obtain ⟨b2, hb2, he2⟩ := Ends.drop (js := nodes m.cache) (L0 := L ++ topsAll (nodes T)) (L1 := []) (by simpa using he1) hl hln hld hls
    (fun h => hpC (hls p h)) hD (hDp.trans (idsAll_perm (hord _)))
  rw [← hR', List.append_nil] at he2
  have hfrT : ∀ x, x ∈ idsAll (nodes T) → x ∉ idsAll (nodes C) := fun x hx hx' => hdT x hx x (Or.inl hx') rfl
  have hfrB : ∀ x, x ∈ idsAll (nodes B) → x ∉ idsAll (nodes C) := fun x hx hx' => hdC x hx' x hx rfl
  have heT := Ends.self (L := L) (R := topsAll (nodes C) ++ (topsAll (nodes B) ++ id :: R)) hg hhT hfT hnT hpT (by rw [hc]; simp)
  have hTM := heT.right (own := fun x => x ∈ idsAll (nodes T) ∨ x ∈ idsAll (nodes C)) he2 hfrT hltC (fun _ h => h) rfl rfl
  have hhB2 : HoldsAll b2 p (nodes B) := HoldsAll.frame _ (fun x hx => by
    have := hTM.same x (hltB x hx) (fun h => h.elim (fun h => hdT x h x (Or.inr hx) rfl) (hfrB x hx)) (fun e => hpB (e ▸ hx))
    exact ⟨this.objects, this.inMap, this.children⟩) hhB
  have heB := Ends.self (L := L ++ topsAll (nodes T ++ nodes m.pairs)) (R := id :: R) hTM.good hhB2 hfB hnB hpB
    (by rw [hTM.children]; simp)
  have hall := hTM.right (own := (· ∈ idsAll (nodes (T ++ (C ++ B))))) (L := L) (R := id :: R) heB
    (fun x hx hx' => hx.elim (fun h => hdT x h x (Or.inr hx') rfl) (fun h => hfrB x hx' h)) hltB
    (fun x hx => by simp only [nodes, List.map_append, idsAll_append, List.mem_append]; tauto) rfl rfl
  refine ⟨b2, run_append hb1 hb2, ?_, ?_, ?_⟩
  · simpa [nodes, Function.comp_def] using hall
  · simp [hm]
  · intro t ht
    simp only [nodes, List.map_append, dueAll_append, List.mem_append] at ht ⊢
    rcases ht with (ht | ht) | ht
    · exact Or.inl ht
    · exact Or.inr (Or.inl (hdue t ht))
    · exact Or.inr (Or.inr ht)

theorem builds_value {σ : S} {f : S → V} {shown : V → Bool} {render : V → View S V} (hb : ∀ v, Builds σ (render v)) :
    Builds σ (.value f shown render) := by
  intro b n hg
  obtain ⟨b1, hb1, ha⟩ := create_ok hg (.comment "value element")
  refine ⟨b1, run_one ⟨hb1.1, hb1.2⟩, Nat.le_succ n, ha.good, fun x hx => ha.same x (by omega), Nat.le_refl _, Nat.lt_succ_self _, ?_⟩
  intro b2 n2 p L R hg2 hn2 hs2 hp hpn hch
  obtain ⟨b3, hb3, hi⟩ := insert_created hg ha.good (fun x hx => ha.same x (by omega)) hg2 hn2 hs2 hp hpn (Nat.le_refl n)
    ha.object ha.inMap ha.parent hch
  have hsn := hs2 n (Nat.le_refl n) (Nat.lt_succ_self n)
  have hn2' : n + 1 ≤ n2 := hn2
  have hpn' : ¬ (n ≤ p ∧ p < n + 1) := hpn
  obtain ⟨b4, hb4, he, hd⟩ := value_ok (shown := shown) (v := f σ) (old := []) (id := n) (L := L) (R := R) hb (hi.good _ hg2) (hp.same hi.but) trivial
    (by simp [idsAll]) (by simp [idsAll]) (by rw [hi.children]; simp [topsAll])
  refine ⟨b4, run_cons hb3 hb4, ?_, ?_, rfl⟩
  · refine Ends.after_insert hi ⟨Nat.le_refl _, Nat.lt_succ_self _⟩ ?_
    refine he.marker (c := n) (s := "value element") ?_ ?_ (by omega) (by omega) ⟨Nat.le_refl _, Nat.lt_succ_self _⟩ (by simp [idsAll])
      (by simp [idsAll]) rfl rfl (fun h1 h2 h3 => ⟨rfl, h1, h2, h3⟩) (fun h => ⟨rfl, rfl, rfl, h⟩)
    · rw [hi.inMap, hsn.inMap, ha.inMap]
    · rw [hi.objects, hsn.objects, ha.object]
  · simp only [Created.insert, create, due, if_true, List.nil_append]
    exact hd

theorem builds_list {σ : S} {f : S → List V} {key : V → V} {render : V → View S V} (hb : ∀ v, Builds σ (render v))
    (hpl : ∀ v, (render v).plain = true) (hk : ∀ v w, key v = key w → render v = render w) :
    Builds σ (.list f key render) := by
  intro b n hg
  obtain ⟨b1, hb1, ha⟩ := create_ok hg (.comment "list element")
  refine ⟨b1, run_one ⟨hb1.1, hb1.2⟩, Nat.le_succ n, ha.good, fun x hx => ha.same x (by omega), Nat.le_refl _, Nat.lt_succ_self _, ?_⟩
  intro b2 n2 p L R hg2 hn2 hs2 hp hpn hch
  obtain ⟨b3, hb3, hi⟩ := insert_created hg ha.good (fun x hx => ha.same x (by omega)) hg2 hn2 hs2 hp hpn (Nat.le_refl n)
    ha.object ha.inMap ha.parent hch
  have hsn := hs2 n (Nat.le_refl n) (Nat.lt_succ_self n)
  have hn2' : n + 1 ≤ n2 := hn2
  have hpn' : ¬ (n ≤ p ∧ p < n + 1) := hpn
  obtain ⟨b4, hb4, he, hm, hd⟩ := list_ok (again := fun _ i m => (i, [], m)) (order := fun x => x) (new := f σ) (cur := []) (id := n) (L := L) (R := R)
    hb hpl hk (fun _ => .refl _) (hi.good _ hg2) (hp.same hi.but) (by simp) trivial trivial
    (by simp [idsAll]) (by simp [idsAll]) (by rw [hi.children]; simp [topsAll])
  refine ⟨b4, run_cons hb3 hb4, ?_, ?_, rfl⟩
  · refine Ends.after_insert hi ⟨Nat.le_refl _, Nat.lt_succ_self _⟩ ?_
    refine he.marker (c := n) (s := "list element") ?_ ?_ (by omega) (by omega) ⟨Nat.le_refl _, Nat.lt_succ_self _⟩ (by simp [idsAll])
      (by simp [idsAll]) rfl rfl (fun h1 h2 h3 => ⟨rfl, h1, h2, h3⟩) (fun h => ⟨rfl, rfl, rfl, ?_⟩)
    · rw [hi.inMap, hsn.inMap, ha.inMap]
    · rw [hi.objects, hsn.objects, ha.object]
    · exact hm.symm ▸ h
  · show (if f σ = (onList key (createBefore σ render p) (fun _ i m => (i, [], m)) (fun x => x) n [] (f σ) n2).1.map (·.1)
      then [] else [(n, none)]) ++ dueAll σ (nodes (onList key (createBefore σ render p) (fun _ i m => (i, [], m)) (fun x => x) n [] (f σ) n2).1) = []
    rw [if_pos hm.symm, List.nil_append]
    exact List.eq_nil_iff_forall_not_mem.mpr fun t ht => by simpa [nodes, dueAll] using hd t ht

/-- The nodes of a fragment, created one after the other. -/
inductive Promises (σ : S) (b1 : Browser) : Nat → Nat → List (View S V) → List (Created S V) → Prop where
  | nil {lo} : Promises σ b1 lo lo [] []
  | cons {lo mid hi v vs c cs} : lo ≤ mid → mid ≤ hi → Promise σ v lo mid b1 c → Promises σ b1 mid hi vs cs →
      Promises σ b1 lo hi (v :: vs) (c :: cs)

theorem Promises.later {σ : S} {b1 b2 : Browser} {lo hi} {vs : List (View S V)} {cs} (h : Promises σ b1 lo hi vs cs) :
    (∀ x : Nat, lo ≤ x → x < hi → SameAt b1 b2 x) → Promises σ b2 lo hi vs cs := by
  induction h with
  | nil => intro _; exact .nil
  | cons h1 h2 hp _ ih =>
    intro hs
    exact .cons h1 h2 (hp.later fun x hx hx' => hs x hx (by omega)) (ih fun x hx hx' => hs x (by omega) hx')

theorem createAll_ok {σ : S} : ∀ (vs : List (View S V)) {b n}, (∀ v ∈ vs, Builds σ v) → Good b n →
    ∃ b1, Runs b (createAll σ vs n).2.1 b1 ∧ n ≤ (createAll σ vs n).2.2 ∧ Good b1 (createAll σ vs n).2.2 ∧
      (∀ x : Nat, x < n → SameAt b b1 x) ∧ Promises σ b1 n (createAll σ vs n).2.2 vs (createAll σ vs n).1
  | [], b, n, _, hg => ⟨b, .nil, Nat.le_refl _, hg, fun x _ => .refl b x, .nil⟩
  | v :: vs, b, n, hv, hg => by
      obtain ⟨b1, hr1, hle1, hg1, hs1, hp1⟩ := hv v (by simp) b n hg
      obtain ⟨b2, hr2, hle2, hg2, hs2, hp2⟩ := createAll_ok vs (fun w hw => hv w (List.mem_cons_of_mem _ hw)) hg1
      refine ⟨b2, run_append hr1 hr2, Nat.le_trans hle1 hle2, hg2, fun x hx => (hs1 x hx).trans (hs2 x (by omega)), ?_⟩
      exact .cons hle1 hle2 (hp1.later fun x _ hx' => hs2 x hx') hp2

theorem mountAll_ok {σ : S} {b1 : Browser} {p id : Nat} {lo hi} {vs : List (View S V)} {cs} (h : Promises σ b1 lo hi vs cs) :
    ∀ {b2 n2 L R}, (∀ v ∈ vs.tail, v.plain = true) → Good b2 n2 → hi ≤ n2 → (∀ x : Nat, lo ≤ x → x < hi → SameAt b1 b2 x) → Usable b2 p →
    ¬ (lo ≤ p ∧ p < hi) → b2.children p = L ++ id :: R →
    ∃ b4, Runs b2 (mountAll p id cs n2).2.1 b4 ∧
      Ends b2 n2 p (fun x => lo ≤ x ∧ x < hi) vs L (id :: R) (mountAll p id cs n2).1 b4 (mountAll p id cs n2).2.2.1 ∧
      dueAll σ (mountAll p id cs n2).1 = [] ∧
      ((∀ v ∈ vs, v.plain = true) → (topsAll (mountAll p id cs n2).1 ++ id :: R).head? = some (mountAll p id cs n2).2.2.2) := by
  induction h with
  | nil =>
    intro b2 n2 L R _ hg2 _ _ _ _ hch
    exact ⟨b2, .nil, Ends.none _ hg2 hch, rfl, fun _ => rfl⟩
  | @cons lo mid hi v vs c cs h1 h2 hpr _ ih =>
    intro b2 n2 L R hpl hg2 hn2 hs hp hpn hch
    have hpl' : ∀ w ∈ vs, w.plain = true := by simpa using hpl
    obtain ⟨b3, hr3, he3, hd3, hh3⟩ := ih (fun w hw => hpl' w (List.mem_of_mem_tail hw)) hg2 hn2 (fun x hx hx' => hs x (by omega) hx') hp (by omega) hch
    have hhead := hh3 hpl'
    have hs3 : ∀ x : Nat, lo ≤ x → x < mid → SameAt b1 b3 x := fun x hx hx' =>
      (hs x hx (by omega)).trans (he3.same x (by omega) (by omega) (by omega))
    obtain ⟨b4, hr4, he4, hd4, hid⟩ := hpr.insert b3 _ p L (topsAll (mountAll p id cs n2).1 ++ id :: R) he3.good
      (by have := he3.le; omega) hs3 (hp.same he3.but) (by omega) (by rw [he3.children]; simp)
    rw [hhead] at hr4 he4 hd4 hid
    refine ⟨b4, run_append hr3 hr4, ?_, ?_, ?_⟩
    · exact he3.left he4 (by intro x; omega) (by intro x; omega) (by intro x; omega) rfl rfl
    · simp only [mountAll, dueAll, List.append_eq_nil_iff]
      exact ⟨hd4, hd3⟩
    · intro hall
      have := fits_plain he4.fits.1 (hall v (by simp))
      simp only [mountAll, topsAll, this]
      simp

theorem builds_fragment {σ : S} {vs : List (View S V)} (hb : ∀ v ∈ vs, Builds σ v) (hpl : ∀ v ∈ vs.tail, v.plain = true) :
    Builds σ (.fragment vs) := by
  intro b n hg
  obtain ⟨b1, hr1, hle1, hg1, hs1, hp1⟩ := createAll_ok vs hb hg
  generalize hc : createAll σ vs n = c at *
  obtain ⟨b2, hb2, ha⟩ := create_ok hg1 (.comment "list dom node")
  have hs2 : ∀ x : Nat, x < n → SameAt b b2 x := fun x hx => (hs1 x hx).trans (ha.same x (by omega))
  have ecr : create σ (.fragment vs) n = (⟨c.2.2, fun p m => let t := mountAll p c.2.2 c.1 m; (.fragment c.2.2 p t.1, t.2.1, t.2.2.1)⟩,
      c.2.1 ++ [.createComment c.2.2 "list dom node"], c.2.2 + 1) := by simp only [create, hc]
  rw [ecr]
  refine ⟨b2, run_append hr1 (run_one ⟨hb2.1, hb2.2⟩), Nat.le_succ_of_le hle1, ha.good, hs2, hle1, Nat.lt_succ_self _, ?_⟩
  intro b3 n3 p L R hg3 hn3 hs3 hp hpn hch
  have hn3' : c.2.2 + 1 ≤ n3 := hn3
  have hpn' : ¬ (n ≤ p ∧ p < c.2.2 + 1) := hpn
  have hs3' : ∀ x : Nat, n ≤ x → x < c.2.2 + 1 → SameAt b2 b3 x := hs3
  obtain ⟨b4, hb4, hi⟩ := insert_created hg ha.good hs2 hg3 hn3' hs3' hp hpn' hle1
    ha.object ha.inMap ha.parent hch
  have hsn := hs3' c.2.2 hle1 (Nat.lt_succ_self _)
  obtain ⟨b5, hb5, he, hd, -⟩ := mountAll_ok (p := p) (id := c.2.2) hp1 (L := L) (R := R) hpl (hi.good _ hg3) (by omega)
    (fun x hx hx' => ((ha.same x (by omega)).trans (hs3' x hx (by omega))).trans (hi.same x (by omega) (Nat.ne_of_lt hx')))
    (hp.same hi.but) (by omega) (by rw [hi.children])
  refine ⟨b5, run_cons hb4 hb5, ?_, hd, rfl⟩
  refine Ends.after_insert hi ⟨hle1, Nat.lt_succ_self _⟩ ?_
  refine he.marker (c := c.2.2) (s := "list dom node") ?_ ?_ (by omega) (by omega) ⟨hle1, Nat.lt_succ_self _⟩ (by omega)
    (fun x hx => ⟨hx.1, Nat.lt_succ_of_lt hx.2⟩) rfl rfl (fun h1 h2 h3 => ⟨rfl, h1, h2, h3⟩) (fun h => h)
  · rw [hi.inMap, hsn.inMap, ha.inMap]
  · rw [hi.objects, hsn.objects, ha.object]

/-- Every view of the theorem creates its nodes properly. -/
theorem builds {σ : S} {v : View S V} (h : v.Fine) : Builds σ v := by
  induction h with
  | element _ hn _ ih => exact builds_element hn ih
  | text => exact builds_text _
  | computedText => exact builds_computedText _
  | value _ ih => exact builds_value ih
  | list _ hp hk ih => exact builds_list ih hp hk
  | fragment _ hp ih => exact builds_fragment ih hp

end
end Verif.View

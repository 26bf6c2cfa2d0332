import Verif.View.Loose
/-!
# Views in any order: markers, nodes that are inserted again, and subscriptions
-/
namespace Verif.View
open Verif.Dom

theorem Sits.nil {b : Browser} {p} : Sits b p ([] : List (Inst S V)) := ⟨trivial, by simp [topsAll], by simp [idsAll], by simp [idsAll]⟩

section
variable [DecidableEq V]

theorem works_value {σ : S} {f : S → V} {shown : V → Bool} {render : V → View S V} (hb : ∀ v, Works σ (render v)) :
    Works σ (.value f shown render) := by
  intro b n hg
  obtain ⟨b1, hb1, ha⟩ := create_ok hg (.comment "value element")
  have hs1 : ∀ x : Nat, x < n → SameAt b b1 x := fun x hx => ha.same x (by omega)
  refine ⟨b1, run_one ⟨hb1.1, hb1.2⟩, Nat.le_succ n, ha.good, hs1, Nat.le_refl _, Nat.lt_succ_self _, ?_⟩
  intro b2 n2 p ref hg2 hn2 hs2 hp hpn hr
  obtain ⟨b3, l, hb3, hi, hl⟩ := put_created hg ha.good hs1 hg2 hs2 hp hpn (Nat.le_refl n) ha.object ha.inMap ha.parent ref hr
  have hsn := hs2 n (Nat.le_refl n) (Nat.lt_succ_self n)
  have hpn' : ¬ (n ≤ p ∧ p < n + 1) := hpn
  have hk : n ∈ b3.children p := by rw [hi.children, hl]; exact Or.inl rfl
  obtain ⟨b4, hb4, he⟩ := valueWorks (shown := shown) (v := f σ) (old := []) (id := n) hb (hi.good _ hg2) (hp.same hi.but) .nil hk
  refine ⟨b4, run_cons hb3 hb4, ?_, rfl⟩
  refine Makes.after_insert hi hl ⟨Nat.le_refl _, Nat.lt_succ_self _⟩ ?_
  refine he.marker (c := n) (s := "value element") ?_ ?_ hk (by omega) (by simp [idsAll]) (hi.good _ hg2) ?_ rfl rfl
    (fun h1 h2 h3 => ⟨rfl, h1, h2, h3⟩)
  · rw [hi.inMap, hsn.inMap, ha.inMap]
  · rw [hi.objects, hsn.objects, ha.object]
  · intro x
    simp only [idsAll, List.not_mem_nil, false_or]
    show n ≤ x ∧ x < n + 1 ↔ x = n
    omega

theorem works_list {σ : S} {f : S → List V} {key : V → V} {render : V → View S V} (hb : ∀ v, Works σ (render v)) :
    Works σ (.list f key render) := by
  intro b n hg
  obtain ⟨b1, hb1, ha⟩ := create_ok hg (.comment "list element")
  have hs1 : ∀ x : Nat, x < n → SameAt b b1 x := fun x hx => ha.same x (by omega)
  refine ⟨b1, run_one ⟨hb1.1, hb1.2⟩, Nat.le_succ n, ha.good, hs1, Nat.le_refl _, Nat.lt_succ_self _, ?_⟩
  intro b2 n2 p ref hg2 hn2 hs2 hp hpn hr
  obtain ⟨b3, l, hb3, hi, hl⟩ := put_created hg ha.good hs1 hg2 hs2 hp hpn (Nat.le_refl n) ha.object ha.inMap ha.parent ref hr
  have hsn := hs2 n (Nat.le_refl n) (Nat.lt_succ_self n)
  have hpn' : ¬ (n ≤ p ∧ p < n + 1) := hpn
  have hk : n ∈ b3.children p := by rw [hi.children, hl]; exact Or.inl rfl
  obtain ⟨b4, hb4, he⟩ := listWorks (key := key) (again := fun _ i m => (i, [], m)) (order := fun x => x) (new := f σ) (cur := []) (id := n) hb
    (fun _ => .refl _) (hi.good _ hg2) (hp.same hi.but) (by simp) .nil hk (by simp [nodes, idsAll])
  refine ⟨b4, run_cons hb3 hb4, ?_, rfl⟩
  refine Makes.after_insert hi hl ⟨Nat.le_refl _, Nat.lt_succ_self _⟩ ?_
  refine he.marker (c := n) (s := "list element") ?_ ?_ hk (by omega) (by simp [nodes, idsAll]) (hi.good _ hg2) ?_ rfl rfl
    (fun h1 h2 h3 => ⟨rfl, h1, h2, h3⟩)
  · rw [hi.inMap, hsn.inMap, ha.inMap]
  · rw [hi.objects, hsn.objects, ha.object]
  · intro x
    simp only [nodes, List.map_nil, idsAll, List.not_mem_nil, false_or]
    show n ≤ x ∧ x < n + 1 ↔ x = n
    omega

/-- The nodes of a fragment, created one after the other. -/
inductive Pledges (b1 : Browser) : Nat → Nat → List (Created S V) → Prop where
  | nil {lo} : Pledges b1 lo lo []
  | cons {lo mid hi c cs} : lo ≤ mid → mid ≤ hi → Pledge lo mid b1 c → Pledges b1 mid hi cs → Pledges b1 lo hi (c :: cs)

theorem createAllWorks {σ : S} : ∀ (vs : List (View S V)) {b n}, (∀ v ∈ vs, Works σ v) → Good b n →
    ∃ b1, Runs b (createAll σ vs n).2.1 b1 ∧ n ≤ (createAll σ vs n).2.2 ∧ Good b1 (createAll σ vs n).2.2 ∧
      (∀ x : Nat, x < n → SameAt b b1 x) ∧ Pledges b1 n (createAll σ vs n).2.2 (createAll σ vs n).1
  | [], b, n, _, hg => ⟨b, .nil, Nat.le_refl _, hg, fun x _ => .refl b x, .nil⟩
  | v :: vs, b, n, hv, hg => by
      obtain ⟨b1, hr1, hle1, hg1, hs1, hp1⟩ := hv v (by simp) b n hg
      obtain ⟨b2, hr2, hle2, hg2, hs2, hp2⟩ := createAllWorks vs (fun w hw => hv w (List.mem_cons_of_mem _ hw)) hg1
      refine ⟨b2, run_append hr1 hr2, Nat.le_trans hle1 hle2, hg2, fun x hx => (hs1 x hx).trans (hs2 x (by omega)), ?_⟩
      exact .cons hle1 hle2 (hp1.later fun x _ hx' => hs2 x hx') hp2

omit [DecidableEq V] in
theorem mountAllWorks {b1 : Browser} {p id : Nat} {lo hi} {cs : List (Created S V)} (h : Pledges b1 lo hi cs) :
    ∀ {b2 n2}, Good b2 n2 → hi ≤ n2 → (∀ x : Nat, lo ≤ x → x < hi → SameAt b1 b2 x) → Usable b2 p →
    ¬ (lo ≤ p ∧ p < hi) → id ∈ b2.children p → ¬ (lo ≤ id ∧ id < hi) →
    ∃ b4, Runs b2 (mountAll p id cs n2).2.1 b4 ∧
      Makes b2 n2 p (fun x => lo ≤ x ∧ x < hi) (mountAll p id cs n2).1 b4 (mountAll p id cs n2).2.2.1 ∧
      (mountAll p id cs n2).2.2.2 ∈ b4.children p := by
  induction h with
  | nil =>
    intro b2 n2 hg2 _ _ _ _ hid _
    exact ⟨b2, .nil, (Makes.none hg2).of (fun _ h => h.elim) (fun x _ h => by omega), hid⟩
  | @cons lo mid hi c cs h1 h2 hpr _ ih =>
    intro b2 n2 hg2 hn2 hs hp hpn hid hidn
    obtain ⟨b3, hr3, he3, hh3⟩ := ih hg2 hn2 (fun x hx hx' => hs x (by omega) hx') hp (by omega) hid (by omega)
    have hs3 : ∀ x : Nat, lo ≤ x → x < mid → SameAt b1 b3 x := fun x hx hx' =>
      (hs x hx (by omega)).trans (he3.same x (by omega) (by omega) (by omega))
    obtain ⟨b4, hr4, he4, hid4⟩ := hpr.insert b3 _ p (some (mountAll p id cs n2).2.2.2) he3.good
      (by have := he3.le; omega) hs3 (hp.same he3.but) (by omega) (by rintro r ⟨⟩; exact hh3)
    refine ⟨b4, run_append hr3 hr4, ?_, ?_⟩
    · refine (he3.and (own := fun x => lo ≤ x ∧ x < hi) he4 (by intro x; omega) (by intro x; omega) (by intro x; omega)).perm ?_
      simp only [mountAll]
      exact List.perm_append_comm
    · refine (he4.kids _).mpr (Or.inl ?_)
      simp only [topsAll, List.append_nil, mountAll]
      exact id_mem_tops _

theorem works_fragment {σ : S} {vs : List (View S V)} (hb : ∀ v ∈ vs, Works σ v) : Works σ (.fragment vs) := by
  intro b n hg
  obtain ⟨b1, hr1, hle1, hg1, hs1, hp1⟩ := createAllWorks vs hb hg
  generalize hc : createAll σ vs n = c at *
  obtain ⟨b2, hb2, ha⟩ := create_ok hg1 (.comment "list dom node")
  have hs2 : ∀ x : Nat, x < n → SameAt b b2 x := fun x hx => (hs1 x hx).trans (ha.same x (by omega))
  have ecr : create σ (.fragment vs) n = (⟨c.2.2, fun p m => let t := mountAll p c.2.2 c.1 m; (.fragment c.2.2 p t.1, t.2.1, t.2.2.1)⟩,
      c.2.1 ++ [.createComment c.2.2 "list dom node"], c.2.2 + 1) := by simp only [create, hc]
  rw [ecr]
  refine ⟨b2, run_append hr1 (run_one ⟨hb2.1, hb2.2⟩), Nat.le_succ_of_le hle1, ha.good, hs2, hle1, Nat.lt_succ_self _, ?_⟩
  intro b3 n3 p ref hg3 hn3 hs3 hp hpn hr
  have hn3' : c.2.2 + 1 ≤ n3 := hn3
  have hpn' : ¬ (n ≤ p ∧ p < c.2.2 + 1) := hpn
  have hs3' : ∀ x : Nat, n ≤ x → x < c.2.2 + 1 → SameAt b2 b3 x := hs3
  obtain ⟨b4, l, hb4, hi, hl⟩ := put_created hg ha.good hs2 hg3 hs3' hp hpn' hle1
    ha.object ha.inMap ha.parent ref hr
  have hsn := hs3' c.2.2 hle1 (Nat.lt_succ_self _)
  have hk : c.2.2 ∈ b4.children p := by rw [hi.children, hl]; exact Or.inl rfl
  obtain ⟨b5, hb5, he, -⟩ := mountAllWorks (p := p) (id := c.2.2) hp1 (hi.good _ hg3) (by omega)
    (fun x hx hx' => ((ha.same x (by omega)).trans (hs3' x hx (by omega))).trans (hi.same x (by omega) (Nat.ne_of_lt hx')))
    (hp.same hi.but) (by omega) hk (by omega)
  refine ⟨b5, run_cons hb4 hb5, ?_, rfl⟩
  refine Makes.after_insert hi hl ⟨hle1, Nat.lt_succ_self _⟩ ?_
  refine he.marker (c := c.2.2) (s := "list dom node") ?_ ?_ hk (by omega) (by omega) (hi.good _ hg3) ?_ rfl rfl
    (fun h1 h2 h3 => ⟨rfl, h1, h2, h3⟩)
  · rw [hi.inMap, hsn.inMap, ha.inMap]
  · rw [hi.objects, hsn.objects, ha.object]
  · intro x
    show n ≤ x ∧ x < c.2.2 + 1 ↔ _
    have : x < c.2.2 + 1 ↔ x < c.2.2 ∨ x = c.2.2 := by omega
    rw [this]
    constructor
    · rintro ⟨h1, h2 | h2⟩
      · exact Or.inl ⟨h1, h2⟩
      · exact Or.inr h2
    · rintro (h | rfl)
      · exact ⟨h.1, Or.inl h.2⟩
      · exact ⟨hle1, Or.inr rfl⟩

mutual
/-- Every view creates its nodes. -/
theorem works (σ : S) : ∀ (v : View S V), Works σ v
  | .element _ _ vs => works_element (worksAll σ vs)
  | .text value => works_text value
  | .computedText f => works_computedText f
  | .value _ _ render => works_value fun v => works σ (render v)
  | .list _ _ render => works_list fun v => works σ (render v)
  | .fragment vs => works_fragment (worksAll σ vs)
theorem worksAll (σ : S) : ∀ (vs : List (View S V)), ∀ v ∈ vs, Works σ v
  | [], _, h => by cases h
  | v :: vs, w, h => by
      rcases List.mem_cons.mp h with e | h
      · rw [e]; exact works σ v
      · exact worksAll σ vs w h
end

omit [DecidableEq V] in
theorem has_object {b : Browser} {p} {i : Inst S V} (h : Has b p i) : b.inMap i.id = true ∧ ∃ o, b.objects i.id = some o := by
  cases i with
  | element => exact ⟨h.1, _, h.2.1.choose_spec.1⟩
  | text => exact ⟨h.1, _, h.2⟩
  | computedText => exact ⟨h.1, _, h.2⟩
  | value => exact ⟨h.2.1, _, h.2.2.1.choose_spec⟩
  | list => exact ⟨h.2.1, _, h.2.2.1.choose_spec⟩
  | fragment => exact ⟨h.2.1, _, h.2.2.1.choose_spec⟩

omit [DecidableEq V] in
/-- Moving a child among its siblings. -/
theorem Sits.moved {b b' : Browser} {p c : Nat} {l} {is : List (Inst S V)} (h : Sits b p is) (hi : Into b p c l b')
    (hl : ∀ y, y ∈ l ↔ y = c ∨ y ∈ b.children p) : Sits b' p is := by
  refine ⟨HasAll.frame is (fun x hx => ?_) h.has, fun y hy => by rw [hi.children, hl]; exact Or.inr (h.tops y hy), h.nodup, h.ne⟩
  by_cases e : x = c
  · subst e; exact ⟨hi.objects, hi.inMap, hi.below⟩
  · have := hi.same x (fun e => h.ne (e ▸ hx)) e
    exact ⟨this.objects, this.inMap, this.children⟩

/-- A node is mounted again where it stands. -/
def Mounts (σ : S) (i : Inst S V) : Prop :=
  ∀ (p : Nat) b n, Good b n → Usable b p → Sits b p [i] →
    ∃ b', Runs b (remount σ i p n).2.1 b' ∧ Makes b n p (· ∈ ids i) [(remount σ i p n).1] b' (remount σ i p n).2.2 ∧ (remount σ i p n).1.id = i.id

theorem Mounts.again {σ : S} {i : Inst S V} (h : Mounts σ i) (p : Nat) : Again p (insertAgain σ p) i := by
  intro ref b n hg hp hs hr hrn
  obtain ⟨hm, o, ho⟩ := has_object hs.has.1
  have hc : i.id ∈ b.children p := hs.tops _ (by simp only [topsAll, List.append_nil]; exact id_mem_tops i)
  have hpar := (hg.inv.link p _).mp hc
  obtain ⟨b1, l, hb1, hi, hl⟩ := put_ok hg hp ho hm (Or.inr hpar) (fun l hl => child_not_up hpar hl) (some ref)
    (by rintro r ⟨⟩; exact ⟨hr, fun e => hrn (e ▸ id_mem_ids i)⟩)
  obtain ⟨b2, hb2, he, hid⟩ := h p b1 n (hi.good _ hg) (hp.same hi.but) (hs.moved hi hl)
  exact ⟨b2, run_cons hb1 hb2, Makes.after_insert hi hl (id_mem_ids i) he, hid⟩

omit [DecidableEq V] in
/-- What is below a marker stands beside it. -/
theorem Sits.content {b : Browser} {p id} {i : Inst S V} {content : List (Inst S V)} (h : Sits b p [i]) (hh : HasAll b p content)
    (ht : View.tops i = topsAll content ++ [id]) (hi : View.ids i = id :: idsAll content) :
    Sits b p content ∧ id ∈ b.children p ∧ id ∉ idsAll content ∧ id ≠ p := by
  have h1 := h.tops
  have h2 := h.nodup
  have h3 := h.ne
  simp only [topsAll, idsAll, ht, hi, List.append_nil, List.nodup_cons, List.mem_cons, not_or] at h1 h2 h3
  exact ⟨⟨hh, fun y hy => h1 y (by simp [hy]), h2.2, h3.2⟩, h1 id (by simp), h2.1, fun e => h3.1 e.symm⟩

mutual
theorem mounts (σ : S) : ∀ (i : Inst S V), Mounts σ i
  | .element id name attrs children, p, b, n, hg, _, hs => by
      simp only [remount]
      exact ⟨b, .nil, by simpa [idsAll] using Makes.self hg hs, by simp⟩
  | .text id value, p, b, n, hg, _, hs => by
      simp only [remount]
      exact ⟨b, .nil, by simpa [idsAll] using Makes.self hg hs, by simp⟩
  | .computedText id f last, p, b, n, hg, _, hs => by
      simp only [remount]
      exact ⟨b, .nil, by simpa [idsAll] using Makes.self hg hs, by simp⟩
  | .value id p' f shown render last content, p, b, n, hg, hp, hs => by
      obtain ⟨rfl, hm, ⟨cm, ho⟩, hhc⟩ := hs.has.1
      obtain ⟨hsc, hid, hidn, hne⟩ := hs.content hhc rfl rfl
      obtain ⟨b1, hb1, he1⟩ := valueWorks (shown := shown) (v := f σ) (old := []) (fun v => works σ (render v)) hg hp .nil hid
      have hlt : ∀ x : Nat, x ∈ idsAll content → x < n := fun x hx => has_lt hg hhc hx
      obtain ⟨D, hD, hDp⟩ := dropsAll_removes content
      obtain ⟨b2, hb2, he2⟩ := drop_ok he1.good (he1.keeps hsc fun x hx => ⟨hlt x hx, by simp [idsAll]⟩) hD hDp
      have he := he1.and (own := (· ∈ idsAll content)) he2 (by simp [idsAll]) hlt (by simp [idsAll])
      rw [List.append_nil] at he
      simp only [remount]
      refine ⟨b2, run_append hb1 hb2, ?_, rfl⟩
      exact he.marker hm ho hid hne hidn hg (fun x => by simp [ids, or_comm]) rfl rfl (fun h1 h2 h3 => ⟨rfl, h1, h2, h3⟩)
  | .list id p' f key render items content, p, b, n, hg, hp, hs => by
      obtain ⟨rfl, hm, ⟨cm, ho⟩, hhc⟩ := hs.has.1
      obtain ⟨hsc, hid, hidn, hne⟩ := hs.content hhc rfl rfl
      obtain ⟨b1, hb1, he1⟩ := listWorks (key := key) (again := fun _ i m => (i, [], m)) (order := fun x => x) (new := f σ) (cur := []) (id := id)
        (fun v => works σ (render v)) (fun _ => .refl _) hg hp (by simp) .nil hid (by simp [nodes, idsAll])
      have hlt : ∀ x : Nat, x ∈ idsAll content → x < n := fun x hx => has_lt hg hhc hx
      obtain ⟨D, hD, hDp⟩ := dropsAll_removes content
      obtain ⟨b2, hb2, he2⟩ := drop_ok he1.good (he1.keeps hsc fun x hx => ⟨hlt x hx, by simp [nodes, idsAll]⟩) hD hDp
      have he := he1.and (own := (· ∈ idsAll content)) he2 (by simp [nodes, idsAll]) hlt (by simp [nodes, idsAll])
      rw [List.append_nil] at he
      simp only [remount]
      refine ⟨b2, run_append hb1 hb2, ?_, rfl⟩
      exact he.marker hm ho hid hne hidn hg (fun x => by simp [ids, or_comm]) rfl rfl (fun h1 h2 h3 => ⟨rfl, h1, h2, h3⟩)
  | .fragment id p' content, p, b, n, hg, hp, hs => by
      obtain ⟨rfl, hm, ⟨cm, ho⟩, hhc⟩ := hs.has.1
      obtain ⟨hsc, hid, hidn, hne⟩ := hs.content hhc rfl rfl
      obtain ⟨b1, hb1, he1, -, -⟩ := mountsAll σ content p' id b n hg hp hsc hid hidn
      simp only [remount]
      refine ⟨b1, hb1, ?_, rfl⟩
      exact he1.marker hm ho hid hne hidn hg (fun x => by simp [ids, or_comm]) rfl rfl (fun h1 h2 h3 => ⟨rfl, h1, h2, h3⟩)
theorem mountsAll (σ : S) : ∀ (is : List (Inst S V)) (p id : Nat) b n, Good b n → Usable b p → Sits b p is → id ∈ b.children p →
    id ∉ idsAll is →
    ∃ b', Runs b (remountAll σ id is p n).2.1 b' ∧ Makes b n p (· ∈ idsAll is) (remountAll σ id is p n).1 b' (remountAll σ id is p n).2.2.1 ∧
      (remountAll σ id is p n).2.2.2 ∈ b'.children p ∧
      ((remountAll σ id is p n).2.2.2 = id ∨ (remountAll σ id is p n).2.2.2 ∈ idsAll is)
  | [], p, id, b, n, hg, _, hs, hid, _ => by
      simp only [remountAll]
      exact ⟨b, .nil, Makes.self hg hs, hid, by simp⟩
  | i :: is, p, id, b, n, hg, hp, hs, hid, hidn => by
      obtain ⟨hs1, hs2, hd⟩ := Sits.split (is := [i]) (js := is) hs
      have hd' : ∀ x, x ∈ ids i → x ∉ idsAll is := fun x hx => hd x (by simpa [idsAll] using hx)
      simp only [idsAll, List.mem_append, not_or] at hidn
      obtain ⟨b1, hb1, he1, hl1, hl2⟩ := mountsAll σ is p id b n hg hp hs2 hid hidn.2
      have hlt : ∀ x : Nat, x ∈ ids i → x < n := fun x hx => has_lt hg hs1.has (by simpa [idsAll] using hx)
      obtain ⟨b2, hb2, he2, hid2⟩ := (mounts σ i).again p (remountAll σ id is p n).2.2.2 b1 (remountAll σ id is p n).2.2.1 he1.good (hp.same he1.but)
        (he1.keeps hs1 fun x hx => by
          have hx : x ∈ ids i := by simpa [idsAll] using hx
          exact ⟨hlt x hx, hd' x hx⟩) hl1 (fun h => by
          rcases hl2 with e | h'
          · rw [e] at h; exact hidn.1 h
          · exact hd' _ h h')
      have er : remountAll σ id (i :: is) p n =
          ((insertAgain σ p (remountAll σ id is p n).2.2.2 i (remountAll σ id is p n).2.2.1).1 :: (remountAll σ id is p n).1,
            (remountAll σ id is p n).2.1 ++ (insertAgain σ p (remountAll σ id is p n).2.2.2 i (remountAll σ id is p n).2.2.1).2.1,
            (insertAgain σ p (remountAll σ id is p n).2.2.2 i (remountAll σ id is p n).2.2.1).2.2, i.id) := by
        simp only [remountAll, insertAgain]
      rw [er]
      refine ⟨b2, run_append hb1 hb2, ?_, ?_, Or.inr (by simp only [idsAll, List.mem_append]; exact Or.inl (id_mem_ids i))⟩
      · refine (he1.and (own := (· ∈ idsAll (i :: is))) he2 (fun x hx hx' => hd' x hx' hx) hlt (fun x => by simp [idsAll, or_comm])).perm ?_
        exact List.perm_append_comm
      · refine (he2.kids _).mpr (Or.inl ?_)
        rw [← hid2]
        simp only [topsAll, List.append_nil]
        exact id_mem_tops _
end

/-- The subscriptions of attributes, which may be given more than once. -/
theorem runAttrsWork {S : Type} {σ : S} {id nm s} : ∀ (as : List (Attr S)) {b : Browser} {F},
    b.objects id = some (.element nm F) → b.inMap id = true → isRoot id = false →
    ∃ b' G, Runs b (runAttrs σ id s as).2 b' ∧ Changed b id (.element nm G) b'
  | [], b, F, ho, _, _ => ⟨b, F, .nil, ⟨fun _ h => h, fun x _ => .refl b x, ho, rfl, rfl, rfl⟩⟩
  | a :: as, b, F, ho, hm, hr => by
      by_cases hc : s = (id, some a.name) ∧ a.f σ ≠ a.last
      · obtain ⟨b1, hb1, hc1⟩ : ∃ b1, Step b (attrCmd id a.name (a.f σ)) b1 ∧
            Changed b id (.element nm fun x => if x = a.name then a.f σ else F x) b1 := by
          cases e : a.f σ with
          | some w => exact setAttr_ok ho hm hr
          | none => exact removeAttr_ok ho hm hr
        obtain ⟨b2, G, hb2, hc2⟩ := runAttrsWork (σ := σ) (s := s) as hc1.object (by rw [hc1.inMap, hm]) hr
        have er : runAttrs σ id s (a :: as) =
            ({ a with last := a.f σ } :: (runAttrs σ id s as).1, attrCmd id a.name (a.f σ) :: (runAttrs σ id s as).2) := by
          simp [runAttrs, Attr.run, hc]
        rw [er]
        exact ⟨b2, G, run_cons hb1 hb2, ⟨fun n h => hc2.good n (hc1.good n h), fun x hx => (hc1.same x hx).trans (hc2.same x hx),
          hc2.object, by rw [hc2.inMap, hc1.inMap], by rw [hc2.parent, hc1.parent], by rw [hc2.children, hc1.children]⟩⟩
      · obtain ⟨b2, G, hb2, hc2⟩ := runAttrsWork (σ := σ) (s := s) as ho hm hr
        have er : runAttrs σ id s (a :: as) = (a :: (runAttrs σ id s as).1, (runAttrs σ id s as).2) := by
          simp [runAttrs, Attr.run, hc]
        rw [er]
        exact ⟨b2, G, hb2, hc2⟩

theorem runAttrs_map {S : Type} {σ : S} {id s} : ∀ (as : List (Attr S)),
    (runAttrs σ id s as).1.map (fun a => (a.name, a.f)) = as.map (fun a => (a.name, a.f))
  | [] => rfl
  | a :: as => by
      simp only [runAttrs, List.map_cons, runAttrs_map as, List.cons.injEq, and_true]
      simp only [Attr.run]
      split <;> rfl

theorem runAttrs_names {S : Type} {σ : S} {id s} (as : List (Attr S)) :
    (runAttrs σ id s as).1.map (·.name) = as.map (·.name) := by
  have := congrArg (List.map Prod.fst) (runAttrs_map (σ := σ) (id := id) (s := s) as)
  simpa [List.map_map, Function.comp_def] using this

mutual
/-- A subscription is run. -/
theorem run_any {σ : S} {order : List (Inst S V) → List (Inst S V)} (hord : ∀ l, (order l).Perm l) {s : Sub} :
    ∀ (i : Inst S V) {b n} {p : Nat}, Even i → Good b n → Usable b p → Sits b p [i] →
    ∃ b', Runs b (run σ order s i n).2.1 b' ∧ Makes b n p (· ∈ ids i) [(run σ order s i n).1] b' (run σ order s i n).2.2
  | .element id name attrs children, b, n, p, hev, hg, hp, hs => by
      obtain ⟨hm, ⟨F, ho, hF⟩, hch, hhc⟩ := hs.has.1
      have hpi : p ∉ ids (.element id name attrs children) := by simpa [idsAll] using hs.ne
      have hn' : id ∉ idsAll children ∧ (idsAll children).Nodup := by simpa [idsAll, ids] using hs.nodup
      have hidn : id < n := hg.lt ho
      have hid : (id : Nat) ≠ p := fun e => hpi (by simp [ids, e])
      obtain ⟨b1, G, hb1, hc1, hG⟩ : ∃ b1 G, Runs b (runAttrs σ id s attrs).2 b1 ∧ Changed b id (.element name G) b1 ∧
          ((attrs.map (·.name)).Nodup → G = attrFn (runAttrs σ id s attrs).1) := by
        by_cases hna : (attrs.map (·.name)).Nodup
        · obtain ⟨b1, G, hb1, hc1, hG, -, -⟩ := runAttrs_ok (σ := σ) (s := s) attrs hna ho hm (hg.free _ hm) (fun x _ => by rw [hF hna])
          refine ⟨b1, G, hb1, hc1, fun _ => ?_⟩
          funext x
          rw [hG x, hF hna]
          split
          · rfl
          · rename_i hx
            rw [attrFn_none hx]
            exact (attrFn_none (by rw [runAttrs_names]; exact hx)).symm
        · obtain ⟨b1, G, hb1, hc1⟩ := runAttrsWork (σ := σ) (s := s) attrs ho hm (hg.free _ hm)
          exact ⟨b1, G, hb1, hc1, fun h => absurd h hna⟩
      have hsc : Sits b1 id children := by
        refine ⟨HasAll.frame _ (fun x hx => ?_) hhc, fun y hy => by rw [hc1.children]; exact (hch y).mpr hy, hn'.2, hn'.1⟩
        have := hc1.same x (fun e => hn'.1 (e ▸ hx))
        exact ⟨this.objects, this.inMap, this.children⟩
      obtain ⟨b2, hb2, he2⟩ := runAll_any (σ := σ) hord (s := s) children hev (hc1.good _ hg)
        ⟨⟨_, _, hc1.object, Or.inr (by rw [hc1.inMap, hm])⟩, by
          have := hg.free _ hm
          constructor <;> rintro rfl <;> cases this⟩ hsc
      have hsub : ∀ x : Nat, x ∉ ids (.element id name attrs children) → x ≠ id ∧ x ∉ idsAll children := fun x hx => by
        simpa [ids] using hx
      have hsame : ∀ x : Nat, x < n → x ∉ ids (.element id name attrs children) → SameAt b b2 x := fun x hxn hx =>
        (hc1.same x (hsub x hx).1).trans (he2.same x hxn (hsub x hx).2 (hsub x hx).1)
      have hpn := hp.lt hg
      have hkid : id ∈ b.children p := hs.tops id (by simp [topsAll, tops])
      simp only [run]
      refine ⟨b2, run_append hb1 hb2, ⟨he2.good, he2.le, fun x hx hxo _ => hsame x hx hxo, (hsame p hpn hpi).but, fun y => ?_,
        ⟨⟨?_, ⟨G, ?_, ?_⟩, fun y => ?_, he2.has⟩, trivial⟩, ?_, ?_, ?_⟩⟩
      · rw [(hsame p hpn hpi).children]
        simp only [topsAll, tops, List.append_nil, ids, List.mem_cons, List.not_mem_nil, or_false, not_or]
        constructor
        · intro hy
          by_cases e : y = id
          · exact Or.inl e
          · refine Or.inr ⟨hy, e, fun hy' => ?_⟩
            have := hs.child hg hy (by simp [idsAll, ids, hy'])
            simp [topsAll, tops] at this
            exact e this
        · rintro (rfl | h)
          · exact hkid
          · exact h.1
      · rw [he2.but.inMap, hc1.inMap, hm]
      · rw [he2.but.objects, hc1.object]
      · rw [runAttrs_names]; exact hG
      · rw [he2.kids, hc1.children]
        constructor
        · rintro (h | ⟨h1, h2⟩)
          · exact h
          · exact absurd (topsAll_sub _ y ((hch y).mp h1)) h2
        · exact Or.inl
      · simp only [idsAll, ids, List.append_nil, List.nodup_cons]
        exact ⟨he2.ne, he2.nodup⟩
      · intro x hx
        simp only [idsAll, ids, List.append_nil, List.mem_cons] at hx ⊢
        rcases hx with hx | hx
        · exact Or.inl (Or.inl hx)
        · exact (he2.ids x hx).imp Or.inr (fun h => h)
      · simp only [idsAll, ids, List.append_nil, List.mem_cons, not_or]
        refine ⟨fun e => hid e.symm, fun hx => ?_⟩
        rcases he2.ids p hx with h | h
        · exact hpi (List.mem_cons_of_mem _ h)
        · omega
  | .text id value, b, n, p, _, hg, _, hs => by
      simp only [run]
      exact ⟨b, .nil, by simpa [idsAll] using Makes.self hg hs⟩
  | .computedText id f last, b, n, p, _, hg, hp, hs => by
      by_cases hr : s = (id, none) ∧ f σ ≠ last
      · obtain ⟨hm, ho⟩ := hs.has.1
        obtain ⟨b1, hb1, hc1⟩ := updateText_ok (w := f σ) ho hm
        have hpi : p ∉ ids (.computedText id f last : Inst S V) := by simpa [idsAll] using hs.ne
        have hid : (id : Nat) ≠ p := fun e => hpi (by simp [ids, e])
        have hkid : id ∈ b.children p := hs.tops id (by simp [topsAll, tops])
        simp only [run, if_pos hr]
        refine ⟨b1, run_one hb1, ⟨hc1.good _ hg, Nat.le_refl _, fun x _ hx _ => hc1.same x (fun e => hx (by simp [ids, e])),
          (hc1.same p (fun e => hid e.symm)).but, fun y => ?_, ⟨⟨?_, ?_⟩, trivial⟩, by simp [idsAll, ids], ?_, ?_⟩⟩
        · rw [(hc1.same p (fun e => hid e.symm)).children]
          simp only [topsAll, tops, ids, List.append_nil, List.mem_singleton]
          by_cases e : y = id
          · subst e; simp [hkid]
          · simp [e]
        · rw [hc1.inMap, hm]
        · rw [hc1.object]
        · intro x hx; simp [idsAll, ids] at hx; simp [ids, hx]
        · simpa [idsAll, ids] using hpi
      · simp only [run, if_neg hr]
        exact ⟨b, .nil, by simpa [idsAll] using Makes.self hg hs⟩
  | .value id p' f shown render last content, b, n, p, hev, hg, hp, hs => by
      obtain ⟨rfl, hm, ⟨cm, ho⟩, hhc⟩ := hs.has.1
      obtain ⟨hsc, hid, hidn, hne⟩ := hs.content hhc rfl rfl
      by_cases hr : s = (id, none) ∧ f σ ≠ last
      · obtain ⟨b1, hb1, he1⟩ := valueWorks (shown := shown) (v := f σ) (fun v => works σ (render v)) hg hp hsc hid
        simp only [run, if_pos hr]
        exact ⟨b1, hb1, he1.marker hm ho hid hne hidn hg (fun x => by simp [ids, or_comm]) rfl rfl (fun h1 h2 h3 => ⟨rfl, h1, h2, h3⟩)⟩
      · obtain ⟨b1, hb1, he1⟩ := runAll_any (σ := σ) hord (s := s) content hev hg hp hsc
        simp only [run, if_neg hr]
        exact ⟨b1, hb1, he1.marker hm ho hid hne hidn hg (fun x => by simp [ids, or_comm]) rfl rfl (fun h1 h2 h3 => ⟨rfl, h1, h2, h3⟩)⟩
  | .list id p' f key render items content, b, n, p, hev, hg, hp, hs => by
      obtain ⟨rfl, hm, ⟨cm, ho⟩, hhc⟩ := hs.has.1
      obtain ⟨hsc, hid, hidn, hne⟩ := hs.content hhc rfl rfl
      by_cases hr : s = (id, none) ∧ f σ ≠ items
      · have hz : nodes (items.zip content) = content := List.map_snd_zip hev.1
        obtain ⟨b1, hb1, he1⟩ := listWorks (key := key) (again := insertAgain σ p') (order := order) (cur := items.zip content) (new := f σ)
          (id := id) (fun v => works σ (render v)) hord hg hp (fun c _ => (mounts σ c.2).again p') (by rw [hz]; exact hsc) hid (by rw [hz]; exact hidn)
        rw [hz] at he1
        simp only [run, if_pos hr]
        exact ⟨b1, hb1, he1.marker hm ho hid hne hidn hg (fun x => by simp [ids, or_comm]) rfl rfl (fun h1 h2 h3 => ⟨rfl, h1, h2, h3⟩)⟩
      · obtain ⟨b1, hb1, he1⟩ := runAll_any (σ := σ) hord (s := s) content hev.2 hg hp hsc
        simp only [run, if_neg hr]
        exact ⟨b1, hb1, he1.marker hm ho hid hne hidn hg (fun x => by simp [ids, or_comm]) rfl rfl (fun h1 h2 h3 => ⟨rfl, h1, h2, h3⟩)⟩
  | .fragment id p' content, b, n, p, hev, hg, hp, hs => by
      obtain ⟨rfl, hm, ⟨cm, ho⟩, hhc⟩ := hs.has.1
      obtain ⟨hsc, hid, hidn, hne⟩ := hs.content hhc rfl rfl
      obtain ⟨b1, hb1, he1⟩ := runAll_any (σ := σ) hord (s := s) content hev hg hp hsc
      simp only [run]
      exact ⟨b1, hb1, he1.marker hm ho hid hne hidn hg (fun x => by simp [ids, or_comm]) rfl rfl (fun h1 h2 h3 => ⟨rfl, h1, h2, h3⟩)⟩
theorem runAll_any {σ : S} {order : List (Inst S V) → List (Inst S V)} (hord : ∀ l, (order l).Perm l) {s : Sub} :
    ∀ (is : List (Inst S V)) {b n} {p : Nat}, EvenAll is → Good b n → Usable b p → Sits b p is →
    ∃ b', Runs b (runAll σ order s is n).2.1 b' ∧ Makes b n p (· ∈ idsAll is) (runAll σ order s is n).1 b' (runAll σ order s is n).2.2
  | [], b, n, p, _, hg, _, hs => by
      simp only [runAll]
      exact ⟨b, .nil, Makes.self hg hs⟩
  | i :: is, b, n, p, hev, hg, hp, hs => by
      obtain ⟨hs1, hs2, hd⟩ := Sits.split (is := [i]) (js := is) hs
      have hd' : ∀ x, x ∈ ids i → x ∉ idsAll is := fun x hx => hd x (by simpa [idsAll] using hx)
      obtain ⟨b1, hb1, he1⟩ := run_any (σ := σ) hord (s := s) i hev.1 hg hp hs1
      have hlt : ∀ x : Nat, x ∈ idsAll is → x < n := fun x hx => has_lt hg hs2.has hx
      obtain ⟨b2, hb2, he2⟩ := runAll_any (σ := σ) hord (s := s) is hev.2 he1.good (hp.same he1.but)
        (he1.keeps hs2 fun x hx => ⟨hlt x hx, fun h => hd' x h hx⟩)
      simp only [runAll]
      exact ⟨b2, run_append hb1 hb2, he1.and he2 hd' hlt (fun x => by simp [idsAll])⟩
end

end
end Verif.View

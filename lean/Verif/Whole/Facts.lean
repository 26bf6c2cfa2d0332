import Verif.View.Run
/-!
# C70: the subscriptions of a document

`factsAll` lists the subscriptions that the nodes of a document own: the computed (a function of the state) and the value that it was last
called with. The lemmas say what creating a view and running a subscription do to this list.
-/
namespace Verif.Whole
open Verif.View

/-- What the computeds of a view hold: attributes, texts, values, lists. -/
inductive Val (V : Type) where
  | attr (v : Option String)
  | text (v : String)
  | value (v : V)
  | list (v : List V)
  deriving DecidableEq

instance : Inhabited (Val V) := ⟨.text ""⟩

/-- A subscription of a node: its name, its computed, and the value it was last called with. -/
structure Fact (S V : Type) where
  sub : Sub
  f : S → Val V
  last : Val V

mutual
/-- The subscriptions of a node and of everything below it. -/
def facts : Inst S V → List (Fact S V)
  | .element id _ attrs children => (attrs.map fun a => ⟨(id, some a.name), fun σ => .attr (a.f σ), .attr a.last⟩) ++ factsAll children
  | .text _ _ => []
  | .computedText id f last => [⟨(id, none), fun σ => .text (f σ), .text last⟩]
  | .value id _ f _ _ last content => ⟨(id, none), fun σ => .value (f σ), .value last⟩ :: factsAll content
  | .list id _ f _ _ items content => ⟨(id, none), fun σ => .list (f σ), .list items⟩ :: factsAll content
  | .fragment _ _ content => factsAll content
def factsAll : List (Inst S V) → List (Fact S V)
  | [] => []
  | i :: is => facts i ++ factsAll is
end

theorem mem_factsAll {e : Fact S V} : ∀ {is : List (Inst S V)}, e ∈ factsAll is ↔ ∃ i ∈ is, e ∈ facts i
  | [] => by simp [factsAll]
  | i :: is => by simp [factsAll, mem_factsAll (is := is)]

mutual
theorem facts_ids : ∀ (i : Inst S V) {e : Fact S V}, e ∈ facts i → e.sub.1 ∈ ids i
  | .element id _ attrs children, e, he => by
      simp only [facts, List.mem_append, List.mem_map] at he
      rcases he with ⟨a, -, rfl⟩ | he
      · simp [ids]
      · exact List.mem_cons_of_mem _ (factsAll_ids children he)
  | .text .., e, he => by simp [facts] at he
  | .computedText id f last, e, he => by
      simp only [facts, List.mem_singleton] at he; subst he; simp [ids]
  | .value id _ f _ _ last content, e, he => by
      rcases List.mem_cons.mp he with rfl | he
      · simp [ids]
      · exact List.mem_cons_of_mem _ (factsAll_ids content he)
  | .list id _ f _ _ items content, e, he => by
      rcases List.mem_cons.mp he with rfl | he
      · simp [ids]
      · exact List.mem_cons_of_mem _ (factsAll_ids content he)
  | .fragment _ _ content, e, he => List.mem_cons_of_mem _ (factsAll_ids content he)
theorem factsAll_ids : ∀ (is : List (Inst S V)) {e : Fact S V}, e ∈ factsAll is → e.sub.1 ∈ idsAll is
  | [], e, he => by simp [factsAll] at he
  | i :: is, e, he => by
      simp only [factsAll, idsAll, List.mem_append] at he ⊢
      exact he.imp (facts_ids i) (factsAll_ids is)
end

section
variable [DecidableEq V]

mutual
/-- Nothing is due if all were last called with the value in this state. -/
theorem due_none {σ : S} : ∀ (i : Inst S V), (∀ e ∈ facts i, e.f σ = e.last) → due σ i = []
  | .element id _ attrs children, h => by
      simp only [due, List.append_eq_nil_iff, List.map_eq_nil_iff, List.filter_eq_nil_iff]
      refine ⟨fun a ha => ?_, dueAll_none children fun e he => h e (List.mem_append_right _ he)⟩
      have := h ⟨(id, some a.name), fun σ => .attr (a.f σ), .attr a.last⟩ (List.mem_append_left _ (List.mem_map.mpr ⟨a, ha, rfl⟩))
      simpa using this
  | .text .., h => rfl
  | .computedText id f last, h => by
      have := h ⟨(id, none), fun σ => .text (f σ), .text last⟩ (by simp [facts])
      simp only [Val.text.injEq] at this
      simp [due, this]
  | .value id _ f _ _ last content, h => by
      have := h ⟨(id, none), fun σ => .value (f σ), .value last⟩ (by simp [facts])
      simp only [Val.value.injEq] at this
      simp [due, this, dueAll_none content fun e he => h e (List.mem_cons_of_mem _ he)]
  | .list id _ f _ _ items content, h => by
      have := h ⟨(id, none), fun σ => .list (f σ), .list items⟩ (by simp [facts])
      simp only [Val.list.injEq] at this
      simp [due, this, dueAll_none content fun e he => h e (List.mem_cons_of_mem _ he)]
  | .fragment _ _ content, h => dueAll_none content h
theorem dueAll_none {σ : S} : ∀ (is : List (Inst S V)), (∀ e ∈ factsAll is, e.f σ = e.last) → dueAll σ is = []
  | [], _ => rfl
  | i :: is, h => by
      simp only [dueAll, due_none i fun e he => h e (List.mem_append_left _ he), dueAll_none is fun e he => h e (List.mem_append_right _ he),
        List.append_nil]
end

/-- What was made new: its ids begin at `lo`, and all its subscriptions were called with the value in the state `σ`. -/
def New (σ : S) (lo : Nat) (fs : List (Fact S V)) : Prop := ∀ e ∈ fs, e.f σ = e.last ∧ lo ≤ e.sub.1

omit [DecidableEq V] in
theorem New.mono {σ : S} {lo lo' : Nat} {fs : List (Fact S V)} (h : New σ lo' fs) (hl : lo ≤ lo') : New σ lo fs :=
  fun e he => ⟨(h e he).1, Nat.le_trans hl (h e he).2⟩

omit [DecidableEq V] in
theorem New.append {σ : S} {lo : Nat} {fs gs : List (Fact S V)} (h : New σ lo fs) (h' : New σ lo gs) : New σ lo (fs ++ gs) :=
  fun e he => (List.mem_append.mp he).elim (h e) (h' e)

/-- A node that was created between `n` and `c.2.2` and can be inserted later. -/
def FreshNew (σ : S) (n : Nat) (c : Created S V × List Verif.Dom.Cmd × Nat) : Prop :=
  n ≤ c.2.2 ∧ ∀ p m, c.2.2 ≤ m → New σ n (facts (c.1.mount p m).1) ∧ m ≤ (c.1.mount p m).2.2

/-- A node that was rendered. -/
def FreshAt (σ : S) (n : Nat) (r : Inst S V × List Verif.Dom.Cmd × Nat) : Prop := New σ n (facts r.1) ∧ n ≤ r.2.2

omit [DecidableEq V] in
theorem FreshNew.insert {σ : S} {n : Nat} {c : Created S V × List Verif.Dom.Cmd × Nat} (h : FreshNew σ n c) (p ref) :
    FreshAt σ n ((c.1.insert p ref c.2.2).1, c.2.1 ++ (c.1.insert p ref c.2.2).2.1, (c.1.insert p ref c.2.2).2.2) := by
  obtain ⟨h1, h2⟩ := h.2 p c.2.2 (Nat.le_refl _)
  exact ⟨h1, Nat.le_trans h.1 h2⟩

omit [DecidableEq V] in
theorem onValue_new {σ : S} {create : V → Nat → Created S V × List Verif.Dom.Cmd × Nat} (hc : ∀ v n, FreshNew σ n (create v n)) (id parent : Verif.Dom.Id)
    (shown : V → Bool) (v : V) (old : List (Inst S V)) (n : Nat) :
    New σ n (factsAll (onValue create id parent shown v old n).1) ∧ n ≤ (onValue create id parent shown v old n).2.2 := by
  simp only [onValue]
  split
  · have := (hc v n).insert parent (some id)
    exact ⟨by simpa [factsAll] using this.1, this.2⟩
  · exact ⟨fun e he => by simp [factsAll] at he, Nat.le_refl _⟩

theorem pop_mem {key : V → V} {k : V} : ∀ {cache : List (V × Inst S V)} {i : Inst S V} {rest : List (V × Inst S V)},
    pop key k cache = some (i, rest) → (∃ v, (v, i) ∈ cache) ∧ ∀ c ∈ rest, c ∈ cache
  | [], i, rest, h => by simp [pop] at h
  | (w, j) :: cache, i, rest, h => by
      simp only [pop] at h
      split at h
      · cases h; exact ⟨⟨w, by simp⟩, fun c hc => List.mem_cons_of_mem _ hc⟩
      · split at h
        · cases h
        · rename_i j' cache' h'
          cases h
          obtain ⟨⟨v, h1⟩, h2⟩ := pop_mem h'
          refine ⟨⟨v, List.mem_cons_of_mem _ h1⟩, fun c hc => ?_⟩
          rcases List.mem_cons.mp hc with rfl | hc
          · simp
          · exact List.mem_cons_of_mem _ (h2 c hc)

/-- Each node of the list is one of the old list, or is new. -/
theorem place_new {σ : S} {key : V → V} {fresh : Verif.Dom.Id → V → Nat → Inst S V × List Verif.Dom.Cmd × Nat}
    {again : Verif.Dom.Id → Inst S V → Nat → Inst S V × List Verif.Dom.Cmd × Nat} (hf : ∀ ref v n, FreshAt σ n (fresh ref v n)) :
    ∀ (vs : List V) (cache : List (V × Inst S V)) (ref : Verif.Dom.Id) (n : Nat),
    (∀ c ∈ cache, ∀ ref n, (again ref c.2 n).1 = c.2 ∧ (again ref c.2 n).2.2 = n) →
    let m := place key fresh again vs cache ref n
    m.pairs.map (·.1) = vs.reverse ∧ n ≤ m.next ∧ ∀ c ∈ m.pairs, (∃ d ∈ cache, d.2 = c.2) ∨ New σ n (facts c.2)
  | [], cache, ref, n, _ => ⟨rfl, Nat.le_refl _, fun c hc => by simp [place] at hc⟩
  | v :: vs, cache, ref, n, ha => by
      simp only [place]
      split
      · rename_i i cache' hp
        obtain ⟨⟨w, hw⟩, hsub⟩ := pop_mem hp
        obtain ⟨a1, a2⟩ := ha _ hw ref n
        simp only at a1 a2
        obtain ⟨h1, h2, h3⟩ := place_new (key := key) hf vs cache' (again ref i n).1.id (again ref i n).2.2 fun c hc => ha c (hsub c hc)
        rw [a2] at h2 h3
        refine ⟨by simp only [List.map_append, h1]; simp, by rw [a2]; exact h2, fun c hc => ?_⟩
        simp only [List.mem_append, List.mem_singleton] at hc
        rcases hc with hc | rfl
        · rw [a2] at hc
          exact (h3 c hc).imp (fun ⟨d, hd, e⟩ => ⟨d, hsub d hd, e⟩) id
        · exact Or.inl ⟨_, hw, a1.symm⟩
      · obtain ⟨f1, f2⟩ := hf ref v n
        obtain ⟨h1, h2, h3⟩ := place_new (key := key) hf vs cache (fresh ref v n).1.id (fresh ref v n).2.2 ha
        refine ⟨by simp only [List.map_append, h1]; simp, Nat.le_trans f2 h2, fun c hc => ?_⟩
        simp only [List.mem_append, List.mem_singleton] at hc
        rcases hc with hc | rfl
        · exact (h3 c hc).imp id (·.mono f2)
        · exact Or.inr f1

theorem onList_new {σ : S} {key : V → V} {fresh : Verif.Dom.Id → V → Nat → Inst S V × List Verif.Dom.Cmd × Nat}
    {again : Verif.Dom.Id → Inst S V → Nat → Inst S V × List Verif.Dom.Cmd × Nat} (hf : ∀ ref v n, FreshAt σ n (fresh ref v n))
    (order : List (Inst S V) → List (Inst S V)) (id : Verif.Dom.Id) (cur : List (V × Inst S V)) (new : List V) (n : Nat)
    (ha : ∀ c ∈ cur, ∀ ref n, (again ref c.2 n).1 = c.2 ∧ (again ref c.2 n).2.2 = n) :
    let r := onList key fresh again order id cur new n
    r.1.map (·.1) = new ∧ n ≤ r.2.2 ∧ ∀ c ∈ r.1, (∃ d ∈ cur, d.2 = c.2) ∨ New σ n (facts c.2) := by
  obtain ⟨t1, t2⟩ := pairsTop_eq cur new
  obtain ⟨b1, b2⟩ := pairsBottom_eq (pairsTop cur new).2.1 (pairsTop cur new).2.2
  simp only [onList]
  have hsub1 : ∀ c ∈ (pairsTop cur new).1, c ∈ cur := fun c hc => by rw [t1]; exact List.mem_append_left _ hc
  have hsub2 : ∀ c ∈ (pairsTop cur new).2.1, c ∈ cur := fun c hc => by rw [t1]; exact List.mem_append_right _ hc
  generalize (pairsTop cur new).1 = T at *
  generalize (pairsTop cur new).2.1 = C1 at *
  generalize (pairsTop cur new).2.2 = new1 at *
  have hsub3 : ∀ c ∈ (pairsBottom C1 new1).1, c ∈ cur := fun c hc => hsub2 c (by rw [b1]; exact List.mem_append_right _ hc)
  have hsub4 : ∀ c ∈ (pairsBottom C1 new1).2.1, c ∈ cur := fun c hc => hsub2 c (by rw [b1]; exact List.mem_append_left _ hc)
  generalize (pairsBottom C1 new1).1 = B at *
  generalize (pairsBottom C1 new1).2.1 = C at *
  generalize (pairsBottom C1 new1).2.2 = mid at *
  obtain ⟨h1, h2, h3⟩ := place_new (key := key) (again := again) hf mid.reverse C ((B.head?.map (·.2.id)).getD id) n fun c hc => ha c (hsub4 c hc)
  refine ⟨?_, h2, ?_⟩
  · rw [t2, b2]; simp only [List.map_append, h1]; simp
  · intro c hc
    simp only [List.mem_append] at hc
    rcases hc with (hc | hc) | hc
    · exact Or.inl ⟨c, hsub1 c hc, rfl⟩
    · exact (h3 c hc).imp (fun ⟨d, hd, e⟩ => ⟨d, hsub4 d hd, e⟩) fun h => h
    · exact Or.inl ⟨c, hsub3 c hc, rfl⟩

omit [DecidableEq V] in
theorem mountAll_new {σ : S} {n hi : Nat} (parent id : Verif.Dom.Id) : ∀ (cs : List (Created S V)) (m : Nat), hi ≤ m →
    (∀ c ∈ cs, ∀ p m, hi ≤ m → New σ n (facts (c.mount p m).1) ∧ m ≤ (c.mount p m).2.2) →
    New σ n (factsAll (mountAll parent id cs m).1) ∧ m ≤ (mountAll parent id cs m).2.2.1
  | [], m, _, _ => ⟨fun e he => by simp [mountAll, factsAll] at he, Nat.le_refl _⟩
  | c :: cs, m, hm, hc => by
      obtain ⟨h1, h2⟩ := mountAll_new parent id cs m hm fun d hd => hc d (List.mem_cons_of_mem _ hd)
      obtain ⟨h3, h4⟩ := hc c (by simp) parent (mountAll parent id cs m).2.2.1 (Nat.le_trans hm h2)
      exact ⟨h3.append h1, Nat.le_trans h2 h4⟩

mutual
theorem create_new (σ : S) : ∀ (v : View S V) (n : Nat), FreshNew σ n (create σ v n)
  | .element name attrs children, n => by
      obtain ⟨h1, h2⟩ := createChildren_new σ n children (n + 1)
      refine ⟨Nat.le_of_succ_le h2, fun p m hm => ⟨?_, Nat.le_refl _⟩⟩
      refine New.append (fun e he => ?_) (h1.mono (Nat.le_succ n))
      simp only [List.map_map, List.mem_map] at he
      obtain ⟨a, -, rfl⟩ := he
      exact ⟨rfl, Nat.le_refl _⟩
  | .text value, n => ⟨Nat.le_succ n, fun p m hm => ⟨fun e he => by simp [create, facts] at he, Nat.le_refl _⟩⟩
  | .computedText f, n => ⟨Nat.le_succ n, fun p m hm => ⟨fun e he => by
      simp only [create, facts, List.mem_singleton] at he; subst he; exact ⟨rfl, Nat.le_refl _⟩, Nat.le_refl _⟩⟩
  | .value f shown render, n => by
      refine ⟨Nat.le_succ n, fun p m hm => ?_⟩
      obtain ⟨h1, h2⟩ := onValue_new (σ := σ) (create := fun v m => create σ (render v) m) (fun v k => create_new σ (render v) k) n p shown (f σ) [] m
      refine ⟨fun e he => ?_, h2⟩
      rcases List.mem_cons.mp he with rfl | he
      · exact ⟨rfl, Nat.le_refl _⟩
      · exact h1.mono (Nat.le_of_succ_le hm) e he
  | .list f key render, n => by
      refine ⟨Nat.le_succ n, fun p m hm => ?_⟩
      obtain ⟨h1, h2, h3⟩ := onList_new (σ := σ) (key := key) (fresh := fun ref v m =>
            let c := create σ (render v) m
            let i := c.1.insert p (some ref) c.2.2
            (i.1, c.2.1 ++ i.2.1, i.2.2)) (again := fun _ i m => (i, [], m))
        (fun ref v k => (create_new σ (render v) k).insert p (some ref)) (fun x => x) n [] (f σ) m (by simp)
      refine ⟨fun e he => ?_, h2⟩
      rcases List.mem_cons.mp he with rfl | he
      · exact ⟨congrArg Val.list h1.symm, Nat.le_refl _⟩
      · obtain ⟨i, hi, he⟩ := mem_factsAll.mp he
        obtain ⟨c, hc, rfl⟩ := List.mem_map.mp hi
        rcases h3 c hc with ⟨d, hd, -⟩ | h
        · cases hd
        · exact h.mono (Nat.le_of_succ_le hm) e he
  | .fragment nodes, n => by
      obtain ⟨h1, h2⟩ := createAll_new σ nodes n
      refine ⟨Nat.le_succ_of_le h1, fun p m hm => ?_⟩
      exact mountAll_new p (createAll σ nodes n).2.2 (createAll σ nodes n).1 m (Nat.le_of_succ_le hm) h2
theorem createChildren_new (σ : S) (parent : Verif.Dom.Id) : ∀ (vs : List (View S V)) (n : Nat),
    New σ n (factsAll (createChildren σ parent vs n).1) ∧ n ≤ (createChildren σ parent vs n).2.2
  | [], n => ⟨fun e he => by simp [createChildren, factsAll] at he, Nat.le_refl _⟩
  | v :: vs, n => by
      obtain ⟨h1, h2⟩ := (create_new σ v n).insert parent none
      obtain ⟨h3, h4⟩ := createChildren_new σ parent vs ((create σ v n).1.insert parent none (create σ v n).2.2).2.2
      exact ⟨h1.append (h3.mono h2), Nat.le_trans h2 h4⟩
theorem createAll_new (σ : S) : ∀ (vs : List (View S V)) (n : Nat), n ≤ (createAll σ vs n).2.2 ∧
    ∀ c ∈ (createAll σ vs n).1, ∀ p m, (createAll σ vs n).2.2 ≤ m → New σ n (facts (c.mount p m).1) ∧ m ≤ (c.mount p m).2.2
  | [], n => ⟨Nat.le_refl _, fun c hc => by simp [createAll] at hc⟩
  | v :: vs, n => by
      obtain ⟨h1, h2⟩ := create_new σ v n
      obtain ⟨h3, h4⟩ := createAll_new σ vs (create σ v n).2.2
      refine ⟨Nat.le_trans h1 h3, fun c hc p m hm => ?_⟩
      rcases List.mem_cons.mp hc with rfl | hc
      · exact h2 p m (Nat.le_trans h3 hm)
      · exact ⟨(h4 c hc p m hm).1.mono h1, (h4 c hc p m hm).2⟩
end

/-- What running the subscription `s` leaves: subscriptions that were there before, those of the name `s` with the value in the state `σ`, and new ones. -/
def Next (σ : S) (s : Sub) (n : Nat) (old new : List (Fact S V)) : Prop :=
  ∀ e ∈ new, (e ∈ old ∧ e.sub ≠ s) ∨ (e.sub = s ∧ e.f σ = e.last ∧ ∃ e0 ∈ old, e0.sub = s ∧ e0.f = e.f) ∨ (e.f σ = e.last ∧ n ≤ e.sub.1)

omit [DecidableEq V] in
theorem Next.mono {σ : S} {s n n'} {old old' new : List (Fact S V)} (h : Next σ s n' old new) (hn : n ≤ n') (ho : ∀ e ∈ old, e ∈ old') :
    Next σ s n old' new := fun e he => by
  rcases h e he with ⟨h1, h2⟩ | ⟨h1, h2, e0, h3, h4⟩ | ⟨h1, h2⟩
  · exact Or.inl ⟨ho e h1, h2⟩
  · exact Or.inr (Or.inl ⟨h1, h2, e0, ho e0 h3, h4⟩)
  · exact Or.inr (Or.inr ⟨h1, Nat.le_trans hn h2⟩)

omit [DecidableEq V] in
theorem Next.append {σ : S} {s n} {old new new' : List (Fact S V)} (h : Next σ s n old new) (h' : Next σ s n old new') : Next σ s n old (new ++ new') :=
  fun e he => (List.mem_append.mp he).elim (h e) (h' e)

omit [DecidableEq V] in
/-- A subscription that stays as it is. -/
theorem Next.same {σ : S} {s n} {old : List (Fact S V)} {e : Fact S V} (he : e ∈ old) (h : e.sub = s → e.f σ = e.last) :
    Next σ s n old [e] := fun e' he' => by
  rw [List.mem_singleton.mp he']
  by_cases hs : e.sub = s
  · exact Or.inr (Or.inl ⟨hs, h hs, e, he, hs, rfl⟩)
  · exact Or.inl ⟨he, hs⟩

omit [DecidableEq V] in
theorem runAttrs_next {σ : S} {id s n} : ∀ (as : List (Attr S)),
    Next (V := V) σ s n (as.map fun a => ⟨(id, some a.name), fun σ => .attr (a.f σ), .attr a.last⟩)
      ((runAttrs σ id s as).1.map fun a => ⟨(id, some a.name), fun σ => .attr (a.f σ), .attr a.last⟩)
  | [] => fun e he => by simp [runAttrs] at he
  | a :: as => by
      refine Next.append (new := [_]) ?_ ((runAttrs_next as).mono (Nat.le_refl n) fun e he => List.mem_cons_of_mem _ he)
      simp only [Attr.run]
      split
      · rename_i h
        intro e he
        rw [List.mem_singleton.mp he]
        exact Or.inr (Or.inl ⟨h.1.symm, rfl, _, List.mem_cons_self, h.1.symm, rfl⟩)
      · rename_i h
        refine Next.same (by simp) fun e => congrArg Val.attr ?_
        exact Decidable.byContradiction fun h' => h ⟨e.symm, h'⟩

omit [DecidableEq V] in
theorem fits_zip {render : V → View S V} : ∀ {items : List V} {content : List (Inst S V)}, FitsAll (items.map render) content →
    ∀ c ∈ items.zip content, Fits (render c.1) c.2
  | [], _, _, c, hc => by simp at hc
  | _ :: _, [], _, c, hc => by simp at hc
  | w :: items, j :: content, hf, c, hc => by
      rcases List.mem_cons.mp hc with rfl | hc
      · exact hf.1
      · exact fits_zip hf.2 c hc

mutual
theorem run_next {σ : S} {order : List (Inst S V) → List (Inst S V)} {s : Sub} :
    ∀ (i : Inst S V) {v : View S V} (n : Nat), v.Fine → Fits v i → (ids i).Nodup →
    Next σ s n (facts i) (facts (run σ order s i n).1) ∧ n ≤ (run σ order s i n).2.2
  | .element id name attrs children, v, n, hv, hf, hn => by
      cases v with
      | element nm as vs =>
        cases hv with
        | element _ hna hvs =>
        obtain ⟨rfl, rfl, hf⟩ := hf
        obtain ⟨h1, h2⟩ := runAll_next (σ := σ) (order := order) (s := s) children n hvs hf (List.nodup_cons.mp hn).2
        exact ⟨((runAttrs_next attrs).mono (Nat.le_refl n) fun e he => List.mem_append_left _ he).append
          (h1.mono (Nat.le_refl n) fun e he => List.mem_append_right _ he), h2⟩
      | _ => exact hf.elim
  | .text id value, v, n, hv, hf, hn => ⟨fun e he => by simp [run, facts] at he, by simp [run]⟩
  | .computedText id f last, v, n, hv, hf, hn => by
      simp only [run]
      split
      · rename_i h
        refine ⟨fun e he => ?_, Nat.le_refl n⟩
        rw [List.mem_singleton.mp he]
        exact Or.inr (Or.inl ⟨h.1.symm, rfl, _, List.mem_cons_self, h.1.symm, rfl⟩)
      · rename_i h
        refine ⟨Next.same (by simp [facts]) fun e => congrArg Val.text ?_, Nat.le_refl n⟩
        exact Decidable.byContradiction fun h' => h ⟨e.symm, h'⟩
  | .value id p' f shown render last content, v, n, hv, hf, hn => by
      cases v with
      | value f' shown' render' =>
        cases hv with
        | value hvr =>
        obtain ⟨rfl, rfl, rfl, hf⟩ := hf
        simp only [run]
        split
        · rename_i h
          obtain ⟨h1, h2⟩ := onValue_new (σ := σ) (create := fun v m => create σ (render v) m) (fun v k => create_new σ (render v) k) id p' shown (f σ) content n
          refine ⟨fun e he => ?_, h2⟩
          rcases List.mem_cons.mp he with rfl | he
          · exact Or.inr (Or.inl ⟨h.1.symm, rfl, _, List.mem_cons_self, h.1.symm, rfl⟩)
          · exact Or.inr (Or.inr (h1 e he))
        · rename_i h
          obtain ⟨h1, h2⟩ := runAll_next (σ := σ) (order := order) (s := s) content n (by
            intro w hw; split at hw
            · simp at hw; rw [hw]; exact hvr _
            · cases hw) hf (List.nodup_cons.mp hn).2
          refine ⟨Next.append (new := [_]) (Next.same (by simp [facts]) fun e => congrArg Val.value ?_)
            (h1.mono (Nat.le_refl n) fun e he => List.mem_cons_of_mem _ he), h2⟩
          exact Decidable.byContradiction fun h' => h ⟨e.symm, h'⟩
      | _ => exact hf.elim
  | .list id p' f key render items content, v, n, hv, hf, hn => by
      cases v with
      | list f' key' render' =>
        cases hv with
        | list hvr hpl hk =>
        obtain ⟨rfl, rfl, rfl, hf⟩ := hf
        simp only [run]
        split
        · rename_i h
          obtain ⟨h1, h2, h3⟩ := onList_new (σ := σ) (key := key) (fresh := createBefore σ render p') (again := insertAgain σ p')
            (fun ref v k => (create_new σ (render v) k).insert p' (some ref)) order id (items.zip content) (f σ) n (by
              intro c hc ref m
              simp only [insertAgain, remount_plain (fits_zip hf c hc) (hpl _), and_self])
          refine ⟨fun e he => ?_, h2⟩
          rcases List.mem_cons.mp he with rfl | he
          · exact Or.inr (Or.inl ⟨h.1.symm, congrArg Val.list h1.symm, _, List.mem_cons_self, h.1.symm, rfl⟩)
          · obtain ⟨i, hi, he⟩ := mem_factsAll.mp he
            obtain ⟨c, hc, rfl⟩ := List.mem_map.mp hi
            rcases h3 c hc with ⟨d, hd, e1⟩ | h4
            · have he' : e ∈ factsAll content := mem_factsAll.mpr ⟨d.2, (List.of_mem_zip hd).2, by rw [e1]; exact he⟩
              refine Or.inl ⟨List.mem_cons_of_mem _ he', fun e2 => ?_⟩
              have := factsAll_ids content he'
              rw [e2, h.1] at this
              exact (List.nodup_cons.mp hn).1 this
            · exact Or.inr (Or.inr (h4 e he))
        · rename_i h
          obtain ⟨h1, h2⟩ := runAll_next (σ := σ) (order := order) (s := s) content n (by
            intro w hw; obtain ⟨x, -, rfl⟩ := List.mem_map.mp hw; exact hvr x) hf (List.nodup_cons.mp hn).2
          refine ⟨Next.append (new := [_]) (Next.same (by simp [facts]) fun e => congrArg Val.list ?_)
            (h1.mono (Nat.le_refl n) fun e he => List.mem_cons_of_mem _ he), h2⟩
          exact Decidable.byContradiction fun h' => h ⟨e.symm, h'⟩
      | _ => exact hf.elim
  | .fragment id p' content, v, n, hv, hf, hn => by
      cases v with
      | fragment vs =>
        cases hv with
        | fragment hvs hpl => exact runAll_next content n hvs hf (List.nodup_cons.mp hn).2
      | _ => exact hf.elim
theorem runAll_next {σ : S} {order : List (Inst S V) → List (Inst S V)} {s : Sub} :
    ∀ (is : List (Inst S V)) {vs : List (View S V)} (n : Nat), (∀ v ∈ vs, v.Fine) → FitsAll vs is → (idsAll is).Nodup →
    Next σ s n (factsAll is) (factsAll (runAll σ order s is n).1) ∧ n ≤ (runAll σ order s is n).2.2
  | [], [], n, _, _, _ => ⟨fun e he => by simp [runAll, factsAll] at he, by simp [runAll]⟩
  | [], _ :: _, _, _, hf, _ => hf.elim
  | _ :: _, [], _, _, hf, _ => hf.elim
  | i :: is, v :: vs, n, hv, hf, hn => by
      obtain ⟨hn1, hn2, -⟩ := List.nodup_append.mp hn
      obtain ⟨h1, h2⟩ := run_next (σ := σ) (order := order) (s := s) i n (hv v (by simp)) hf.1 hn1
      obtain ⟨h3, h4⟩ := runAll_next (σ := σ) (order := order) (s := s) is (run σ order s i n).2.2 (fun w hw => hv w (List.mem_cons_of_mem _ hw)) hf.2 hn2
      exact ⟨(h1.mono (Nat.le_refl n) fun e he => List.mem_append_left _ he).append (h3.mono h2 fun e he => List.mem_append_right _ he),
        Nat.le_trans h2 h4⟩
end

end
end Verif.Whole

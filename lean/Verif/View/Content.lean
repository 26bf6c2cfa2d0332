import Verif.View.Renew
/-!
# C49 and C66 for views in any order

For every view, whatever is in its lists and fragments: the browser executes all commands without an error, and has exactly the nodes
that are in the document (C66). If moreover attributes are given once and items with the same key look the same, the document has what
the view stands for, with the nodes below an element in some order (C49).
-/
namespace Verif.View
open Verif.Dom

/-! ## The specification -/

/-- Views without the elements html, head and body, which have fixed ids. -/
inductive View.Inner : View S V → Prop where
  | element {name : String} {attrs : List (String × (S → Option String))} {children : List (View S V)} : name ∉ ["html", "head", "body"] →
      (∀ c ∈ children, View.Inner c) → View.Inner (.element name attrs children)
  | text {value} : View.Inner (.text value)
  | computedText {f} : View.Inner (.computedText f)
  | value {f : S → V} {shown : V → Bool} {render : V → View S V} : (∀ v, View.Inner (render v)) → View.Inner (.value f shown render)
  | list {f : S → List V} {key : V → V} {render : V → View S V} : (∀ v, View.Inner (render v)) → View.Inner (.list f key render)
  | fragment {nodes : List (View S V)} : (∀ c ∈ nodes, View.Inner c) → View.Inner (.fragment nodes)

/-- In addition, attributes are given once, there is no `class`, and items with the same key look the same. -/
inductive View.Keyed : View S V → Prop where
  | element {name : String} {attrs : List (String × (S → Option String))} {children : List (View S V)} : name ∉ ["html", "head", "body"] →
      (attrs.map (·.1)).Nodup → "class" ∉ attrs.map (·.1) → (∀ c ∈ children, View.Keyed c) → View.Keyed (.element name attrs children)
  | text {value} : View.Keyed (.text value)
  | computedText {f} : View.Keyed (.computedText f)
  | value {f : S → V} {shown : V → Bool} {render : V → View S V} : (∀ v, View.Keyed (render v)) → View.Keyed (.value f shown render)
  | list {f : S → List V} {key : V → V} {render : V → View S V} : (∀ v, View.Keyed (render v)) →
      (∀ v w, key v = key w → render v = render w) → View.Keyed (.list f key render)
  | fragment {nodes : List (View S V)} : (∀ c ∈ nodes, View.Keyed c) → View.Keyed (.fragment nodes)

/-- All views whose attributes are given once, in which items with the same key look the same, with classes: lists and fragments of anything. -/
inductive View.Loose : View S V → Prop where
  | element {name : String} {attrs : List (String × (S → Option String))} {children : List (View S V)} : name ∉ ["html", "head", "body"] →
      (attrs.map (·.1)).Nodup → (∀ c ∈ children, View.Loose c) → View.Loose (.element name attrs children)
  | text {value} : View.Loose (.text value)
  | computedText {f} : View.Loose (.computedText f)
  | value {f : S → V} {shown : V → Bool} {render : V → View S V} : (∀ v, View.Loose (render v)) → View.Loose (.value f shown render)
  | list {f : S → List V} {key : V → V} {render : V → View S V} : (∀ v, View.Loose (render v)) →
      (∀ v w, key v = key w → render v = render w) → View.Loose (.list f key render)
  | fragment {nodes : List (View S V)} : (∀ c ∈ nodes, View.Loose c) → View.Loose (.fragment nodes)

theorem View.Keyed.loose {v : View S V} (h : v.Keyed) : v.Loose := by
  induction h with
  | element h1 h2 _ _ ih => exact .element h1 h2 ih
  | text => exact .text
  | computedText => exact .computedText
  | value _ ih => exact .value ih
  | list _ h ih => exact .list ih h
  | fragment _ ih => exact .fragment ih

/-- The nodes `xs` of the page, with everything below them, are the document `hs`, where the nodes below an element may stand in another
order. -/
inductive ShowsSome (b : Browser) : List Id → List Html → Prop where
  | nil : ShowsSome b [] []
  | text {x xs s hs} : b.objects x = some (.text s) → ShowsSome b xs hs → ShowsSome b (x :: xs) (.text s :: hs)
  | comment {x xs s hs} : b.objects x = some (.comment s) → ShowsSome b xs hs → ShowsSome b (x :: xs) hs
  | element {x xs ys name attr cs hs} : b.objects x = some (.element name attr) → (b.children x).Perm ys → ShowsSome b ys cs →
      ShowsSome b xs hs → ShowsSome b (x :: xs) (.element name attr cs :: hs)

/-! ## What is created -/

theorem evenAll_iff : ∀ (is : List (Inst S V)), EvenAll is ↔ ∀ i ∈ is, Even i
  | [] => by simp [EvenAll]
  | i :: is => by simp [EvenAll, evenAll_iff is]

section
variable [DecidableEq V]

/-- A property of the pairs of an item and its node that the callback of a list keeps. -/
theorem place_all {key : V → V} {fresh : Id → V → Nat → Inst S V × List Cmd × Nat} {again : Id → Inst S V → Nat → Inst S V × List Cmd × Nat}
    {P : V → Inst S V → Prop} (hf : ∀ ref v n, P v (fresh ref v n).1) (ha : ∀ ref w i v n, P w i → key w = key v → P v (again ref i n).1) :
    ∀ (vs : List V) (cache : List (V × Inst S V)) (ref : Id) (n : Nat), (∀ c ∈ cache, P c.1 c.2) →
    (∀ c ∈ (place key fresh again vs cache ref n).pairs, P c.1 c.2) ∧ (place key fresh again vs cache ref n).pairs.map (·.1) = vs.reverse
  | [], _, _, _, _ => by simp [place]
  | v :: vs, cache, ref, n, hc => by
      cases e : pop key (key v) cache with
      | some q =>
        obtain ⟨i, cache'⟩ := q
        obtain ⟨A, w, B, rfl, rfl, hk⟩ := pop_some e
        obtain ⟨h1, h2⟩ := place_all hf ha vs (A ++ B) (again ref i n).1.id (again ref i n).2.2 (fun c hm => hc c (by
          rcases List.mem_append.mp hm with hm | hm <;> simp [hm]))
        simp only [place, e]
        refine ⟨fun c hm => ?_, by simp [h2]⟩
        rcases List.mem_append.mp hm with hm | hm
        · exact h1 c hm
        · rw [List.mem_singleton.mp hm]; exact ha ref w i v n (hc (w, i) (by simp)) hk
      | none =>
        obtain ⟨h1, h2⟩ := place_all hf ha vs cache (fresh ref v n).1.id (fresh ref v n).2.2 hc
        simp only [place, e]
        refine ⟨fun c hm => ?_, by simp [h2]⟩
        rcases List.mem_append.mp hm with hm | hm
        · exact h1 c hm
        · rw [List.mem_singleton.mp hm]; exact hf ref v n

theorem onList_all {key : V → V} {fresh : Id → V → Nat → Inst S V × List Cmd × Nat} {again : Id → Inst S V → Nat → Inst S V × List Cmd × Nat}
    {P : V → Inst S V → Prop} (hf : ∀ ref v n, P v (fresh ref v n).1) (ha : ∀ ref w i v n, P w i → key w = key v → P v (again ref i n).1)
    (order : List (Inst S V) → List (Inst S V)) (id : Id) (cur : List (V × Inst S V)) (new : List V) (n : Nat) (hc : ∀ c ∈ cur, P c.1 c.2) :
    (∀ c ∈ (onList key fresh again order id cur new n).1, P c.1 c.2) ∧ (onList key fresh again order id cur new n).1.map (·.1) = new := by
  obtain ⟨e1, e3⟩ := pairsTop_eq cur new
  obtain ⟨e2, e4⟩ := pairsBottom_eq (pairsTop cur new).2.1 (pairsTop cur new).2.2
  simp only [onList]
  have hmem : ∀ c, c ∈ (pairsTop cur new).1 ∨ c ∈ (pairsBottom (pairsTop cur new).2.1 (pairsTop cur new).2.2).1 ∨
      c ∈ (pairsBottom (pairsTop cur new).2.1 (pairsTop cur new).2.2).2.1 → P c.1 c.2 := by
    intro c hm
    refine hc c ?_
    rw [e1, e2, List.mem_append, List.mem_append]
    tauto
  obtain ⟨h1, h2⟩ := place_all hf ha (pairsBottom (pairsTop cur new).2.1 (pairsTop cur new).2.2).2.2.reverse
    (pairsBottom (pairsTop cur new).2.1 (pairsTop cur new).2.2).2.1
    (((pairsBottom (pairsTop cur new).2.1 (pairsTop cur new).2.2).1.head?.map (·.2.id)).getD id) n (fun c hm => hmem c (Or.inr (Or.inr hm)))
  refine ⟨fun c hm => ?_, ?_⟩
  · rcases List.mem_append.mp hm with hm | hm
    · rcases List.mem_append.mp hm with hm | hm
      · exact hmem c (Or.inl hm)
      · exact h1 c hm
    · exact hmem c (Or.inr (Or.inl hm))
  · rw [List.map_append, List.map_append, h2, List.reverse_reverse, List.append_assoc, ← e4, ← e3]

/-- The node that a view creates, after it was inserted, has the property. -/
def Yields (σ : S) (v : View S V) (P : Inst S V → Prop) : Prop := ∀ n p m, P ((create σ v n).1.mount p m).1

theorem onValue_yields {σ : S} {shown : V → Bool} {render : V → View S V} {P : Inst S V → Prop} (h : ∀ v, Yields σ (render v) P)
    (id p : Id) (v : V) (old : List (Inst S V)) (n : Nat) : ∀ i ∈ (onValue (fun v m => create σ (render v) m) id p shown v old n).1, P i := by
  intro i hi
  simp only [onValue] at hi
  split at hi
  · rw [List.mem_singleton.mp hi]; exact h v _ _ _
  · cases hi

omit [DecidableEq V] in
theorem mountAll_even {p id : Id} : ∀ (cs : List (Created S V)) (n : Nat), (∀ c ∈ cs, ∀ p m, Even (c.mount p m).1) →
    EvenAll (mountAll p id cs n).1
  | [], _, _ => trivial
  | c :: cs, n, h => ⟨h c (by simp) _ _, mountAll_even cs n fun c hc => h c (List.mem_cons_of_mem _ hc)⟩

mutual
theorem create_even (σ : S) : ∀ (v : View S V), Yields σ v Even
  | .element name attrs children, n, p, m => createChildren_even σ n children (n + 1)
  | .text _, _, _, _ => trivial
  | .computedText _, _, _, _ => trivial
  | .value f shown render, n, p, m => (evenAll_iff _).mpr (onValue_yields (fun v => create_even σ (render v)) _ _ _ _ _)
  | .list f key render, n, p, m => by
      have h := onList_all (P := fun _ i => Even i) (key := key) (fresh := createBefore σ render p) (again := fun _ i m => (i, [], m))
        (fun ref v m => create_even σ (render v) _ _ _) (fun _ _ _ _ _ h _ => h) (fun x => x) n [] (f σ) m (by simp)
      refine ⟨Nat.le_of_eq (by simp), (evenAll_iff _).mpr fun i hi => ?_⟩
      obtain ⟨c, hc, rfl⟩ := List.mem_map.mp hi
      exact h.1 c hc
  | .fragment vs, n, p, m => mountAll_even _ _ (createAll_even σ vs n)
theorem createChildren_even (σ : S) (p : Id) : ∀ (vs : List (View S V)) (n : Nat), EvenAll (createChildren σ p vs n).1
  | [], _ => trivial
  | v :: vs, _ => ⟨create_even σ v _ _ _, createChildren_even σ p vs _⟩
theorem createAll_even (σ : S) : ∀ (vs : List (View S V)) (n : Nat), ∀ c ∈ (createAll σ vs n).1, ∀ p m, Even (c.mount p m).1
  | [], _, c, hc => by cases hc
  | v :: vs, n, c, hc => by
      rcases List.mem_cons.mp hc with rfl | hc
      · exact fun p m => create_even σ v _ _ _
      · exact createAll_even σ vs _ c hc
end

mutual
theorem remount_even (σ : S) : ∀ (i : Inst S V) (p n : Nat), Even i → Even (remount σ i p n).1
  | .element .., _, _, h => by simp only [remount]; exact h
  | .text .., _, _, h => by simp only [remount]; exact h
  | .computedText .., _, _, h => by simp only [remount]; exact h
  | .value id _ f shown render _ content, p, n, _ => by
      simp only [remount]
      exact (evenAll_iff _).mpr (onValue_yields (fun v => create_even σ (render v)) _ _ _ _ _)
  | .list id _ f key render _ content, p, n, _ => by
      have h := onList_all (P := fun _ i => Even i) (key := key) (fresh := createBefore σ render p) (again := fun _ i m => (i, [], m))
        (fun ref v m => create_even σ (render v) _ _ _) (fun _ _ _ _ _ h _ => h) (fun x => x) id [] (f σ) n (by simp)
      simp only [remount]
      refine ⟨Nat.le_of_eq (by simp), (evenAll_iff _).mpr fun i hi => ?_⟩
      obtain ⟨c, hc, rfl⟩ := List.mem_map.mp hi
      exact h.1 c hc
  | .fragment id _ content, p, n, h => by simp only [remount]; exact remountAll_even σ content id p n h
theorem remountAll_even (σ : S) : ∀ (is : List (Inst S V)) (id p n : Nat), EvenAll is → EvenAll (remountAll σ id is p n).1
  | [], _, _, _, _ => trivial
  | i :: is, id, p, n, h => by simp only [remountAll]; exact ⟨remount_even σ i _ _ h.1, remountAll_even σ is _ _ _ h.2⟩
end

mutual
theorem run_even (σ : S) (order : List (Inst S V) → List (Inst S V)) (s : Sub) : ∀ (i : Inst S V) (n : Nat), Even i → Even (run σ order s i n).1
  | .element _ _ _ children, n, h => by simp only [run]; exact runAll_even σ order s children n h
  | .text .., _, h => by simp only [run]; exact h
  | .computedText .., _, _ => by simp only [run]; split <;> trivial
  | .value id p f shown render last content, n, h => by
      simp only [run]
      split
      · exact (evenAll_iff _).mpr (onValue_yields (fun v => create_even σ (render v)) _ _ _ _ _)
      · exact runAll_even σ order s content n h
  | .list id p f key render items content, n, h => by
      simp only [run]
      split
      · have h := onList_all (P := fun _ i => Even i) (key := key) (fresh := createBefore σ render p) (again := insertAgain σ p)
          (fun ref v m => create_even σ (render v) _ _ _) (fun _ _ i _ m h _ => remount_even σ i p m h) order id (items.zip content) (f σ) n
          (fun c hc => (evenAll_iff _).mp h.2 c.2 (List.of_mem_zip hc).2)
        refine ⟨Nat.le_of_eq (by simp), (evenAll_iff _).mpr fun i hi => ?_⟩
        obtain ⟨c, hc, rfl⟩ := List.mem_map.mp hi
        exact h.1 c hc
      · refine ⟨?_, runAll_even σ order s content n h.2⟩
        rw [runAll_length]; exact h.1
  | .fragment _ _ content, n, h => by simp only [run]; exact runAll_even σ order s content n h
theorem runAll_even (σ : S) (order : List (Inst S V) → List (Inst S V)) (s : Sub) :
    ∀ (is : List (Inst S V)) (n : Nat), EvenAll is → EvenAll (runAll σ order s is n).1
  | [], _, _ => trivial
  | i :: is, n, h => by simp only [runAll]; exact ⟨run_even σ order s i _ h.1, runAll_even σ order s is _ h.2⟩
theorem runAll_length (σ : S) (order : List (Inst S V) → List (Inst S V)) (s : Sub) :
    ∀ (is : List (Inst S V)) (n : Nat), (runAll σ order s is n).1.length = is.length
  | [], _ => rfl
  | i :: is, n => by simp only [runAll, List.length_cons, runAll_length σ order s is]
end

/-! ## The page and the application -/

/-- The page and the application agree, except for the order. -/
structure Near (b : Browser) (a : App S V) : Prop where
  good : Good b a.next
  usable : Usable b 3
  html : b.children 1 = [2, 3]
  kids : ∀ y, y ∈ b.children 3 ↔ y ∈ topsAll a.body
  sits : Sits b 3 a.body
  ids : ∀ x : Nat, x ∈ idsAll a.body → 4 ≤ x
  even : EvenAll a.body

theorem start_near (σ : S) (views : List (View S V)) :
    ∃ b1 cs b2 b, (App.start σ views).2 = opening ++ cs ++ [.insertBefore 1 3 none] ∧ Browser.init.run opening = .ok b1 ∧
      Runs b1 cs b2 ∧ b2.step (.insertBefore 1 3 none) = .ok b ∧ Near b (App.start σ views).1 := by
  obtain ⟨b1, e1, hg1, hi1⟩ := opening_ok
  have h3 := hi1.same 3 (by decide) (by decide)
  have hu1 : Takes b1 1 := ⟨"html", fun _ => none, by rw [hi1.but.objects]; rfl, Or.inl rfl⟩
  have hu3 : Usable b1 3 := ⟨⟨"body", _, by rw [h3.objects]; rfl, Or.inl rfl⟩, by decide, by decide⟩
  obtain ⟨b2, hb2, he⟩ := childrenWork (σ := σ) (p := 3) views (fun v _ => works σ v) hg1 hu3
  have h1 : SameAt b1 b2 1 := he.same 1 (by decide) id (by decide)
  have hp3 : b2.parent 3 = some 1 := by rw [he.but.parent, h3.parent]; rfl
  have hc1 : b2.children 1 = [3, 2] := by rw [h1.children, hi1.children]
  have hids : ∀ x : Nat, x ∈ idsAll (createChildren σ 3 views 4).1 → 4 ≤ x := fun x hx => (he.ids x hx).resolve_left fun h => h
  obtain ⟨b3, hb3, hi3⟩ := insert_step (c := 3) (p := 1) (L := [2]) (R := []) (o := .element "body" fun _ => none) he.good
    (hu1.same h1.but) (by rw [he.but.objects, h3.objects]; rfl) (Or.inl ⟨rfl, hp3⟩)
    (Or.inr hp3) (fun l hl => child_not_up hp3 hl) (by rw [hc1]; decide)
  have hk : ∀ y, y ∈ b3.children 3 ↔ y ∈ topsAll (createChildren σ 3 views 4).1 := fun y => by
    rw [hi3.below, he.kids, h3.children]
    simp [Browser.init]
  refine ⟨b1, _, b2, b3, rfl, e1, hb2, hb3, ⟨hi3.good _ he.good, ?_, hi3.children, hk, ⟨?_, fun y hy => (hk y).mpr hy, he.nodup, he.ne⟩, hids,
    createChildren_even σ 3 views 4⟩⟩
  · obtain ⟨⟨nm, f, h, h'⟩, -⟩ := hu3.same he.but
    exact ⟨⟨nm, f, by rw [hi3.objects, h], Or.inl rfl⟩, by decide, by decide⟩
  · refine HasAll.frame _ (fun x hx => ?_) he.has
    have := hids x hx
    have := hi3.same x (by omega) (by omega)
    exact ⟨this.objects, this.inMap, this.children⟩

/-- One subscription is run. -/
theorem Near.run {order : List (Inst S V) → List (Inst S V)} (hord : ∀ l, (order l).Perm l) {σ : S} (s : Sub) {b : Browser} {a : App S V}
    (h : Near b a) : ∃ b', Runs b (runAll σ order s a.body a.next).2.1 b' ∧
      Near b' ⟨(runAll σ order s a.body a.next).1, (runAll σ order s a.body a.next).2.2⟩ := by
  obtain ⟨b1, hb1, he1⟩ := runAll_any (σ := σ) hord (s := s) a.body h.even h.good h.usable h.sits
  have h4 := h.good.four
  have h1 : SameAt b b1 1 := he1.same 1 (by omega) (fun h1 => absurd (h.ids 1 h1) (by decide)) (by decide)
  refine ⟨b1, hb1, he1.good, h.usable.same he1.but, by rw [h1.children, h.html], fun y => ?_, he1.sits,
    fun x hx => (he1.ids x hx).elim (h.ids x) (Nat.le_trans h4), runAll_even σ order s a.body a.next h.even⟩
  rw [he1.kids, h.kids]
  constructor
  · rintro (h1 | ⟨h1, h2⟩)
    · exact h1
    · exact absurd (topsAll_sub _ y h1) h2
  · exact Or.inl

theorem change_near {order : List (Inst S V) → List (Inst S V)} (hord : ∀ l, (order l).Perm l) {σ : S} :
    ∀ (subs : List Sub) {b : Browser} {a : App S V}, Near b a →
    ∃ b', Runs b (a.change σ order subs).2 b' ∧ Near b' (a.change σ order subs).1 ∧
      Accounts (a.change σ order subs).2 (idsAll a.body) (idsAll (a.change σ order subs).1.body)
  | [], b, a, h => ⟨b, .nil, h, Accounts.nil _⟩
  | s :: subs, b, a, h => by
      obtain ⟨b1, hb1, ha⟩ := h.run hord (σ := σ) s
      obtain ⟨b2, hb2, ha2, hc2⟩ := change_near hord (σ := σ) subs ha
      exact ⟨b2, run_append hb1 hb2, ha2, (runAll_accounts σ hord s a.body a.next h.even).trans hc2⟩

theorem history_near {order : List (Inst S V) → List (Inst S V)} (hord : ∀ l, (order l).Perm l) :
    ∀ (h : List (S × List Sub)) {b : Browser} {a : App S V}, Near b a →
    ∃ b', Runs b (a.history order h).2 b' ∧ Near b' (a.history order h).1 ∧
      Accounts (a.history order h).2 (idsAll a.body) (idsAll (a.history order h).1.body)
  | [], b, a, ha => ⟨b, .nil, ha, Accounts.nil _⟩
  | (σ', subs) :: h, b, a, ha => by
      obtain ⟨b1, hb1, ha1, hc1⟩ := change_near hord (σ := σ') subs ha
      obtain ⟨b2, hb2, ha2, hc2⟩ := history_near hord h ha1
      exact ⟨b2, run_append hb1 hb2, ha2, hc1.trans hc2⟩

/-- What is sent, and that it can be sorted. -/
structure Leads (all : List Cmd) (a : App S V) (b : Browser) : Prop where
  split : ∃ rest, all = opening ++ rest ∧ (∀ c ∈ rest, Calm c) ∧ .insertBefore 1 3 none ∈ rest
  run : Browser.init.run all = .ok b
  inserts : Inserts Browser.init all
  near : Near b a
  accounts : Accounts all [] ([1, 2, 3] ++ idsAll a.body)

theorem leads (σ : S) (views : List (View S V)) {order : List (Inst S V) → List (Inst S V)} (hord : ∀ l, (order l).Perm l)
    (h : List (S × List Sub)) : ∃ b, Leads (App.sent σ views order h) ((App.start σ views).1.history order h).1 b := by
  obtain ⟨b1, cs, b2, b3, e, h1, h2, h3, ha1⟩ := start_near σ views
  obtain ⟨b4, hb4, ha2, hc⟩ := history_near hord h ha1
  have e' : App.sent σ views order h = opening ++ (cs ++ .insertBefore 1 3 none :: ((App.start σ views).1.history order h).2) := by
    simp [App.sent, e]
  have hw0 : Whole Browser.init := by
    intro x q hq
    simp only [Browser.init] at hq
    split at hq
    · cases hq; exact Or.inl rfl
    · cases hq
  have hw1 : Inserts Browser.init opening ∧ Whole b1 := by
    obtain ⟨b1', e1, -, hi⟩ := opening_ok
    rw [h1] at e1; cases e1
    have s1 : Browser.init.step (.createNode 1 "html") = .ok Browser.init := rfl
    have s2 : Browser.init.step (.createNode 2 "head") = .ok Browser.init := rfl
    have s3 : ∀ b : Browser, b.step (.createNode 3 "body") = .ok b := fun _ => rfl
    have s4 : Browser.init.step (.insertBefore 1 2 none) = .ok b1 := by
      have h1' := h1
      simp only [opening, Browser.run, s1, s2] at h1'
      split at h1'
      · cases h1'
      · rename_i b0 hb0; rw [s3] at h1'; cases h1'; exact hb0
    refine ⟨?_, whole_step rfl s4 hw0⟩
    unfold opening
    refine ⟨fun _ _ _ e => (by cases e), fun b hb => ?_⟩
    rw [s1] at hb; cases hb
    refine ⟨fun _ _ _ e => (by cases e), fun b hb => ?_⟩
    rw [s2] at hb; cases hb
    refine ⟨fun _ _ _ e => (by cases e; exact ⟨hw0, Or.inl rfl⟩), fun b hb => ?_⟩
    rw [s4] at hb; cases hb
    exact ⟨fun _ _ _ e => (by cases e), fun _ _ => trivial⟩
  obtain ⟨i2, w2⟩ := h2.inserts hw1.2
  obtain ⟨i4, w4⟩ := hb4.inserts (whole_step rfl h3 w2)
  refine ⟨b4, ⟨_, e', ?_, by simp⟩, ?_, ?_, ha2, ?_⟩
  · intro c hc
    rcases List.mem_append.mp hc with hc | hc
    · exact h2.calm c hc
    · rcases List.mem_cons.mp hc with rfl | hc
      · exact Or.inr (Or.inr rfl)
      · exact hb4.calm c hc
  · rw [e']
    simp only [Verif.Dom.run_append, h1, h2.run, Browser.run, h3, hb4.run]
  · rw [e']
    refine inserts_append.mpr ⟨hw1.1, fun b hb => ?_⟩
    rw [h1] at hb; cases hb
    refine inserts_append.mpr ⟨i2, fun b hb => ?_⟩
    rw [h2.run] at hb; cases hb
    refine ⟨fun p x ref e => (by cases e; exact ⟨w2, Or.inl rfl⟩), fun b hb => ?_⟩
    rw [h3] at hb; cases hb
    exact i4
  · have h5 : Accounts (App.start σ views).2 [] ([1, 2, 3] ++ idsAll (App.start σ views).1.body) := by
      have h6 := createChildren_accounts σ 3 views 4
      intro x hx
      have h6 := h6 x
      simp only [App.start, createdBy_append, removedBy_append, List.mem_append, List.not_mem_nil, false_or] at hx h6 ⊢
      simp only [createdBy, List.filterMap_cons, creates, List.filterMap_nil, List.mem_cons, List.not_mem_nil, or_false] at hx h6 ⊢
      tauto
    refine h5.trans (ds := ((App.start σ views).1.history order h).2) ?_
    intro x hx
    have hc := hc x
    simp only [List.mem_append] at hx ⊢
    tauto

omit [DecidableEq V] in
/-- No command removes html, head or body. -/
theorem Leads.removes {all} {a : App S V} {b} (h : Leads all a b) : ∀ c ∈ all, ∀ id, c.removes = some id → isRoot id = false := by
  obtain ⟨rest, e, hc, -⟩ := h.split
  intro c hm id hid
  rw [e] at hm
  rcases List.mem_append.mp hm with hm | hm
  · simp only [opening, List.mem_cons, List.not_mem_nil, or_false] at hm
    rcases hm with rfl | rfl | rfl | rfl <;> cases hid
  · rcases hc c hm with h1 | ⟨x, h1, h2⟩ | rfl
    · rw [tidy_removes h1] at hid; cases hid
    · rw [h1] at hid; cases hid; exact h2
    · cases hid

omit [DecidableEq V] in
theorem Leads.batches {all} {a : App S V} {b} (h : Leads all a b) {batches : List (List Cmd)}
    (hb : batches.flatten = all) : Browser.init.run (batches.map sortCommands).flatten = .ok b := by
  refine C21_sorted_session ⟨[], rfl⟩ (by rw [hb]; exact h.run) (by rw [hb]; exact h.removes) ?_
  intro pre batch post b1 e hb1
  have hi := h.inserts
  rw [← hb, e, List.flatten_append, List.flatten_cons] at hi
  have := (inserts_append.mp ((inserts_append.mp hi).2 b1 hb1)).1
  refine this.above fun c hc => h.removes c ?_
  rw [← hb, e]
  simp [hc]

omit [DecidableEq V] in
/-- The nodes in the map are those of the application. -/
theorem Leads.map {all} {a : App S V} {b} (h : Leads all a b) (x : Id) : b.inMap x = true ↔ x ∈ idsAll a.body := by
  constructor
  · intro hx
    rcases run_inMap h.run hx with h1 | h1
    · simp [Browser.init] at h1
    · rcases h.accounts x (Or.inr h1) with h2 | h2
      · rcases List.mem_append.mp h2 with h2 | h2
        · exfalso
          have : isRoot x = true := by
            simp only [List.mem_cons, List.not_mem_nil, or_false] at h2
            rcases h2 with rfl | rfl | rfl <;> rfl
          rw [h.near.good.free x hx] at this
          cases this
        · exact h2
      · rw [((gone_run h.run).2 x h2).2] at hx; cases hx
  · exact fun hx => hasAll_inMap _ h.near.sits.has x hx

omit [DecidableEq V] in
mutual
theorem stands_of {b : Browser} : ∀ (i : Inst S V) {p l}, Has b p i → (∀ y ∈ tops i, y ∈ l) → ∀ x ∈ ids i, Stands b l x
  | .element id _ _ children, p, l, h, hl, x, hx => by
      rcases List.mem_cons.mp hx with rfl | hx
      · exact .here (hl _ (by simp [tops]))
      · exact .deeper (hl id (by simp [tops])) (standsAll_of children h.2.2.2 (fun y hy => (h.2.2.1 y).mpr hy) x hx)
  | .text id _, p, l, h, hl, x, hx => .here (hl x hx)
  | .computedText id _ _, p, l, h, hl, x, hx => .here (hl x hx)
  | .value id _ _ _ _ _ content, p, l, h, hl, x, hx => by
      rcases List.mem_cons.mp hx with rfl | hx
      · exact .here (hl _ (by simp [tops]))
      · exact standsAll_of content h.2.2.2 (fun y hy => hl y (by simp [tops, hy])) x hx
  | .list id _ _ _ _ _ content, p, l, h, hl, x, hx => by
      rcases List.mem_cons.mp hx with rfl | hx
      · exact .here (hl _ (by simp [tops]))
      · exact standsAll_of content h.2.2.2 (fun y hy => hl y (by simp [tops, hy])) x hx
  | .fragment id _ content, p, l, h, hl, x, hx => by
      rcases List.mem_cons.mp hx with rfl | hx
      · exact .here (hl _ (by simp [tops]))
      · exact standsAll_of content h.2.2.2 (fun y hy => hl y (by simp [tops, hy])) x hx
theorem standsAll_of {b : Browser} : ∀ (is : List (Inst S V)) {p l}, HasAll b p is → (∀ y ∈ topsAll is, y ∈ l) → ∀ x ∈ idsAll is, Stands b l x
  | [], _, _, _, _, x, hx => by cases hx
  | i :: is, p, l, h, hl, x, hx => by
      rcases List.mem_append.mp hx with hx | hx
      · exact stands_of i h.1 (fun y hy => hl y (List.mem_append_left _ hy)) x hx
      · exact standsAll_of is h.2 (fun y hy => hl y (List.mem_append_right _ hy)) x hx
end

omit [DecidableEq V] in
theorem of_stands {b : Browser} {n p l x} {is : List (Inst S V)} (hg : Good b n) (hh : HasAll b p is) (h : Stands b l x) :
    (∀ y ∈ l, y ∈ idsAll is) → x ∈ idsAll is := by
  induction h with
  | here h => exact fun hl => hl _ h
  | deeper hy _ ih => exact fun hl => ih fun z hz => hasAll_closed hg hh (hl _ hy) hz

/-- **C66** The application starts in the state `σ` and goes through any number of transactions, after each of which some subscriptions are
run, in any order; the commands are sent in any batches, each of them sorted. Then the browser has executed all commands without an error,
the driver in the browser has exactly the nodes that are in the document, and what it does not have is not in another node: nothing is left.
This is for all views, without the elements html, head and body, whose ids are fixed: the model gives each element an id of its own. -/
theorem C66_nothing_left (views : List (View S V)) (_hok : ∀ v ∈ views, v.Inner) (order : List (Inst S V) → List (Inst S V))
    (hord : ∀ l, (order l).Perm l) (σ : S) (h : List (S × List Sub))
    (batches : List (List Cmd)) (hb : batches.flatten = (App.start σ views).2 ++ ((App.start σ views).1.history order h).2) :
    ∃ b, Browser.init.run (batches.map sortCommands).flatten = .ok b ∧ b.children 1 = [2, 3] ∧
      (∀ x, b.inMap x = true ↔ Stands b (b.children 3) x) ∧
      ∀ x, isRoot x = false → b.inMap x = false → b.parent x = none := by
  obtain ⟨b, hs⟩ := leads σ views hord h
  refine ⟨b, hs.batches hb, hs.near.html, fun x => ?_, fun x hr hx => ?_⟩
  rotate_left
  · cases hp : b.parent x with
    | none => rfl
    | some p =>
      have := (hs.near.good.inv.par x p hp).1
      rw [hr, hx] at this
      simp at this
  rw [hs.map x]
  constructor
  · exact standsAll_of _ hs.near.sits.has hs.near.sits.tops x
  · exact fun h => of_stands hs.near.good hs.near.sits.has h fun y hy => topsAll_sub _ y ((hs.near.kids y).mp hy)

/-! ## What is shown -/

omit [DecidableEq V] in
theorem fitsAll_pairs {render : V → View S V} : ∀ (l : List (V × Inst S V)), (∀ c ∈ l, Fits (render c.1) c.2) →
    FitsAll ((l.map (·.1)).map render) (l.map (·.2))
  | [], _ => trivial
  | c :: l, h => ⟨h c (by simp), fitsAll_pairs l fun c hc => h c (List.mem_cons_of_mem _ hc)⟩

omit [DecidableEq V] in
theorem fitsAll_zip {render : V → View S V} : ∀ (items : List V) (content : List (Inst S V)), FitsAll (items.map render) content →
    ∀ c ∈ items.zip content, Fits (render c.1) c.2
  | [], _, _, c, hc => by simp at hc
  | _ :: _, [], h, _, _ => h.elim
  | v :: items, i :: content, h, c, hc => by
      rcases List.mem_cons.mp hc with rfl | hc
      · exact h.1
      · exact fitsAll_zip items content h.2 c hc

theorem mem_dueAll {σ : S} {is : List (Inst S V)} {t} : t ∈ dueAll σ is ↔ ∃ i ∈ is, t ∈ due σ i := by
  induction is with
  | nil => simp [dueAll]
  | cons i is ih => simp [dueAll, ih]

/-- The node was made from the view, and nothing in it is due that is not in `X`. -/
def Made (σ : S) (X : List Sub) (v : View S V) (i : Inst S V) : Prop := Fits v i ∧ ∀ t ∈ due σ i, t ∈ X

def MadeAll (σ : S) (X : List Sub) (vs : List (View S V)) (is : List (Inst S V)) : Prop := FitsAll vs is ∧ ∀ t ∈ dueAll σ is, t ∈ X

theorem MadeAll.cons {σ : S} {X} {v : View S V} {vs i is} (h1 : Made σ X v i) (h2 : MadeAll σ X vs is) : MadeAll σ X (v :: vs) (i :: is) :=
  ⟨⟨h1.1, h2.1⟩, fun t ht => (List.mem_append.mp ht).elim (h1.2 t) (h2.2 t)⟩

theorem onValue_made {σ : S} {X} {shown : V → Bool} {render : V → View S V} (h : ∀ v, Yields σ (render v) (Made σ X (render v)))
    (id p : Id) (v : V) (old : List (Inst S V)) (n : Nat) :
    MadeAll σ X (if shown v then [render v] else []) (onValue (fun v m => create σ (render v) m) id p shown v old n).1 := by
  simp only [onValue]
  split
  · exact MadeAll.cons (h v _ _ _) ⟨trivial, by simp [dueAll]⟩
  · exact ⟨trivial, by simp [dueAll]⟩

theorem onList_made {σ : S} {X} {key : V → V} {render : V → View S V} {p : Id} {again : Id → Inst S V → Nat → Inst S V × List Cmd × Nat}
    (h : ∀ v, Yields σ (render v) (Made σ X (render v)))
    (ha : ∀ ref v i n, Made σ X (render v) i → Made σ X (render v) (again ref i n).1) (hk : ∀ v w, key v = key w → render v = render w)
    (order : List (Inst S V) → List (Inst S V)) (id : Id) (cur : List (V × Inst S V)) (new : List V) (n : Nat)
    (hc : ∀ c ∈ cur, Made σ X (render c.1) c.2) :
    let r := onList key (createBefore σ render p) again order id cur new n
    MadeAll σ X ((r.1.map (·.1)).map render) (r.1.map (·.2)) ∧ r.1.map (·.1) = new := by
  intro r
  obtain ⟨h1, h2⟩ := onList_all (P := fun v i => Made σ X (render v) i) (key := key) (fresh := createBefore σ render p) (again := again)
    (fun ref v m => h v _ _ _) (fun ref w i v m hm e => by
      have hm' : Made σ X (render v) i := (hk w v e) ▸ hm
      exact ha ref v i m hm') order id cur new n hc
  refine ⟨⟨fitsAll_pairs _ fun c hc => (h1 c hc).1, fun t ht => ?_⟩, h2⟩
  obtain ⟨i, hi, ht⟩ := mem_dueAll.mp ht
  obtain ⟨c, hc, rfl⟩ := List.mem_map.mp hi
  exact (h1 c hc).2 t ht

omit [DecidableEq V] in
theorem new_attrs (σ : S) (attrs : List (String × (S → Option String))) :
    (attrs.map fun a => (⟨a.1, a.2, a.2 σ⟩ : Attr S)).map (fun a => (a.name, a.f)) = attrs := by
  simp [List.map_map, Function.comp_def]

omit [DecidableEq V] in
theorem new_attrs_due (σ : S) (attrs : List (String × (S → Option String))) :
    (attrs.map fun a => (⟨a.1, a.2, a.2 σ⟩ : Attr S)).filter (fun a => a.f σ ≠ a.last) = [] := by
  rw [List.filter_eq_nil_iff]
  intro a ha
  obtain ⟨c, -, rfl⟩ := List.mem_map.mp ha
  simp

/-- What a view creates was made from it, and nothing in it is due. -/
theorem create_made {σ : S} {v : View S V} (hv : v.Loose) : Yields σ v (Made σ [] v) := by
  have hch : ∀ (p : Id) (vs : List (View S V)), (∀ c ∈ vs, Yields σ c (Made σ [] c)) → ∀ n, MadeAll σ [] vs (createChildren σ p vs n).1 := by
    intro p vs
    induction vs with
    | nil => intro _ n; exact ⟨trivial, by simp [createChildren, dueAll]⟩
    | cons v vs ih =>
      intro h n
      exact MadeAll.cons (h v (by simp) _ _ _) (ih (fun c hc => h c (List.mem_cons_of_mem _ hc)) _)
  have hall : ∀ (vs : List (View S V)), (∀ c ∈ vs, Yields σ c (Made σ [] c)) → ∀ n p id m, MadeAll σ [] vs (mountAll p id (createAll σ vs n).1 m).1 := by
    intro vs
    induction vs with
    | nil => intro _ n p id m; exact ⟨trivial, by simp [createAll, mountAll, dueAll]⟩
    | cons v vs ih =>
      intro h n p id m
      exact MadeAll.cons (h v (by simp) _ _ _) (ih (fun c hc => h c (List.mem_cons_of_mem _ hc)) _ _ _ _)
  induction hv with
  | @element name attrs children _ _ _ ih =>
    intro n p m
    have := hch n children ih (n + 1)
    refine ⟨⟨rfl, new_attrs σ attrs, this.1⟩, fun t ht => ?_⟩
    simp only [create, due, new_attrs_due, List.map_nil, List.nil_append] at ht
    exact this.2 t ht
  | text => exact fun n p m => ⟨rfl, by simp [create, due]⟩
  | computedText => exact fun n p m => ⟨rfl, by simp [create, due]⟩
  | @value f shown render _ ih =>
    intro n p m
    have := onValue_made (shown := shown) ih n p (f σ) [] m
    refine ⟨⟨rfl, rfl, rfl, this.1⟩, fun t ht => ?_⟩
    simp only [create, due, if_true, List.nil_append] at ht
    exact this.2 t ht
  | @list f key render _ hk ih =>
    intro n p m
    have := onList_made (p := p) (again := fun _ i m => (i, [], m)) ih (fun _ _ _ _ h => h) hk (fun x => x) n [] (f σ) m (by simp)
    refine ⟨⟨rfl, rfl, rfl, this.1.1⟩, fun t ht => this.1.2 t ?_⟩
    rw [show due σ ((create σ (.list f key render) n).1.mount p m).1 =
      (if f σ = (onList key (createBefore σ render p) (fun _ i m => (i, [], m)) (fun x => x) n [] (f σ) m).1.map (·.1) then [] else [(n, none)]) ++
        dueAll σ ((onList key (createBefore σ render p) (fun _ i m => (i, [], m)) (fun x => x) n [] (f σ) m).1.map (·.2)) from rfl,
      this.2, if_pos rfl, List.nil_append] at ht
    exact ht
  | @fragment vs _ ih =>
    intro n p m
    have := hall vs ih n p (createAll σ vs n).2.2 m
    exact ⟨this.1, this.2⟩

theorem create_made' {σ : S} {v : View S V} (hv : v.Loose) (X : List Sub) : Yields σ v (Made σ X v) :=
  fun n p m => ⟨(create_made hv n p m).1, fun t ht => by have := (create_made hv n p m).2 t ht; cases this⟩

mutual
theorem remount_made {σ : S} : ∀ (i : Inst S V) {v : View S V} {X : List Sub} (p n : Nat), v.Loose → Made σ X v i → Made σ X v (remount σ i p n).1
  | .element .., _, _, _, _, _, h => by simp only [remount]; exact h
  | .text .., _, _, _, _, _, h => by simp only [remount]; exact h
  | .computedText .., _, _, _, _, _, h => by simp only [remount]; exact h
  | .value id _ f shown render _ content, v, X, p, n, hv, h => by
      cases v with
      | value f' shown' render' =>
        cases hv with
        | value hvr =>
        obtain ⟨⟨rfl, rfl, rfl, -⟩, -⟩ := h
        have := onValue_made (X := X) (shown := shown) (fun v => create_made' (σ := σ) (hvr v) X) id p (f σ) [] n
        simp only [remount]
        refine ⟨⟨rfl, rfl, rfl, this.1⟩, fun t ht => ?_⟩
        simp only [due, if_true, List.nil_append] at ht
        exact this.2 t ht
      | _ => exact h.1.elim
  | .list id _ f key render _ content, v, X, p, n, hv, h => by
      cases v with
      | list f' key' render' =>
        cases hv with
        | list hvr hk =>
        obtain ⟨⟨rfl, rfl, rfl, -⟩, -⟩ := h
        have := onList_made (X := X) (p := p) (again := fun _ i m => (i, [], m)) (fun v => create_made' (σ := σ) (hvr v) X) (fun _ _ _ _ h => h) hk (fun x => x) id [] (f σ) n (by simp)
        simp only [remount]
        refine ⟨⟨rfl, rfl, rfl, this.1.1⟩, fun t ht => this.1.2 t ?_⟩
        simp only [due, this.2, if_true, List.nil_append] at ht
        exact ht
      | _ => exact h.1.elim
  | .fragment id _ content, v, X, p, n, hv, h => by
      cases v with
      | fragment vs =>
        cases hv with
        | fragment hvs =>
        simp only [remount]
        exact remountAll_made content id p n hvs h
      | _ => exact h.1.elim
theorem remountAll_made {σ : S} : ∀ (is : List (Inst S V)) {vs : List (View S V)} {X : List Sub} (id p n : Nat), (∀ v ∈ vs, v.Loose) → MadeAll σ X vs is →
    MadeAll σ X vs (remountAll σ id is p n).1
  | [], _, _, _, _, _, _, h => by simp only [remountAll]; exact h
  | i :: is, [], _, _, _, _, _, h => h.1.elim
  | i :: is, v :: vs, X, id, p, n, hv, h => by
      simp only [remountAll]
      exact MadeAll.cons (remount_made i _ _ (hv v (by simp)) ⟨h.1.1, fun t ht => h.2 t (List.mem_append_left _ ht)⟩)
        (remountAll_made is _ _ _ (fun w hw => hv w (List.mem_cons_of_mem _ hw)) ⟨h.1.2, fun t ht => h.2 t (List.mem_append_right _ ht)⟩)
end

omit [DecidableEq V] in
theorem runAttrs_due {σ : S} {id s} : ∀ (as : List (Attr S)),
    ∀ t ∈ ((runAttrs σ id s as).1.filter fun a => a.f σ ≠ a.last).map (fun a => ((id, some a.name) : Sub)),
      t ∈ (as.filter fun a => a.f σ ≠ a.last).map (fun a => ((id, some a.name) : Sub)) ∧ t ≠ s
  | [], t, ht => by simp [runAttrs] at ht
  | a :: as, t, ht => by
      have ih := runAttrs_due (σ := σ) (id := id) (s := s) as t
      by_cases hc : s = (id, some a.name) ∧ a.f σ ≠ a.last
      · have er : runAttrs σ id s (a :: as) =
            ({ a with last := a.f σ } :: (runAttrs σ id s as).1, attrCmd id a.name (a.f σ) :: (runAttrs σ id s as).2) := by
          simp [runAttrs, Attr.run, hc]
        rw [er] at ht
        simp only [List.filter_cons, ne_eq, not_true_eq_false, decide_false] at ht
        have := ih (by simpa using ht)
        refine ⟨?_, this.2⟩
        rw [List.filter_cons, if_pos (by simpa using hc.2)]
        exact List.mem_cons_of_mem _ this.1
      · have er : runAttrs σ id s (a :: as) = (a :: (runAttrs σ id s as).1, (runAttrs σ id s as).2) := by
          simp [runAttrs, Attr.run, hc]
        rw [er] at ht
        simp only [List.filter_cons, decide_eq_true_eq] at ht ⊢
        by_cases hl : a.f σ = a.last
        · rw [if_neg (by simp [hl])] at ht ⊢
          exact ih ht
        · rw [if_pos hl] at ht ⊢
          simp only [List.map_cons, List.mem_cons] at ht ⊢
          rcases ht with rfl | ht
          · exact ⟨Or.inl rfl, fun e => hc ⟨e.symm, hl⟩⟩
          · exact ⟨Or.inr (ih ht).1, (ih ht).2⟩

mutual
theorem run_made {σ : S} {order : List (Inst S V) → List (Inst S V)} {s : Sub} : ∀ (i : Inst S V) {v : View S V} (n : Nat), v.Loose → Fits v i →
    (ids i).Nodup → Fits v (run σ order s i n).1 ∧ ∀ t ∈ due σ (run σ order s i n).1, t ∈ due σ i ∧ t ≠ s
  | .element id name attrs children, v, n, hv, h, hn => by
      cases v with
      | element nm as vs =>
        cases hv with
        | element _ _ hvs =>
        obtain ⟨rfl, rfl, h⟩ := h
        have := runAll_made (σ := σ) (order := order) (s := s) children n hvs h (List.nodup_cons.mp hn).2
        simp only [run]
        refine ⟨⟨rfl, runAttrs_map attrs, this.1⟩, fun t ht => ?_⟩
        simp only [due, List.mem_append] at ht ⊢
        rcases ht with ht | ht
        · have := runAttrs_due attrs t ht; exact ⟨Or.inl this.1, this.2⟩
        · have := this.2 t ht; exact ⟨Or.inr this.1, this.2⟩
      | _ => exact h.elim
  | .text .., v, n, hv, h, _ => by simp only [run]; exact ⟨h, by simp [due]⟩
  | .computedText id f last, v, n, hv, h, _ => by
      by_cases hr : s = (id, none) ∧ f σ ≠ last
      · simp only [run, if_pos hr]
        refine ⟨?_, by simp [due]⟩
        cases v with
        | computedText g => cases h; rfl
        | _ => exact h.elim
      · simp only [run, if_neg hr]
        refine ⟨h, fun t ht => ⟨ht, ?_⟩⟩
        rintro rfl
        simp only [due] at ht
        split at ht
        · cases ht
        · simp at ht; exact hr ⟨ht, by assumption⟩
  | .value id p f shown render last content, v, n, hv, h, hn => by
      cases v with
      | value f' shown' render' =>
        cases hv with
        | value hvr =>
        obtain ⟨rfl, rfl, rfl, h⟩ := h
        by_cases hr : s = (id, none) ∧ f σ ≠ last
        · have := onValue_made (X := []) (shown := shown) (fun v => create_made (σ := σ) (hvr v)) id p (f σ) content n
          simp only [run, if_pos hr]
          refine ⟨⟨rfl, rfl, rfl, this.1⟩, fun t ht => ?_⟩
          simp only [due, if_true, List.nil_append] at ht
          have := this.2 t ht; cases this
        · have := runAll_made (σ := σ) (order := order) (s := s) content n (by
            intro w hw; split at hw
            · simp at hw; rw [hw]; exact hvr _
            · cases hw) h (List.nodup_cons.mp hn).2
          simp only [run, if_neg hr]
          refine ⟨⟨rfl, rfl, rfl, this.1⟩, fun t ht => ?_⟩
          simp only [due, List.mem_append] at ht ⊢
          rcases ht with ht | ht
          · refine ⟨Or.inl ht, ?_⟩
            rintro rfl
            split at ht
            · cases ht
            · simp at ht; exact hr ⟨ht, by assumption⟩
          · exact ⟨Or.inr (this.2 t ht).1, (this.2 t ht).2⟩
      | _ => exact h.elim
  | .list id p f key render items content, v, n, hv, h, hn => by
      cases v with
      | list f' key' render' =>
        cases hv with
        | list hvr hk =>
        obtain ⟨rfl, rfl, rfl, h⟩ := h
        by_cases hr : s = (id, none) ∧ f σ ≠ items
        · have := onList_made (X := dueAll σ content) (p := p) (again := insertAgain σ p) (fun v => create_made' (σ := σ) (hvr v) _)
            (fun _ v i m h => remount_made i p m (hvr v) h) hk order id (items.zip content) (f σ) n
            (fun c hc => ⟨fitsAll_zip items content h c hc, fun t ht => mem_dueAll.mpr ⟨c.2, (List.of_mem_zip hc).2, ht⟩⟩)
          simp only [run, if_pos hr]
          refine ⟨⟨rfl, rfl, rfl, this.1.1⟩, fun t ht => ?_⟩
          simp only [due, this.2, if_true, List.nil_append] at ht
          have ht := this.1.2 t ht
          refine ⟨List.mem_append_right _ ht, ?_⟩
          rintro rfl
          have := dueAll_ids _ _ ht
          rw [hr.1] at this
          exact (List.nodup_cons.mp hn).1 this
        · have := runAll_made (σ := σ) (order := order) (s := s) content n (by
            intro w hw; obtain ⟨x, -, rfl⟩ := List.mem_map.mp hw; exact hvr x) h (List.nodup_cons.mp hn).2
          simp only [run, if_neg hr]
          refine ⟨⟨rfl, rfl, rfl, this.1⟩, fun t ht => ?_⟩
          simp only [due, List.mem_append] at ht ⊢
          rcases ht with ht | ht
          · refine ⟨Or.inl ht, ?_⟩
            rintro rfl
            split at ht
            · cases ht
            · simp at ht; exact hr ⟨ht, by assumption⟩
          · exact ⟨Or.inr (this.2 t ht).1, (this.2 t ht).2⟩
      | _ => exact h.elim
  | .fragment id p content, v, n, hv, h, hn => by
      cases v with
      | fragment vs =>
        cases hv with
        | fragment hvs =>
        simp only [run]
        exact runAll_made (σ := σ) (order := order) (s := s) content n hvs h (List.nodup_cons.mp hn).2
      | _ => exact h.elim
theorem runAll_made {σ : S} {order : List (Inst S V) → List (Inst S V)} {s : Sub} : ∀ (is : List (Inst S V)) {vs : List (View S V)} (n : Nat),
    (∀ v ∈ vs, v.Loose) → FitsAll vs is → (idsAll is).Nodup →
    FitsAll vs (runAll σ order s is n).1 ∧ ∀ t ∈ dueAll σ (runAll σ order s is n).1, t ∈ dueAll σ is ∧ t ≠ s
  | [], _, _, _, h, _ => by simp only [runAll]; exact ⟨h, by simp [dueAll]⟩
  | _ :: _, [], _, _, h, _ => h.elim
  | i :: is, v :: vs, n, hv, h, hn => by
      obtain ⟨hn1, hn2, -⟩ := List.nodup_append.mp hn
      obtain ⟨h1, h2⟩ := run_made (σ := σ) (order := order) (s := s) i n (hv v (by simp)) h.1 hn1
      obtain ⟨h3, h4⟩ := runAll_made (σ := σ) (order := order) (s := s) is (run σ order s i n).2.2 (fun w hw => hv w (List.mem_cons_of_mem _ hw)) h.2 hn2
      simp only [runAll]
      refine ⟨⟨h1, h3⟩, fun t ht => ?_⟩
      simp only [dueAll, List.mem_append] at ht ⊢
      rcases ht with ht | ht
      · exact ⟨Or.inl (h2 t ht).1, (h2 t ht).2⟩
      · exact ⟨Or.inr (h4 t ht).1, (h4 t ht).2⟩
end

theorem start_made {σ : S} {views : List (View S V)} (hok : ∀ v ∈ views, v.Loose) :
    FitsAll views (App.start σ views).1.body ∧ dueAll σ (App.start σ views).1.body = [] := by
  have : ∀ (vs : List (View S V)), (∀ v ∈ vs, v.Loose) → ∀ n, MadeAll σ [] vs (createChildren σ 3 vs n).1 := by
    intro vs
    induction vs with
    | nil => intro _ n; exact ⟨trivial, by simp [createChildren, dueAll]⟩
    | cons v vs ih =>
      intro h n
      exact MadeAll.cons (create_made (h v (by simp)) _ _ _) (ih (fun c hc => h c (List.mem_cons_of_mem _ hc)) _)
  exact ⟨(this views hok 4).1, List.eq_nil_iff_forall_not_mem.mpr fun t ht => by have := (this views hok 4).2 t ht; cases this⟩

theorem change_made {views : List (View S V)} (hok : ∀ v ∈ views, v.Loose) {order : List (Inst S V) → List (Inst S V)}
    (hord : ∀ l, (order l).Perm l) {σ : S} : ∀ (subs : List Sub) {b : Browser} {a : App S V}, Near b a → FitsAll views a.body →
    (∀ t ∈ dueAll σ a.body, t ∈ subs) →
    FitsAll views (a.change σ order subs).1.body ∧ dueAll σ (a.change σ order subs).1.body = []
  | [], b, a, h, hf, hs => ⟨hf, List.eq_nil_iff_forall_not_mem.mpr fun t ht => by simpa using hs t ht⟩
  | s :: subs, b, a, h, hf, hs => by
      obtain ⟨b1, hb1, ha⟩ := h.run hord (σ := σ) s
      obtain ⟨h1, h2⟩ := runAll_made (σ := σ) (order := order) (s := s) a.body a.next hok hf h.sits.nodup
      exact change_made hok hord subs ha h1 fun t ht => by
        have := h2 t ht
        rcases List.mem_cons.mp (hs t this.1) with h | h
        · exact absurd h this.2
        · exact h

theorem history_made {views : List (View S V)} (hok : ∀ v ∈ views, v.Loose) {order : List (Inst S V) → List (Inst S V)}
    (hord : ∀ l, (order l).Perm l) : ∀ (h : List (S × List Sub)) {σ : S} {b : Browser} {a : App S V}, Near b a → FitsAll views a.body →
    dueAll σ a.body = [] → Complete order h a →
    FitsAll views (a.history order h).1.body ∧ dueAll (lastState σ h) (a.history order h).1.body = []
  | [], σ, b, a, _, hf, hd, _ => ⟨hf, hd⟩
  | (σ', subs) :: h, σ, b, a, ha, hf, hd, hc => by
      obtain ⟨b1, hb1, ha1, -⟩ := change_near hord (σ := σ') subs ha
      obtain ⟨h1, h2⟩ := change_made hok hord (σ := σ') subs ha hf hc.1
      exact history_made hok hord h ha1 h1 h2 hc.2

omit [DecidableEq V] in
mutual
theorem tops_ids_nodup : ∀ (i : Inst S V), (ids i).Nodup → (tops i).Nodup
  | .element .., _ => by simp [tops]
  | .text .., _ => by simp [tops]
  | .computedText .., _ => by simp [tops]
  | .value id _ _ _ _ _ content, h => by
      have h := List.nodup_cons.mp h
      simp only [tops]
      exact List.nodup_append.mpr ⟨topsAll_nodup content h.2, by simp, fun x hx y hy e => by
        rw [List.mem_singleton.mp hy] at e; exact h.1 (e ▸ topsAll_sub content x hx)⟩
  | .list id _ _ _ _ _ content, h => by
      have h := List.nodup_cons.mp h
      simp only [tops]
      exact List.nodup_append.mpr ⟨topsAll_nodup content h.2, by simp, fun x hx y hy e => by
        rw [List.mem_singleton.mp hy] at e; exact h.1 (e ▸ topsAll_sub content x hx)⟩
  | .fragment id _ content, h => by
      have h := List.nodup_cons.mp h
      simp only [tops]
      exact List.nodup_append.mpr ⟨topsAll_nodup content h.2, by simp, fun x hx y hy e => by
        rw [List.mem_singleton.mp hy] at e; exact h.1 (e ▸ topsAll_sub content x hx)⟩
theorem topsAll_nodup : ∀ (is : List (Inst S V)), (idsAll is).Nodup → (topsAll is).Nodup
  | [], _ => by simp [topsAll]
  | i :: is, h => by
      obtain ⟨h1, h2, h3⟩ := List.nodup_append.mp h
      exact List.nodup_append.mpr ⟨tops_ids_nodup i h1, topsAll_nodup is h2, fun x hx y hy => h3 x (tops_sub i x hx) y (topsAll_sub is y hy)⟩
end

theorem some_perm {l l' : List Id} (h1 : l.Nodup) (h2 : l'.Nodup) (h : ∀ x, x ∈ l ↔ x ∈ l') : l.Perm l' :=
  (List.perm_ext_iff_of_nodup h1 h2).mpr h

mutual
theorem showsSome_of {b : Browser} {n} (hg : Good b n) {σ : S} : ∀ (i : Inst S V) {v p}, v.Loose → Has b p i → Fits v i → due σ i = [] →
    (ids i).Nodup → ∀ {rest hs}, ShowsSome b rest hs → ShowsSome b (tops i ++ rest) (html σ v ++ hs)
  | .element id name' attrs' is, v, p, hv, h, hf, hd, hn, rest, hs, hr => by
      cases v with
      | element name attrs vs =>
        cases hv with
        | element _ hna hvs =>
        obtain ⟨rfl, rfl, hf⟩ := hf
        obtain ⟨-, ⟨F, ho, hF⟩, hch, hhc⟩ := h
        simp only [due, List.append_eq_nil_iff, List.map_eq_nil_iff] at hd
        replace hn := (List.nodup_cons.mp hn).2
        have hc := showsSomeAll_of hg is hvs hhc hf hd.2 hn ShowsSome.nil
        simp only [List.append_nil] at hc
        simp only [tops, html, List.singleton_append]
        have ha : attrFn attrs' = fun x =>
            ((attrs'.map fun a => (a.name, a.f)).find? fun p => p.1 = x).bind fun p => p.2 σ := by
          funext x
          have : ∀ a ∈ attrs', a.f σ = a.last := by simpa using List.filter_eq_nil_iff.mp hd.1
          clear hd hc hf hF hna hn
          simp only [attrFn]
          induction attrs' with
          | nil => rfl
          | cons a as ih =>
            simp only [List.find?_cons, List.map_cons]
            by_cases e : a.name = x
            · simp [e, this a (by simp)]
            · simp only [e, decide_false]
              exact ih fun a ha => this a (List.mem_cons_of_mem _ ha)
        rw [← ha, ← hF (by simpa [List.map_map, Function.comp_def] using hna)]
        exact .element ho (some_perm (hg.inv.nodup id) (topsAll_nodup is hn) hch) hc hr
      | _ => exact hf.elim
  | .text id value', v, p, _, h, hf, hd, _, rest, hs, hr => by
      cases v with
      | text value => cases hf; exact .text h.2 hr
      | _ => exact hf.elim
  | .computedText id f' last, v, p, _, h, hf, hd, _, rest, hs, hr => by
      cases v with
      | computedText f =>
        cases hf
        have e : f' σ = last := by
          by_cases e : f' σ = last
          · exact e
          · simp [due, e] at hd
        simp only [html, e]
        exact .text h.2 hr
      | _ => exact hf.elim
  | .value id _ f' _ _ last content, v, p, hv, h, hf, hd, hn, rest, hs, hr => by
      cases v with
      | value f shown render =>
        cases hv with
        | value hvr =>
        obtain ⟨rfl, rfl, rfl, hf⟩ := hf
        obtain ⟨-, -, ⟨cm, ho⟩, hhc⟩ := h
        simp only [due, List.append_eq_nil_iff] at hd
        have e : f' σ = last := by
          by_cases e : f' σ = last
          · exact e
          · simp [e] at hd
        have := showsSomeAll_of hg content (by
          intro w hw; split at hw
          · simp at hw; rw [hw]; exact hvr _
          · cases hw) hhc hf hd.2 (List.nodup_cons.mp hn).2 (ShowsSome.comment ho hr)
        simp only [tops, html, e, List.append_assoc, List.singleton_append]
        split
        · rename_i hsh; simpa [hsh, htmls] using this
        · rename_i hsh; simpa [hsh, htmls] using this
      | _ => exact hf.elim
  | .list id _ f' _ _ items content, v, p, hv, h, hf, hd, hn, rest, hs, hr => by
      cases v with
      | list f key render =>
        cases hv with
        | list hvr hk =>
        obtain ⟨rfl, rfl, rfl, hf⟩ := hf
        obtain ⟨-, -, ⟨cm, ho⟩, hhc⟩ := h
        simp only [due, List.append_eq_nil_iff] at hd
        have e : f' σ = items := by
          by_cases e : f' σ = items
          · exact e
          · simp [e] at hd
        have := showsSomeAll_of hg content (by
          intro w hw; obtain ⟨x, -, rfl⟩ := List.mem_map.mp hw; exact hvr x) hhc hf hd.2 (List.nodup_cons.mp hn).2 (ShowsSome.comment ho hr)
        simp only [tops, html, e, List.append_assoc, List.singleton_append]
        have e2 : ∀ l : List V, htmls σ (l.map ‹V → View S V›) = l.flatMap fun v => html σ (‹V → View S V› v) := by
          intro l
          induction l with
          | nil => rfl
          | cons a l ih => simp [htmls, ih]
        rw [e2] at this
        exact this
      | _ => exact hf.elim
  | .fragment id _ content, v, p, hv, h, hf, hd, hn, rest, hs, hr => by
      cases v with
      | fragment vs =>
        cases hv with
        | fragment hvs =>
        obtain ⟨-, -, ⟨cm, ho⟩, hhc⟩ := h
        simp only [tops, html, List.append_assoc, List.singleton_append]
        exact showsSomeAll_of hg content hvs hhc hf hd (List.nodup_cons.mp hn).2 (ShowsSome.comment ho hr)
      | _ => exact hf.elim
theorem showsSomeAll_of {b : Browser} {n} (hg : Good b n) {σ : S} : ∀ (is : List (Inst S V)) {vs p}, (∀ v ∈ vs, v.Loose) → HasAll b p is → FitsAll vs is →
    dueAll σ is = [] → (idsAll is).Nodup → ∀ {rest hs}, ShowsSome b rest hs → ShowsSome b (topsAll is ++ rest) (htmls σ vs ++ hs)
  | [], [], _, _, _, _, _, _, _, _, hr => hr
  | i :: is, v :: vs, p, hv, h, hf, hd, hn, rest, hs, hr => by
      simp only [dueAll, List.append_eq_nil_iff] at hd
      obtain ⟨hn1, hn2, -⟩ := List.nodup_append.mp hn
      simp only [topsAll, htmls, List.append_assoc]
      exact showsSome_of hg i (hv v (by simp)) h.1 hf.1 hd.1 hn1 (showsSomeAll_of hg is (fun w hw => hv w (List.mem_cons_of_mem _ hw)) h.2 hf.2 hd.2 hn2 hr)
  | [], _ :: _, _, _, _, hf, _, _, _, _, _ => hf.elim
  | _ :: _, [], _, _, _, hf, _, _, _, _, _ => hf.elim
end

/-- **C49** up to the order of siblings: lists and fragments of anything. The application starts in the state `σ` and goes through any number
of transactions; after each of them the subscriptions whose value has changed are run, in any order; the commands are sent in any batches,
each of them sorted. Then the browser has executed all commands without an error, and the page has exactly the elements and texts of the
view in the last state, each below the right element and with the right attributes; siblings may stand in another order than in the view
(`C49_item_violated`, `C49_fragment_violated`). -/
theorem C49_content_partial (views : List (View S V)) (hok : ∀ v ∈ views, v.Keyed) (order : List (Inst S V) → List (Inst S V))
    (hord : ∀ l, (order l).Perm l) (σ : S) (h : List (S × List Sub)) (hc : Complete order h (App.start σ views).1)
    (batches : List (List Cmd)) (hb : batches.flatten = (App.start σ views).2 ++ ((App.start σ views).1.history order h).2) :
    ∃ b ys, Browser.init.run (batches.map sortCommands).flatten = .ok b ∧ b.children 1 = [2, 3] ∧ (b.children 3).Perm ys ∧
      ShowsSome b ys (htmls (lastState σ h) views) := by
  obtain ⟨b, hs⟩ := leads σ views hord h
  obtain ⟨_, _, _, _, -, -, -, -, hn⟩ := start_near σ views
  have hok' : ∀ v ∈ views, v.Loose := fun v hv => (hok v hv).loose
  obtain ⟨h1, h2⟩ := start_made (σ := σ) hok'
  obtain ⟨h3, h4⟩ := history_made hok' hord h hn h1 h2 hc
  refine ⟨b, _, hs.batches hb, hs.near.html, some_perm (hs.near.good.inv.nodup 3) (topsAll_nodup _ hs.near.sits.nodup) hs.near.kids, ?_⟩
  have := showsSomeAll_of hs.near.good _ hok' hs.near.sits.has h3 h4 hs.near.sits.nodup ShowsSome.nil
  simpa using this

end

/-! ## A list of fragments, with a value after the first node -/

/-- A list of numbers, each a fragment of an element and a value; `C49_item_violated` and `C49_fragment_violated` are about such views. -/
def mixedView : List (View Nat Nat) :=
  [.list (fun n => List.range n) (fun v => v) fun v => .fragment [.element "a" [] [.text (toString v)],
    .value (fun n => n) (fun n => n % 2 = 0) fun n => .text (toString (v + n))]]

theorem mixedView_keyed : ∀ v ∈ mixedView, v.Keyed := by
  intro v hv
  simp only [mixedView, List.mem_cons, List.not_mem_nil, or_false] at hv
  subst hv
  refine .list (fun v => .fragment fun c hc => ?_) (fun _ _ e => by rw [show _ = _ from e])
  simp only [List.mem_cons, List.not_mem_nil, or_false] at hc
  rcases hc with rfl | rfl
  · refine .element (by decide) (by decide) (by decide) fun c hc => ?_
    simp only [List.mem_cons, List.not_mem_nil, or_false] at hc
    subst hc
    exact .text
  · exact .value fun _ => .text

theorem View.Keyed.inner {v : View S V} (h : v.Keyed) : v.Inner := by
  induction h with
  | element h1 _ _ _ ih => exact .element h1 ih
  | text => exact .text
  | computedText => exact .computedText
  | value _ ih => exact .value ih
  | list _ _ ih => exact .list ih
  | fragment _ ih => exact .fragment ih

/-- 2, then 3, then 1, then 2; the subscriptions that are due are run, the list first, last or in between. -/
def mixedHistory : List (Nat × List Sub) :=
  [(3, [(4, none), (12, none), (7, none)]), (1, [(17, none), (12, none), (4, none), (7, none)]), (2, [(12, none), (4, none)])]

/-- Does every transaction run the subscriptions that are due? -/
def completeB (order : List (Inst Nat Nat) → List (Inst Nat Nat)) : List (Nat × List Sub) → App Nat Nat → Bool
  | [], _ => true
  | (σ, subs) :: h, a => (dueAll σ a.body).all (· ∈ subs) && completeB order h (a.change σ order subs).1

theorem complete_of {order : List (Inst Nat Nat) → List (Inst Nat Nat)} : ∀ (h : List (Nat × List Sub)) {a : App Nat Nat}, completeB order h a = true →
    Complete order h a
  | [], _, _ => trivial
  | (_, _) :: h, _, e => by
      simp only [completeB, Bool.and_eq_true, List.all_eq_true, decide_eq_true_eq] at e
      exact ⟨e.1, complete_of h e.2⟩

theorem mixedHistory_complete : Complete List.reverse mixedHistory (App.start 2 mixedView).1 := complete_of _ (by decide +kernel)

/-- The first batch ends after the first transaction, the second one has the rest. -/
def mixedBatches : List (List Cmd) :=
  let a := App.start 2 mixedView
  let c := a.1.history List.reverse (mixedHistory.take 1)
  [a.2 ++ c.2, (c.1.history List.reverse (mixedHistory.drop 1)).2]

example : ∃ b ys, Browser.init.run (mixedBatches.map sortCommands).flatten = .ok b ∧ b.children 1 = [2, 3] ∧ (b.children 3).Perm ys ∧
    ShowsSome b ys (htmls 2 mixedView) :=
  C49_content_partial mixedView mixedView_keyed List.reverse List.reverse_perm 2 mixedHistory mixedHistory_complete mixedBatches (by decide +kernel)

example : ∃ b, Browser.init.run (mixedBatches.map sortCommands).flatten = .ok b ∧ b.children 1 = [2, 3] ∧
    (∀ x, b.inMap x = true ↔ Stands b (b.children 3) x) ∧ ∀ x, isRoot x = false → b.inMap x = false → b.parent x = none :=
  C66_nothing_left mixedView (fun v hv => (mixedView_keyed v hv).inner) List.reverse List.reverse_perm 2 mixedHistory mixedBatches (by decide +kernel)

/-- What the view stands for, and what the page has: the second value is before its element. -/
example : Html.seens 5 (htmls 2 mixedView) = ["<a>", "0", "</a>", "2", "<a>", "1", "</a>", "3"] ∧
    seenAfter (mixedBatches.map sortCommands).flatten = some ["<a>", "0", "</a>", "2", "3", "<a>", "1", "</a>"] := by decide +kernel

/-- 21 nodes were created (and html, head and body), eleven are left. -/
example : (createdBy (mixedBatches.map sortCommands).flatten).length = 24 ∧ (mapped (mixedBatches.map sortCommands).flatten).map (·.length) = some 11 := by
  decide +kernel

end Verif.View

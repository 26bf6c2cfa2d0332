import Verif.View.Update
import Verif.Json.Commands
import Verif.Ssr.Whole
/-!
# Views that the server can answer: no attribute is removed

The server panics when an attribute is removed (`C28_remove_attr_violated`). An application whose attributes have a value in every state
removes none.
-/
namespace Verif.View
open Verif.Dom Verif.Json

/-- What the server can answer: attributes have a value in every state, and void elements (`br`, `img`, ...) have nothing inside. -/
inductive View.Served : View S V → Prop where
  | element {name : String} {attrs : List (String × (S → Option String))} {children : List (View S V)} :
      (∀ a ∈ attrs, ∀ σ, a.2 σ ≠ none) → (Ssr.Void name → children = []) → (∀ c ∈ children, View.Served c) → View.Served (.element name attrs children)
  | text {value} : View.Served (.text value)
  | computedText {f} : View.Served (.computedText f)
  | value {f : S → V} {shown : V → Bool} {render : V → View S V} : (∀ v, View.Served (render v)) → View.Served (.value f shown render)
  | list {f : S → List V} {key : V → V} {render : V → View S V} : (∀ v, View.Served (render v)) → View.Served (.list f key render)
  | fragment {nodes : List (View S V)} : (∀ c ∈ nodes, View.Served c) → View.Served (.fragment nodes)

/-- The same, but the attributes in `free` can be without a value. -/
inductive View.ServedBut (free : String → Prop) : View S V → Prop where
  | element {name : String} {attrs : List (String × (S → Option String))} {children : List (View S V)} :
      (∀ a ∈ attrs, ¬ free a.1 → ∀ σ, a.2 σ ≠ none) → (Ssr.Void name → children = []) → (∀ c ∈ children, View.ServedBut free c) →
      View.ServedBut free (.element name attrs children)
  | text {value} : View.ServedBut free (.text value)
  | computedText {f} : View.ServedBut free (.computedText f)
  | value {f : S → V} {shown : V → Bool} {render : V → View S V} : (∀ v, View.ServedBut free (render v)) → View.ServedBut free (.value f shown render)
  | list {f : S → List V} {key : V → V} {render : V → View S V} : (∀ v, View.ServedBut free (render v)) → View.ServedBut free (.list f key render)
  | fragment {nodes : List (View S V)} : (∀ c ∈ nodes, View.ServedBut free c) → View.ServedBut free (.fragment nodes)

theorem View.Served.but {free : String → Prop} {v : View S V} (h : v.Served) : v.ServedBut free := by
  induction h with
  | element h1 h2 _ ih => exact .element (fun a ha _ => h1 a ha) h2 ih
  | text => exact .text
  | computedText => exact .computedText
  | value _ ih => exact .value ih
  | list _ ih => exact .list ih
  | fragment _ ih => exact .fragment ih

/-- No attribute is removed. -/
def Clean (cs : List Cmd) : Prop := ∀ c ∈ cs, ¬ IsRemoveAttr c

variable {free : String → Prop}

mutual
/-- A node made from such a view. -/
def Given (free : String → Prop) : Inst S V → Prop
  | .element _ _ attrs children => (∀ a ∈ attrs, ¬ free a.name → ∀ σ, a.f σ ≠ none) ∧ GivenAll free children
  | .text _ _ => True
  | .computedText _ _ _ => True
  | .value _ _ _ _ render _ content => (∀ v, (render v).ServedBut free) ∧ GivenAll free content
  | .list _ _ _ _ render _ content => (∀ v, (render v).ServedBut free) ∧ GivenAll free content
  | .fragment _ _ content => GivenAll free content
def GivenAll (free : String → Prop) : List (Inst S V) → Prop
  | [] => True
  | i :: is => Given free i ∧ GivenAll free is
end

theorem givenAll_iff : ∀ {is : List (Inst S V)}, GivenAll free is ↔ ∀ i ∈ is, Given free i
  | [] => by simp [GivenAll]
  | i :: is => by simp [GivenAll, givenAll_iff (is := is)]

/-- An attribute is removed, and it is not one of those in `free`. -/
def Drops (free : String → Prop) : Cmd → Prop
  | .removeAttr _ name => ¬ free name
  | _ => False

/-- No attribute is removed, except for those in `free`. -/
def CleanBut (free : String → Prop) (cs : List Cmd) : Prop := ∀ c ∈ cs, ¬ Drops free c

theorem clean_append {a b : List Cmd} : CleanBut free (a ++ b) ↔ CleanBut free a ∧ CleanBut free b := by
  simp only [CleanBut, List.mem_append]
  exact ⟨fun h => ⟨fun c hc => h c (.inl hc), fun c hc => h c (.inr hc)⟩, fun h c hc => hc.elim (h.1 c) (h.2 c)⟩
theorem clean_nil : CleanBut free [] := fun _ h => by cases h
theorem clean_cons {c : Cmd} {cs : List Cmd} : CleanBut free (c :: cs) ↔ ¬ Drops free c ∧ CleanBut free cs := by simp [CleanBut]

mutual
theorem drops_clean : ∀ (i : Inst S V), CleanBut free (drops i)
  | .element _ _ _ children => clean_cons.mpr ⟨fun h => h, dropsAll_clean children⟩
  | .text _ _ => clean_cons.mpr ⟨fun h => h, clean_nil⟩
  | .computedText _ _ _ => clean_cons.mpr ⟨fun h => h, clean_nil⟩
  | .value _ _ _ _ _ _ content => clean_cons.mpr ⟨fun h => h, dropsAll_clean content⟩
  | .list _ _ _ _ _ _ content => clean_cons.mpr ⟨fun h => h, dropsAll_clean content⟩
  | .fragment _ _ content => clean_cons.mpr ⟨fun h => h, dropsRev_clean content⟩
theorem dropsAll_clean : ∀ (is : List (Inst S V)), CleanBut free (dropsAll is)
  | [] => clean_nil
  | i :: is => clean_append.mpr ⟨drops_clean i, dropsAll_clean is⟩
theorem dropsRev_clean : ∀ (is : List (Inst S V)), CleanBut free (dropsRev is)
  | [] => clean_nil
  | i :: is => clean_append.mpr ⟨dropsRev_clean is, drops_clean i⟩
end

/-- A node and its commands. -/
def Fine (free : String → Prop) (r : Inst S V × List Cmd × Nat) : Prop := Given free r.1 ∧ CleanBut free r.2.1

/-- A created node and its commands. -/
def FineNew (free : String → Prop) (r : Created S V × List Cmd × Nat) : Prop := (∀ p m, Fine free (r.1.mount p m)) ∧ CleanBut free r.2.1

theorem fine_insert {d : Created S V} (h : ∀ p m, Fine free (d.mount p m)) (p ref m) : Fine free (d.insert p ref m) :=
  ⟨(h p m).1, clean_cons.mpr ⟨id, (h p m).2⟩⟩

theorem onValue_clean {create : V → Nat → Created S V × List Cmd × Nat} (hc : ∀ v n, FineNew free (create v n)) (id parent : Id)
    (shown : V → Bool) (v : V) (old : List (Inst S V)) (n : Nat) :
    GivenAll free (onValue create id parent shown v old n).1 ∧ CleanBut free (onValue create id parent shown v old n).2.1 := by
  unfold onValue
  split
  · have h := fine_insert (hc v n).1 parent (some id) (create v n).2.2
    exact ⟨⟨h.1, trivial⟩, clean_append.mpr ⟨clean_append.mpr ⟨(hc v n).2, h.2⟩, dropsAll_clean old⟩⟩
  · exact ⟨trivial, dropsAll_clean old⟩

section
variable [DecidableEq V]

theorem pop_given {key : V → V} {k : V} : ∀ {cache : List (V × Inst S V)} {i : Inst S V} {rest : List (V × Inst S V)},
    pop key k cache = some (i, rest) → (∀ e ∈ cache, Given free e.2) → Given free i ∧ ∀ e ∈ rest, Given free e.2
  | (v, i) :: cache, j, rest, h, hg => by
      simp only [pop] at h
      split at h
      · cases h
        exact ⟨hg _ List.mem_cons_self, fun e he => hg e (List.mem_cons_of_mem _ he)⟩
      · split at h
        · cases h
        · rename_i j' cache' hp
          cases h
          obtain ⟨h1, h2⟩ := pop_given hp fun e he => hg e (List.mem_cons_of_mem _ he)
          refine ⟨h1, fun e he => ?_⟩
          rcases List.mem_cons.mp he with rfl | he
          · exact hg _ List.mem_cons_self
          · exact h2 e he

theorem place_clean {key : V → V} {fresh : Id → V → Nat → Inst S V × List Cmd × Nat}
    {again : Id → Inst S V → Nat → Inst S V × List Cmd × Nat} (hf : ∀ ref v n, Fine free (fresh ref v n))
    (ha : ∀ ref i n, Given free i → Fine free (again ref i n)) :
    ∀ (vs : List V) (cache : List (V × Inst S V)) (ref : Id) (n : Nat), (∀ e ∈ cache, Given free e.2) →
    (∀ e ∈ (place key fresh again vs cache ref n).pairs, Given free e.2) ∧ CleanBut free (place key fresh again vs cache ref n).cmds
  | [], cache, ref, n, h => ⟨by simp [place], clean_nil⟩
  | v :: vs, cache, ref, n, h => by
      have last : ∀ {l : List (V × Inst S V)} {i : Inst S V}, (∀ e ∈ l, Given free e.2) → Given free i → ∀ e ∈ l ++ [(v, i)], Given free e.2 := by
        intro l i h1 h2 e he
        rcases List.mem_append.mp he with he | he
        · exact h1 e he
        · rw [List.mem_singleton.mp he]; exact h2
      simp only [place]
      split
      · rename_i i rest hp
        obtain ⟨h1, h2⟩ := pop_given hp h
        have h3 := ha ref i n h1
        obtain ⟨h4, h5⟩ := place_clean (key := key) hf ha vs rest (again ref i n).1.id (again ref i n).2.2 h2
        exact ⟨last h4 h3.1, clean_append.mpr ⟨h3.2, h5⟩⟩
      · have h3 := hf ref v n
        obtain ⟨h4, h5⟩ := place_clean (key := key) hf ha vs cache (fresh ref v n).1.id (fresh ref v n).2.2 h
        exact ⟨last h4 h3.1, clean_append.mpr ⟨h3.2, h5⟩⟩

theorem onList_clean {key : V → V} {fresh : Id → V → Nat → Inst S V × List Cmd × Nat}
    {again : Id → Inst S V → Nat → Inst S V × List Cmd × Nat} (hf : ∀ ref v n, Fine free (fresh ref v n))
    (ha : ∀ ref i n, Given free i → Fine free (again ref i n)) (order : List (Inst S V) → List (Inst S V)) (id : Id)
    (cur : List (V × Inst S V)) (new : List V) (n : Nat) (h : ∀ e ∈ cur, Given free e.2) :
    GivenAll free ((onList key fresh again order id cur new n).1.map (·.2)) ∧ CleanBut free (onList key fresh again order id cur new n).2.1 := by
  obtain ⟨ht, -⟩ := pairsTop_eq cur new
  obtain ⟨hb, -⟩ := pairsBottom_eq (pairsTop cur new).2.1 (pairsTop cur new).2.2
  simp only [onList]
  generalize (((pairsBottom (pairsTop cur new).2.1 (pairsTop cur new).2.2).1.head?.map (·.2.id)).getD id) = ref
  generalize (pairsTop cur new).1 = T at *
  generalize (pairsTop cur new).2.1 = C1 at *
  generalize (pairsTop cur new).2.2 = new1 at *
  generalize (pairsBottom C1 new1).1 = B at *
  generalize (pairsBottom C1 new1).2.1 = C at *
  generalize (pairsBottom C1 new1).2.2 = mid at *
  subst hb ht
  obtain ⟨h1, h2⟩ := place_clean (key := key) hf ha mid.reverse C ref n (fun e he => h e (by simp [he]))
  refine ⟨givenAll_iff.mpr fun i hi => ?_, clean_append.mpr ⟨h2, dropsAll_clean _⟩⟩
  obtain ⟨e, he, rfl⟩ := List.mem_map.mp hi
  simp only [List.mem_append] at he
  rcases he with (he | he) | he
  · exact h e (by simp [he])
  · exact h1 e he
  · exact h e (by simp [he])

omit [DecidableEq V] in
theorem mountAll_clean (parent id : Id) : ∀ (cs : List (Created S V)) (m : Nat), (∀ c ∈ cs, ∀ p m, Fine free (c.mount p m)) →
    GivenAll free (mountAll parent id cs m).1 ∧ CleanBut free (mountAll parent id cs m).2.1
  | [], m, _ => ⟨trivial, clean_nil⟩
  | c :: cs, m, h => by
      obtain ⟨h1, h2⟩ := mountAll_clean parent id cs m fun c hc => h c (List.mem_cons_of_mem _ hc)
      have h3 := fine_insert (h c List.mem_cons_self) parent (some (mountAll parent id cs m).2.2.2) (mountAll parent id cs m).2.2.1
      exact ⟨⟨h3.1, h1⟩, clean_append.mpr ⟨h2, h3.2⟩⟩

omit [DecidableEq V] in
theorem attrs_clean {S : Type} (σ : S) (id : Id) {attrs : List (String × (S → Option String))} (h : ∀ a ∈ attrs, ¬ free a.1 → ∀ σ, a.2 σ ≠ none) :
    CleanBut free (attrs.map fun a => attrCmd id a.1 (a.2 σ)) := by
  intro c hc
  obtain ⟨a, ha, rfl⟩ := List.mem_map.mp hc
  cases e : a.2 σ with
  | none => exact fun ht => h a ha ht σ e
  | some v => exact fun h => h

mutual
theorem create_clean (σ : S) : ∀ (v : View S V), v.ServedBut free → ∀ n, FineNew free (create σ v n)
  | .element name attrs children, h, n => by
      cases h with
      | element h1 _ h2 =>
        obtain ⟨h3, h4⟩ := createChildren_clean σ n children h2 (n + 1)
        refine ⟨fun p m => ⟨⟨fun a ha => ?_, h3⟩, clean_nil⟩, clean_cons.mpr ⟨id, clean_append.mpr ⟨attrs_clean σ n h1, h4⟩⟩⟩
        obtain ⟨b, hb, rfl⟩ := List.mem_map.mp ha
        exact h1 b hb
  | .text value, _, n => ⟨fun p m => ⟨trivial, clean_nil⟩, clean_cons.mpr ⟨id, clean_nil⟩⟩
  | .computedText f, _, n => ⟨fun p m => ⟨trivial, clean_nil⟩, clean_cons.mpr ⟨id, clean_cons.mpr ⟨id, clean_nil⟩⟩⟩
  | .value f shown render, h, n => by
      cases h with
      | value h1 =>
        refine ⟨fun p m => ?_, clean_cons.mpr ⟨id, clean_nil⟩⟩
        have h := onValue_clean (fun v m => create_clean σ (render v) (h1 v) m) n p shown (f σ) [] m
        exact ⟨⟨h1, h.1⟩, h.2⟩
  | .list f key render, h, n => by
      cases h with
      | list h1 =>
        refine ⟨fun p m => ?_, clean_cons.mpr ⟨id, clean_nil⟩⟩
        have h := onList_clean (key := key) (again := fun _ i m => (i, [], m))
          (fresh := fun ref v m =>
              let c := create σ (render v) m
              let i := c.1.insert p (some ref) c.2.2
              (i.1, c.2.1 ++ i.2.1, i.2.2))
          (fun ref v m => by
            have h2 := create_clean σ (render v) (h1 v) m
            have h3 := fine_insert h2.1 p (some ref) (create σ (render v) m).2.2
            exact ⟨h3.1, clean_append.mpr ⟨h2.2, h3.2⟩⟩)
          (fun _ i _ hi => ⟨hi, clean_nil⟩) (fun x => x) n [] (f σ) m (fun e he => by cases he)
        exact ⟨⟨h1, h.1⟩, h.2⟩
  | .fragment vs, h, n => by
      cases h with
      | fragment h1 =>
        obtain ⟨h2, h3⟩ := createAll_clean σ vs h1 n
        refine ⟨fun p m => ?_, clean_append.mpr ⟨h3, clean_cons.mpr ⟨id, clean_nil⟩⟩⟩
        exact mountAll_clean p (createAll σ vs n).2.2 (createAll σ vs n).1 m h2
theorem createChildren_clean (σ : S) (parent : Id) : ∀ (vs : List (View S V)), (∀ v ∈ vs, v.ServedBut free) → ∀ n,
    GivenAll free (createChildren σ parent vs n).1 ∧ CleanBut free (createChildren σ parent vs n).2.1
  | [], _, n => ⟨trivial, clean_nil⟩
  | v :: vs, h, n => by
      have h1 := create_clean σ v (h v List.mem_cons_self) n
      have h2 := fine_insert h1.1 parent none (create σ v n).2.2
      obtain ⟨h3, h4⟩ := createChildren_clean σ parent vs (fun v hv => h v (List.mem_cons_of_mem _ hv))
        ((create σ v n).1.insert parent none (create σ v n).2.2).2.2
      exact ⟨⟨h2.1, h3⟩, clean_append.mpr ⟨clean_append.mpr ⟨h1.2, h2.2⟩, h4⟩⟩
theorem createAll_clean (σ : S) : ∀ (vs : List (View S V)), (∀ v ∈ vs, v.ServedBut free) → ∀ n,
    (∀ c ∈ (createAll σ vs n).1, ∀ p m, Fine free (c.mount p m)) ∧ CleanBut free (createAll σ vs n).2.1
  | [], _, n => ⟨by simp [createAll], clean_nil⟩
  | v :: vs, h, n => by
      have h1 := create_clean σ v (h v List.mem_cons_self) n
      obtain ⟨h3, h4⟩ := createAll_clean σ vs (fun v hv => h v (List.mem_cons_of_mem _ hv)) (create σ v n).2.2
      refine ⟨fun c hc => ?_, clean_append.mpr ⟨h1.2, h4⟩⟩
      simp only [createAll, List.mem_cons] at hc
      rcases hc with rfl | hc
      · exact h1.1
      · exact h3 c hc
end

theorem createBefore_clean (σ : S) {render : V → View S V} (h : ∀ v, (render v).ServedBut free) (p ref : Id) (v : V) (n : Nat) :
    Fine free (createBefore σ render p ref v n) := by
  have h2 := create_clean σ (render v) (h v) n
  have h3 := fine_insert h2.1 p (some ref) (create σ (render v) n).2.2
  exact ⟨h3.1, clean_append.mpr ⟨h2.2, h3.2⟩⟩

mutual
theorem remount_clean (σ : S) : ∀ (i : Inst S V) (p : Id) (n : Nat), Given free i → Fine free (remount σ i p n)
  | .value id _ f shown render _ content, p, n, h => by
      have h1 := onValue_clean (fun v m => create_clean σ (render v) (h.1 v) m) id p shown (f σ) [] n
      exact ⟨⟨h.1, h1.1⟩, clean_append.mpr ⟨h1.2, dropsAll_clean content⟩⟩
  | .list id _ f key render _ content, p, n, h => by
      have h1 := onList_clean (key := key) (again := fun _ i m => (i, [], m)) (createBefore_clean σ h.1 p)
        (fun _ i _ hi => ⟨hi, clean_nil⟩) (fun x => x) id [] (f σ) n (fun i hi => by cases hi)
      exact ⟨⟨h.1, h1.1⟩, clean_append.mpr ⟨h1.2, dropsAll_clean content⟩⟩
  | .fragment id _ content, p, n, h => remountAll_clean σ id content p n h
  | .element .., p, n, h => ⟨h, clean_nil⟩
  | .text .., p, n, h => ⟨h, clean_nil⟩
  | .computedText .., p, n, h => ⟨h, clean_nil⟩
theorem remountAll_clean (σ : S) (id : Id) : ∀ (is : List (Inst S V)) (p : Id) (n : Nat), GivenAll free is →
    GivenAll free (remountAll σ id is p n).1 ∧ CleanBut free (remountAll σ id is p n).2.1
  | [], p, n, _ => ⟨trivial, clean_nil⟩
  | i :: is, p, n, h => by
      have h1 := remountAll_clean σ id is p n h.2
      have h2 := remount_clean σ i p (remountAll σ id is p n).2.2.1 h.1
      exact ⟨⟨h2.1, h1.1⟩, clean_append.mpr ⟨h1.2, clean_cons.mpr ⟨fun h => h, h2.2⟩⟩⟩
end

theorem runAttrs_clean (σ : S) (id : Id) (s : Sub) : ∀ (as : List (Attr S)), (∀ a ∈ as, ¬ free a.name → ∀ σ, a.f σ ≠ none) →
    (∀ a ∈ (runAttrs σ id s as).1, ¬ free a.name → ∀ σ, a.f σ ≠ none) ∧ CleanBut free (runAttrs σ id s as).2
  | [], _ => ⟨by simp [runAttrs], clean_nil⟩
  | a :: as, h => by
      obtain ⟨h1, h2⟩ := runAttrs_clean σ id s as fun a ha => h a (List.mem_cons_of_mem _ ha)
      have ha := h a List.mem_cons_self
      simp only [runAttrs, Attr.run]
      split
      · refine ⟨fun b hb => ?_, clean_append.mpr ⟨?_, h2⟩⟩
        · rcases List.mem_cons.mp hb with rfl | hb
          · exact ha
          · exact h1 b hb
        · refine clean_cons.mpr ⟨?_, clean_nil⟩
          cases e : a.f σ with
          | none => exact fun ht => ha ht σ e
          | some v => exact fun h => h
      · refine ⟨fun b hb => ?_, clean_append.mpr ⟨clean_nil, h2⟩⟩
        rcases List.mem_cons.mp hb with rfl | hb
        · exact ha
        · exact h1 b hb

mutual
theorem run_clean (σ : S) (order : List (Inst S V) → List (Inst S V)) (s : Sub) : ∀ (i : Inst S V) (n : Nat), Given free i →
    Fine free (run σ order s i n)
  | .element id name attrs children, n, h => by
      obtain ⟨h1, h2⟩ := runAttrs_clean σ id s attrs h.1
      obtain ⟨h3, h4⟩ := runAll_clean σ order s children n h.2
      exact ⟨⟨h1, h3⟩, clean_append.mpr ⟨h2, h4⟩⟩
  | .text id value, n, h => ⟨h, clean_nil⟩
  | .computedText id f last, n, h => by
      simp only [run]
      split
      · exact ⟨trivial, clean_cons.mpr ⟨fun h => h, clean_nil⟩⟩
      · exact ⟨trivial, clean_nil⟩
  | .value id p f shown render last content, n, h => by
      simp only [run]
      split
      · have h1 := onValue_clean (fun v m => create_clean σ (render v) (h.1 v) m) id p shown (f σ) content n
        exact ⟨⟨h.1, h1.1⟩, h1.2⟩
      · have h1 := runAll_clean σ order s content n h.2
        exact ⟨⟨h.1, h1.1⟩, h1.2⟩
  | .list id p f key render items content, n, h => by
      simp only [run]
      split
      · have h1 := onList_clean (key := key) (createBefore_clean σ h.1 p) (again := insertAgain σ p)
          (fun ref i m hi => by
            have h2 := remount_clean σ i p m hi
            exact ⟨h2.1, clean_cons.mpr ⟨fun h => h, h2.2⟩⟩) order id (items.zip content) (f σ) n
          (fun e he => givenAll_iff.mp h.2 _ (List.of_mem_zip he).2)
        exact ⟨⟨h.1, h1.1⟩, h1.2⟩
      · have h1 := runAll_clean σ order s content n h.2
        exact ⟨⟨h.1, h1.1⟩, h1.2⟩
  | .fragment id p content, n, h => runAll_clean σ order s content n h
theorem runAll_clean (σ : S) (order : List (Inst S V) → List (Inst S V)) (s : Sub) : ∀ (is : List (Inst S V)) (n : Nat), GivenAll free is →
    GivenAll free (runAll σ order s is n).1 ∧ CleanBut free (runAll σ order s is n).2.1
  | [], n, _ => ⟨trivial, clean_nil⟩
  | i :: is, n, h => by
      have h1 := run_clean σ order s i n h.1
      have h2 := runAll_clean σ order s is (run σ order s i n).2.2 h.2
      exact ⟨⟨h1.1, h2.1⟩, clean_append.mpr ⟨h1.2, h2.2⟩⟩
end

theorem change_clean (σ : S) (order : List (Inst S V) → List (Inst S V)) : ∀ (subs : List Sub) (a : App S V), GivenAll free a.body →
    GivenAll free (a.change σ order subs).1.body ∧ CleanBut free (a.change σ order subs).2
  | [], a, h => ⟨h, clean_nil⟩
  | s :: subs, a, h => by
      have h1 := runAll_clean σ order s a.body a.next h
      have h2 := change_clean σ order subs ⟨(runAll σ order s a.body a.next).1, (runAll σ order s a.body a.next).2.2⟩ h1.1
      exact ⟨h2.1, clean_append.mpr ⟨h1.2, h2.2⟩⟩

theorem history_clean (order : List (Inst S V) → List (Inst S V)) : ∀ (h : List (S × List Sub)) (a : App S V), GivenAll free a.body →
    CleanBut free (a.history order h).2
  | [], a, _ => clean_nil
  | (σ, subs) :: h, a, ha => by
      have h1 := change_clean σ order subs a ha
      exact clean_append.mpr ⟨h1.2, history_clean order h _ h1.1⟩

/-- An application whose attributes have a value in every state, except for those in `free`, removes no other attributes. -/
theorem app_cleanBut {views : List (View S V)} (hv : ∀ v ∈ views, v.ServedBut free) (σ : S) (order : List (Inst S V) → List (Inst S V))
    (h : List (S × List Sub)) : CleanBut free ((App.start σ views).2 ++ ((App.start σ views).1.history order h).2) := by
  obtain ⟨h1, h2⟩ := createChildren_clean σ 3 views hv 4
  refine clean_append.mpr ⟨clean_append.mpr ⟨clean_append.mpr ⟨?_, h2⟩, clean_cons.mpr ⟨id, clean_nil⟩⟩, history_clean order h _ h1⟩
  intro c hc
  simp only [List.mem_cons, List.not_mem_nil, or_false] at hc
  rcases hc with rfl | rfl | rfl | rfl <;> exact id

/-- An application whose attributes have a value in every state removes none. -/
theorem app_clean {views : List (View S V)} (hv : ∀ v ∈ views, v.Served) (σ : S) (order : List (Inst S V) → List (Inst S V))
    (h : List (S × List Sub)) : Clean ((App.start σ views).2 ++ ((App.start σ views).1.history order h).2) := by
  intro c hc hr
  refine app_cleanBut (free := fun _ => False) (fun v hv' => (hv v hv').but) σ order h c hc ?_
  cases c <;> first | exact hr | exact id

end
end Verif.View

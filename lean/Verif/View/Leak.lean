import Verif.View.Style
/-!
# C66: nothing is left behind

The driver in the browser keeps every node it has created in a map, until it is told to remove it (map_nodes.ts). A node that the
application does not show any more and that is not removed would stay there for ever. Here: after any history, the map has exactly the
nodes that are in the document.

The model is the one of C49.
-/
namespace Verif.View
open Verif.Dom

/-- The node `x` is one of the nodes `l` or somewhere below them. -/
inductive Stands (b : Browser) : List Id → Id → Prop where
  | here {l x} : x ∈ l → Stands b l x
  | deeper {l y x} : y ∈ l → Stands b (b.children y) x → Stands b l x

theorem Stands.mono {b : Browser} {l l' : List Id} {x} (h : Stands b l x) (hs : ∀ y ∈ l, y ∈ l') : Stands b l' x := by
  cases h with
  | here h => exact .here (hs _ h)
  | deeper h h' => exact .deeper (hs _ h) h'

section
variable {S V : Type}

mutual
theorem ids_stands {b : Browser} : ∀ (i : Inst S V) {p}, Holds b p i → ∀ x ∈ ids i, Stands b (tops i) x
  | .element id _ _ children, _, h, x, hx => by
      rcases List.mem_cons.mp hx with rfl | hx
      · exact .here (by simp [tops])
      · refine .deeper (y := id) (by simp [tops]) ?_
        rw [h.2.2.1]; exact idsAll_stands children h.2.2.2 x hx
  | .text id _, _, _, x, hx => .here (by simpa [tops, ids] using hx)
  | .computedText id _ _, _, _, x, hx => .here (by simpa [tops, ids] using hx)
  | .value id _ _ _ _ _ content, _, h, x, hx => by
      rcases List.mem_cons.mp hx with rfl | hx
      · exact .here (by simp [tops])
      · exact (idsAll_stands content h.2.2.2 x hx).mono fun y hy => by simp [tops, hy]
  | .list id _ _ _ _ _ content, _, h, x, hx => by
      rcases List.mem_cons.mp hx with rfl | hx
      · exact .here (by simp [tops])
      · exact (idsAll_stands content h.2.2.2 x hx).mono fun y hy => by simp [tops, hy]
  | .fragment id _ content, _, h, x, hx => by
      rcases List.mem_cons.mp hx with rfl | hx
      · exact .here (by simp [tops])
      · exact (idsAll_stands content h.2.2.2 x hx).mono fun y hy => by simp [tops, hy]
theorem idsAll_stands {b : Browser} : ∀ (is : List (Inst S V)) {p}, HoldsAll b p is → ∀ x ∈ idsAll is, Stands b (topsAll is) x
  | [], _, _, x, hx => by simp [idsAll] at hx
  | i :: is, _, h, x, hx => by
      rcases List.mem_append.mp hx with hx | hx
      · exact (ids_stands i h.1 x hx).mono fun y hy => by simp [topsAll, hy]
      · exact (idsAll_stands is h.2 x hx).mono fun y hy => by simp [topsAll, hy]
end

theorem stands_ids {b : Browser} {n} (hg : Good b n) {is : List (Inst S V)} {p} (h : HoldsAll b p is) {l x} (hi : Stands b l x) (hl : ∀ y ∈ l, y ∈ idsAll is) :
    x ∈ idsAll is := by
  induction hi with
  | here h => exact hl _ h
  | deeper hy _ ih => exact ih fun z hz => holdsAll_closed hg h (hl _ hy) hz

/-! ## What is created is held or removed -/

/-- The node a command creates. -/
def creates : Cmd → Option Id
  | .createNode id _ => some id
  | .createText id _ => some id
  | .createComment id _ => some id
  | _ => none

def createdBy (cs : List Cmd) : List Id := cs.filterMap creates

theorem createdBy_append (cs ds : List Cmd) : createdBy (cs ++ ds) = createdBy cs ++ createdBy ds := List.filterMap_append
theorem removedBy_append (cs ds : List Cmd) : removedBy (cs ++ ds) = removedBy cs ++ removedBy ds := List.filterMap_append

/-- Whatever was held before (`o`) or is created is held afterwards (`n`) or removed. -/
def Accounts (cs : List Cmd) (o n : List Id) : Prop := ∀ x, x ∈ o ∨ x ∈ createdBy cs → x ∈ n ∨ x ∈ removedBy cs

theorem Accounts.nil (o : List Id) : Accounts [] o o := by
  intro x hx; simpa [createdBy, removedBy] using hx

theorem Accounts.append {cs ds : List Cmd} {o1 o2 n1 n2 : List Id} (h1 : Accounts cs o1 n1) (h2 : Accounts ds o2 n2) :
    Accounts (cs ++ ds) (o1 ++ o2) (n1 ++ n2) := by
  intro x hx
  have a := h1 x
  have b := h2 x
  simp only [createdBy_append, removedBy_append, List.mem_append] at hx ⊢
  tauto

theorem Accounts.of {cs ds : List Cmd} {o n o' n' : List Id} (h : Accounts cs o n) (hc : ∀ x ∈ createdBy ds, x ∈ createdBy cs)
    (hr : ∀ x ∈ removedBy cs, x ∈ removedBy ds ∨ x ∈ n') (ho : ∀ x ∈ o', x ∈ o) (hn : ∀ x ∈ n, x ∈ n' ∨ x ∈ removedBy ds) : Accounts ds o' n' := by
  intro x hx
  rcases h x (hx.imp (ho x) (hc x)) with h1 | h1
  · exact hn x h1
  · exact (hr x h1).symm

mutual
theorem drops_account : ∀ (i : Inst S V), ∀ x ∈ ids i, x ∈ removedBy (drops i)
  | .element id _ _ children => by
      intro x hx
      have := dropsAll_account children x
      simp only [ids, List.mem_cons] at hx
      simp only [drops, removedBy, List.filterMap_cons, Cmd.removes, List.mem_cons] at this ⊢
      tauto
  | .text id _ => by intro x hx; simpa [ids, drops, removedBy, Cmd.removes] using hx
  | .computedText id _ _ => by intro x hx; simpa [ids, drops, removedBy, Cmd.removes] using hx
  | .value id _ _ _ _ _ content => by
      intro x hx
      have := dropsAll_account content x
      simp only [ids, List.mem_cons] at hx
      simp only [drops, removedBy, List.filterMap_cons, Cmd.removes, List.mem_cons] at this ⊢
      tauto
  | .list id _ _ _ _ _ content => by
      intro x hx
      have := dropsAll_account content x
      simp only [ids, List.mem_cons] at hx
      simp only [drops, removedBy, List.filterMap_cons, Cmd.removes, List.mem_cons] at this ⊢
      tauto
  | .fragment id _ content => by
      intro x hx
      have := dropsRev_account content x
      simp only [ids, List.mem_cons] at hx
      simp only [drops, removedBy, List.filterMap_cons, Cmd.removes, List.mem_cons] at this ⊢
      tauto
theorem dropsAll_account : ∀ (is : List (Inst S V)), ∀ x ∈ idsAll is, x ∈ removedBy (dropsAll is)
  | [] => by intro x hx; simp [idsAll] at hx
  | i :: is => by
      intro x hx
      have a := drops_account i x
      have b := dropsAll_account is x
      simp only [idsAll, dropsAll, removedBy_append, List.mem_append] at hx ⊢
      tauto
theorem dropsRev_account : ∀ (is : List (Inst S V)), ∀ x ∈ idsAll is, x ∈ removedBy (dropsRev is)
  | [] => by intro x hx; simp [idsAll] at hx
  | i :: is => by
      intro x hx
      have a := drops_account i x
      have b := dropsRev_account is x
      simp only [idsAll, dropsRev, removedBy_append, List.mem_append] at hx ⊢
      tauto
end

mutual
theorem drops_creates : ∀ (i : Inst S V), createdBy (drops i) = []
  | .element id _ _ children => by simpa [drops, createdBy, creates] using dropsAll_creates children
  | .text id _ => rfl
  | .computedText id _ _ => rfl
  | .value id _ _ _ _ _ content => by simpa [drops, createdBy, creates] using dropsAll_creates content
  | .list id _ _ _ _ _ content => by simpa [drops, createdBy, creates] using dropsAll_creates content
  | .fragment id _ content => by simpa [drops, createdBy, creates] using dropsRev_creates content
theorem dropsAll_creates : ∀ (is : List (Inst S V)), createdBy (dropsAll is) = []
  | [] => rfl
  | i :: is => by rw [dropsAll, createdBy_append, drops_creates i, dropsAll_creates is]; rfl
theorem dropsRev_creates : ∀ (is : List (Inst S V)), createdBy (dropsRev is) = []
  | [] => rfl
  | i :: is => by rw [dropsRev, createdBy_append, drops_creates i, dropsRev_creates is]; rfl
end

theorem dropsAll_accounts (is : List (Inst S V)) : Accounts (dropsAll is) (idsAll is) [] := by
  intro x hx
  rw [dropsAll_creates] at hx
  rcases hx with hx | hx
  · exact Or.inr (dropsAll_account is x hx)
  · cases hx

/-- A node that is created, and then inserted anywhere. -/
def Counted (c : Created S V × List Cmd × Nat) : Prop := ∀ p m, Accounts (c.2.1 ++ (c.1.mount p m).2.1) [] (ids (c.1.mount p m).1)

theorem Counted.insert {c : Created S V × List Cmd × Nat} (h : Counted c) (p : Id) (ref : Option Id) (m : Nat) :
    Accounts (c.2.1 ++ (c.1.insert p ref m).2.1) [] (ids (c.1.insert p ref m).1) := by
  refine (h p m).of ?_ ?_ (fun x hx => hx) (fun x hx => Or.inl hx)
  · intro x hx
    simp only [Created.insert, createdBy_append, List.mem_append] at hx ⊢
    simpa [createdBy, creates] using hx
  · intro x hx
    left
    simp only [Created.insert, removedBy_append, List.mem_append] at hx ⊢
    simpa [removedBy, Cmd.removes] using hx

theorem onValue_accounts {create : V → Nat → Created S V × List Cmd × Nat} (h : ∀ v m, Counted (create v m)) (id p : Id) (shown : V → Bool) (v : V)
    (old : List (Inst S V)) (n : Nat) : Accounts (onValue create id p shown v old n).2.1 (idsAll old) (idsAll (onValue create id p shown v old n).1) := by
  unfold onValue
  split
  · have := ((h v n).insert p (some id) (create v n).2.2).append (dropsAll_accounts old)
    simpa [idsAll] using this
  · exact dropsAll_accounts old

theorem Accounts.mem {cs : List Cmd} {o n : List Id} (h : Accounts cs o n) (x : Id) : x ∈ o ∨ x ∈ createdBy cs → x ∈ n ∨ x ∈ removedBy cs := h x

section
variable [DecidableEq V]

theorem pop_ids {key : V → V} {k : V} : ∀ {cache : List (V × Inst S V)} {i : Inst S V} {rest : List (V × Inst S V)}, pop key k cache = some (i, rest) →
    ∀ x, x ∈ idsAll (cache.map (·.2)) → x ∈ ids i ∨ x ∈ idsAll (rest.map (·.2))
  | [], i, rest, h, x, hx => by simp [pop] at h
  | (v, j) :: cache, i, rest, h, x, hx => by
      simp only [pop] at h
      simp only [List.map_cons, idsAll, List.mem_append] at hx
      split at h
      · cases h; exact hx
      · split at h
        · cases h
        · rename_i j' cache' e
          cases h
          have := pop_ids e x
          simp only [List.map_cons, idsAll, List.mem_append]
          tauto

theorem place_accounts {key : V → V} {fresh : Id → V → Nat → Inst S V × List Cmd × Nat} {again : Id → Inst S V → Nat → Inst S V × List Cmd × Nat}
    (hf : ∀ ref v n, Accounts (fresh ref v n).2.1 [] (ids (fresh ref v n).1))
    (ha : ∀ ref i n, Accounts (again ref i n).2.1 (ids i) (ids (again ref i n).1)) :
    ∀ (vs : List V) (cache : List (V × Inst S V)) (ref : Id) (n : Nat),
      Accounts (place key fresh again vs cache ref n).cmds (idsAll (cache.map (·.2)))
        (idsAll ((place key fresh again vs cache ref n).pairs.map (·.2)) ++ idsAll ((place key fresh again vs cache ref n).cache.map (·.2)))
  | [], cache, ref, n => by simpa [place, idsAll] using Accounts.nil _
  | v :: vs, cache, ref, n => by
      simp only [place]
      split
      · rename_i i cache' e
        have h1 := ha ref i n
        have h2 := place_accounts (key := key) hf ha vs cache' (again ref i n).1.id (again ref i n).2.2
        have h3 := pop_ids e
        intro x hx
        have h1 := h1 x
        have h2 := h2 x
        have h3 := h3 x
        simp only [createdBy_append, removedBy_append, List.mem_append, List.map_append, List.map_cons, List.map_nil, idsAll_append, idsAll,
          List.append_nil] at h1 h2 hx ⊢
        tauto
      · have h1 := hf ref v n
        have h2 := place_accounts (key := key) hf ha vs cache (fresh ref v n).1.id (fresh ref v n).2.2
        intro x hx
        have h1 := h1 x
        have h2 := h2 x
        simp only [createdBy_append, removedBy_append, List.mem_append, List.map_append, List.map_cons, List.map_nil, idsAll_append, idsAll,
          List.append_nil] at h1 h2 hx ⊢
        tauto

theorem onList_accounts {key : V → V} {fresh : Id → V → Nat → Inst S V × List Cmd × Nat} {again : Id → Inst S V → Nat → Inst S V × List Cmd × Nat}
    (hf : ∀ ref v n, Accounts (fresh ref v n).2.1 [] (ids (fresh ref v n).1))
    (ha : ∀ ref i n, Accounts (again ref i n).2.1 (ids i) (ids (again ref i n).1))
    {order : List (Inst S V) → List (Inst S V)} (hord : ∀ l, (order l).Perm l) (id : Id) (current : List (V × Inst S V)) (new : List V) (n : Nat) :
    Accounts (onList key fresh again order id current new n).2.1 (idsAll (current.map (·.2)))
      (idsAll ((onList key fresh again order id current new n).1.map (·.2))) := by
  obtain ⟨e1, -⟩ := pairsTop_eq current new
  obtain ⟨e2, -⟩ := pairsBottom_eq (pairsTop current new).2.1 (pairsTop current new).2.2
  simp only [onList]
  generalize pairsTop current new = t at e1 e2 ⊢
  generalize pairsBottom t.2.1 t.2.2 = u at e2 ⊢
  have h1 := place_accounts (key := key) hf ha u.2.2.reverse u.2.1 ((u.1.head?.map (·.2.id)).getD id) n
  generalize place key fresh again u.2.2.reverse u.2.1 ((u.1.head?.map (·.2.id)).getD id) n = m at h1 ⊢
  have h2 := dropsAll_accounts (order (m.cache.map (·.2)))
  have h3 : ∀ x, x ∈ idsAll (m.cache.map (·.2)) → x ∈ idsAll (order (m.cache.map (·.2))) := fun x hx => (idsAll_perm (hord _)).symm.subset hx
  intro x hx
  have h1 := h1 x
  have h2 := h2 x
  have h3 := h3 x
  rw [e1, e2] at hx
  simp only [createdBy_append, removedBy_append, List.mem_append, List.map_append, idsAll_append, List.not_mem_nil, false_or] at h1 h2 hx ⊢
  tauto

mutual
theorem create_counted (σ : S) : ∀ (v : View S V) (n : Nat), Counted (create σ v n)
  | .element name attrs children, n => by
      intro p m x hx
      have h := createChildren_accounts σ n children (n + 1) x
      have ha : ∀ l : List (String × (S → Option String)), createdBy (l.map fun a => attrCmd n a.1 (a.2 σ)) = [] ∧
          removedBy (l.map fun a => attrCmd n a.1 (a.2 σ)) = [] := by
        intro l
        induction l with
        | nil => exact ⟨rfl, rfl⟩
        | cons a l ih =>
          obtain ⟨i1, i2⟩ := ih
          simp only [createdBy, removedBy, List.map_cons, List.filterMap_cons] at i1 i2 ⊢
          rw [i1, i2]
          cases a.2 σ <;> exact ⟨rfl, rfl⟩
      obtain ⟨a1, a2⟩ := ha attrs
      simp only [create, List.append_nil, ids, List.mem_cons, List.not_mem_nil, false_or] at hx h ⊢
      rw [← List.singleton_append (l := _ ++ _)] at hx ⊢
      simp only [createdBy_append, removedBy_append, a1, a2, List.mem_append, List.not_mem_nil, false_or] at hx ⊢
      simp only [createdBy, List.filterMap_cons, creates, List.filterMap_nil, List.mem_singleton] at hx
      simp only [createdBy] at h
      tauto
  | .text value, n => by intro p m x hx; left; simpa [create, createdBy, creates, ids] using hx
  | .computedText f, n => by intro p m x hx; left; simpa [create, createdBy, creates, ids] using hx
  | .value f shown render, n => by
      intro p m x hx
      have h := onValue_accounts (fun v m => create_counted σ (render v) m) n p shown (f σ) [] m x
      simp only [create, ids, List.mem_cons, List.not_mem_nil, false_or, createdBy_append, removedBy_append, List.mem_append, idsAll] at hx h ⊢
      simp only [createdBy, List.filterMap_cons, creates, List.filterMap_nil, List.mem_singleton] at hx
      simp only [createdBy] at h
      tauto
  | .list f key render, n => by
      intro p m x hx
      have h := onList_accounts (key := key) (fresh := fun ref v m =>
            let c := create σ (render v) m
            let i := c.1.insert p (some ref) c.2.2
            (i.1, c.2.1 ++ i.2.1, i.2.2)) (again := fun _ i m => (i, [], m)) (fun ref v m => (create_counted σ (render v) m).insert p (some ref) _)
        (fun ref i m => Accounts.nil _) (order := fun x => x) (fun l => .refl l) n [] (f σ) m x
      simp only [create, ids, List.mem_cons, List.not_mem_nil, false_or, createdBy_append, removedBy_append, List.mem_append, List.map_nil, idsAll] at hx h ⊢
      simp only [createdBy, List.filterMap_cons, creates, List.filterMap_nil, List.mem_singleton] at hx
      simp only [createdBy] at h
      tauto
  | .fragment nodes, n => by
      intro p m x hx
      have h := createAll_accounts σ nodes n p (createAll σ nodes n).2.2 m x
      simp only [create, ids, List.mem_cons, List.not_mem_nil, false_or, createdBy_append, removedBy_append, List.mem_append] at hx h ⊢
      simp only [createdBy, List.filterMap_cons, creates, List.filterMap_nil, List.mem_singleton] at hx
      simp only [createdBy] at h
      tauto
theorem createChildren_accounts (σ : S) (p : Id) : ∀ (vs : List (View S V)) (n : Nat),
    Accounts (createChildren σ p vs n).2.1 [] (idsAll (createChildren σ p vs n).1)
  | [], n => Accounts.nil _
  | v :: vs, n => by
      have h1 := (create_counted σ v n).insert p none (create σ v n).2.2
      have h2 := createChildren_accounts σ p vs ((create σ v n).1.insert p none (create σ v n).2.2).2.2
      have := h1.append h2
      simpa [createChildren, idsAll] using this
theorem createAll_accounts (σ : S) : ∀ (vs : List (View S V)) (n : Nat) (p id : Id) (m : Nat),
    Accounts ((createAll σ vs n).2.1 ++ (mountAll p id (createAll σ vs n).1 m).2.1) [] (idsAll (mountAll p id (createAll σ vs n).1 m).1)
  | [], n, p, id, m => Accounts.nil _
  | v :: vs, n, p, id, m => by
      have h2 := createAll_accounts σ vs (create σ v n).2.2 p id m
      intro x hx
      simp only [createAll, mountAll] at hx ⊢
      generalize mountAll p id (createAll σ vs (create σ v n).2.2).1 m = r at h2 hx ⊢
      have h1 := (create_counted σ v n).insert p (some r.2.2.2) r.2.2.1 x
      have h2 := h2 x
      simp only [createdBy_append, removedBy_append, List.mem_append, idsAll, List.not_mem_nil, false_or] at h1 h2 hx ⊢
      tauto
end

mutual
theorem remount_accounts (σ : S) : ∀ (i : Inst S V) (p : Id) (n : Nat), Accounts (remount σ i p n).2.1 (ids i) (ids (remount σ i p n).1)
  | .value id _ f shown render _ content, p, n => by
      have h1 := onValue_accounts (fun v m => create_counted σ (render v) m) id p shown (f σ) [] n
      have h2 := dropsAll_accounts content
      intro x hx
      have h1 := h1 x
      have h2 := h2 x
      simp only [remount, ids, List.mem_cons, List.not_mem_nil, false_or, createdBy_append, removedBy_append, List.mem_append, idsAll] at hx h1 h2 ⊢
      tauto
  | .list id _ f key render _ content, p, n => by
      have h1 := onList_accounts (key := key) (fresh := createBefore σ render p) (again := fun _ i m => (i, [], m))
        (fun ref v m => (create_counted σ (render v) m).insert p (some ref) _)
        (fun ref i m => Accounts.nil _) (order := fun x => x) (fun l => .refl l) id [] (f σ) n
      have h2 := dropsAll_accounts content
      intro x hx
      have h1 := h1 x
      have h2 := h2 x
      simp only [remount, ids, List.mem_cons, List.not_mem_nil, false_or, createdBy_append, removedBy_append, List.mem_append, idsAll, List.map_nil] at hx h1 h2 ⊢
      tauto
  | .fragment id _ content, p, n => by
      have h1 := remountAll_accounts σ id content p n
      intro x hx
      have h1 := h1 x
      simp only [remount, ids, List.mem_cons] at hx h1 ⊢
      tauto
  | .element .., _, _ => Accounts.nil _
  | .text .., _, _ => Accounts.nil _
  | .computedText .., _, _ => Accounts.nil _
theorem remountAll_accounts (σ : S) (id : Id) : ∀ (is : List (Inst S V)) (p : Id) (n : Nat),
    Accounts (remountAll σ id is p n).2.1 (idsAll is) (idsAll (remountAll σ id is p n).1)
  | [], _, _ => Accounts.nil _
  | i :: is, p, n => by
      have h1 := remountAll_accounts σ id is p n
      have h2 := remount_accounts σ i p (remountAll σ id is p n).2.2.1
      intro x hx
      have h1 := h1 x
      have h2 := h2 x
      simp only [remountAll, idsAll, createdBy_append, removedBy_append, List.mem_append] at hx h1 h2 ⊢
      simp only [createdBy, removedBy, List.filterMap_cons, creates, Cmd.removes] at hx h1 h2 ⊢
      tauto
end

theorem runAttrs_silent (σ : S) (id : Id) (s : Sub) : ∀ (as : List (Attr S)), createdBy (runAttrs σ id s as).2 = [] ∧ removedBy (runAttrs σ id s as).2 = []
  | [] => ⟨rfl, rfl⟩
  | a :: as => by
      obtain ⟨h1, h2⟩ := runAttrs_silent σ id s as
      simp only [runAttrs, createdBy_append, removedBy_append, h1, h2, List.append_nil]
      unfold Attr.run
      split
      · cases a.f σ <;> exact ⟨rfl, rfl⟩
      · exact ⟨rfl, rfl⟩

omit [DecidableEq V] in
theorem zip_ids {items : List V} {content : List (Inst S V)} (h : content.length ≤ items.length) : (items.zip content).map (·.2) = content := by
  rw [show (fun x : V × Inst S V => x.2) = Prod.snd from rfl, List.map_snd_zip h]

mutual
/-- Each list has an item for each of its nodes. -/
def Even : Inst S V → Prop
  | .element _ _ _ children => EvenAll children
  | .text .. => True
  | .computedText .. => True
  | .value _ _ _ _ _ _ content => EvenAll content
  | .list _ _ _ _ _ items content => content.length ≤ items.length ∧ EvenAll content
  | .fragment _ _ content => EvenAll content
def EvenAll : List (Inst S V) → Prop
  | [] => True
  | i :: is => Even i ∧ EvenAll is
end

mutual
theorem run_accounts (σ : S) {order : List (Inst S V) → List (Inst S V)} (hord : ∀ l, (order l).Perm l) (s : Sub) :
    ∀ (i : Inst S V) (n : Nat), Even i → Accounts (run σ order s i n).2.1 (ids i) (ids (run σ order s i n).1)
  | .element id name attrs children, n, he => by
      have h1 := runAll_accounts σ hord s children n he
      obtain ⟨a1, a2⟩ := runAttrs_silent σ id s attrs
      intro x hx
      have h1 := h1 x
      simp only [run, ids, List.mem_cons, createdBy_append, removedBy_append, a1, a2, List.nil_append] at hx h1 ⊢
      tauto
  | .text .., _, _ => Accounts.nil _
  | .computedText id f last, n, _ => by
      simp only [run]
      split
      · intro x hx; left; simpa [ids, createdBy, creates] using hx
      · exact Accounts.nil _
  | .value id p f shown render last content, n, he => by
      simp only [run]
      split
      · have h1 := onValue_accounts (fun v m => create_counted σ (render v) m) id p shown (f σ) content n
        intro x hx
        have h1 := h1 x
        simp only [ids, List.mem_cons] at hx h1 ⊢
        tauto
      · have h1 := runAll_accounts σ hord s content n he
        intro x hx
        have h1 := h1 x
        simp only [ids, List.mem_cons] at hx h1 ⊢
        tauto
  | .list id p f key render items content, n, he => by
      simp only [run]
      split
      · have h1 := onList_accounts (key := key) (fresh := createBefore σ render p) (again := insertAgain σ p)
          (fun ref v m => (create_counted σ (render v) m).insert p (some ref) _)
          (fun ref i m => by
            intro x hx
            have := remount_accounts σ i p m x
            simp only [insertAgain, createdBy, removedBy, List.filterMap_cons, creates, Cmd.removes] at hx this ⊢
            exact this hx) hord id (items.zip content) (f σ) n
        rw [zip_ids he.1] at h1
        intro x hx
        have h1 := h1 x
        simp only [ids, List.mem_cons] at hx h1 ⊢
        tauto
      · have h1 := runAll_accounts σ hord s content n he.2
        intro x hx
        have h1 := h1 x
        simp only [ids, List.mem_cons] at hx h1 ⊢
        tauto
  | .fragment id p content, n, he => by
      have h1 := runAll_accounts σ hord s content n he
      intro x hx
      have h1 := h1 x
      simp only [run, ids, List.mem_cons] at hx h1 ⊢
      tauto
theorem runAll_accounts (σ : S) {order : List (Inst S V) → List (Inst S V)} (hord : ∀ l, (order l).Perm l) (s : Sub) :
    ∀ (is : List (Inst S V)) (n : Nat), EvenAll is → Accounts (runAll σ order s is n).2.1 (idsAll is) (idsAll (runAll σ order s is n).1)
  | [], _, _ => Accounts.nil _
  | i :: is, n, he => by
      have h1 := run_accounts σ hord s i n he.1
      have h2 := runAll_accounts σ hord s is (run σ order s i n).2.2 he.2
      exact h1.append h2
end

omit [DecidableEq V] in
theorem fitsAll_length : ∀ {vs : List (View S V)} {is : List (Inst S V)}, FitsAll vs is → is.length = vs.length
  | [], [], _ => rfl
  | _ :: _, _ :: _, h => by simp [fitsAll_length h.2]
  | [], _ :: _, h => h.elim
  | _ :: _, [], h => h.elim

omit [DecidableEq V] in
mutual
theorem even_of_fits : ∀ (i : Inst S V) {v : View S V}, Fits v i → Even i
  | .element _ _ _ children, v, h => by
      cases v with
      | element => exact evenAll_of_fits children h.2.2
      | _ => exact h.elim
  | .text .., _, _ => trivial
  | .computedText .., _, _ => trivial
  | .value _ _ _ _ _ _ content, v, h => by
      cases v with
      | value => exact evenAll_of_fits content h.2.2.2
      | _ => exact h.elim
  | .list _ _ _ _ _ items content, v, h => by
      cases v with
      | list =>
        refine ⟨?_, evenAll_of_fits content h.2.2.2⟩
        have := fitsAll_length h.2.2.2
        simp only [List.length_map] at this
        omega
      | _ => exact h.elim
  | .fragment _ _ content, v, h => by
      cases v with
      | fragment => exact evenAll_of_fits content h
      | _ => exact h.elim
theorem evenAll_of_fits : ∀ (is : List (Inst S V)) {vs : List (View S V)}, FitsAll vs is → EvenAll is
  | [], _, _ => trivial
  | i :: is, vs, h => by
      cases vs with
      | nil => exact h.elim
      | cons v vs => exact ⟨even_of_fits i h.1, evenAll_of_fits is h.2⟩
end

theorem Accounts.trans {cs ds : List Cmd} {o m n : List Id} (h1 : Accounts cs o m) (h2 : Accounts ds m n) : Accounts (cs ++ ds) o n := by
  intro x hx
  have a := h1 x
  have b := h2 x
  simp only [createdBy_append, removedBy_append, List.mem_append] at hx ⊢
  tauto

theorem change_accounts {views : List (View S V)} (hok : ∀ v ∈ views, v.Fine) {order : List (Inst S V) → List (Inst S V)}
    (hord : ∀ l, (order l).Perm l) {σ : S} : ∀ (subs : List Sub) {b : Browser} {a : App S V}, Agree views b a →
    Accounts (a.change σ order subs).2 (idsAll a.body) (idsAll (a.change σ order subs).1.body)
  | [], b, a, h => Accounts.nil _
  | s :: subs, b, a, h => by
      have hne : 3 ∉ idsAll a.body := fun h3 => absurd (h.ids 3 h3) (by decide)
      obtain ⟨b1, hb1, he1, hd1⟩ := runAll_ok (σ := σ) hord (s := s) a.body (L := []) (R := []) hok h.good h.usable h.holds h.fits h.nodup hne
        (by rw [h.body]; simp)
      have h4 := h.good.four
      have h1 : SameAt b b1 1 := he1.same 1 (by omega) (fun h1 => absurd (h.ids 1 h1) (by decide)) (by decide)
      have ha : Agree views b1 ⟨(runAll σ order s a.body a.next).1, (runAll σ order s a.body a.next).2.2⟩ :=
        ⟨he1.good, h.usable.same he1.but, by rw [h1.children, h.html], by rw [he1.children]; simp, he1.holds, he1.fits, he1.nodup,
          fun x hx => (he1.ids x hx).elim (h.ids x) (Nat.le_trans h4)⟩
      exact (runAll_accounts σ hord s a.body a.next (evenAll_of_fits _ h.fits)).trans (change_accounts hok hord subs ha)

theorem history_accounts {views : List (View S V)} (hok : ∀ v ∈ views, v.Fine) {order : List (Inst S V) → List (Inst S V)}
    (hord : ∀ l, (order l).Perm l) : ∀ (h : List (S × List Sub)) {b : Browser} {a : App S V}, Agree views b a → Complete order h a →
    Accounts (a.history order h).2 (idsAll a.body) (idsAll (a.history order h).1.body)
  | [], b, a, ha, _ => Accounts.nil _
  | (σ', subs) :: h, b, a, ha, hc => by
      obtain ⟨b1, -, ha1, -⟩ := change_agrees hok hord (σ := σ') subs ha hc.1
      exact (change_accounts hok hord (σ := σ') subs ha).trans (history_accounts hok hord h ha1 hc.2)

theorem sent_accounts {views : List (View S V)} (hok : ∀ v ∈ views, v.Fine) {order : List (Inst S V) → List (Inst S V)}
    (hord : ∀ l, (order l).Perm l) {σ : S} {h : List (S × List Sub)} (hc : Complete order h (App.start σ views).1) :
    Accounts (App.sent σ views order h) [] ([1, 2, 3] ++ idsAll ((App.start σ views).1.history order h).1.body) := by
  obtain ⟨b1, cs, b2, b3, e, h1, h2, h3, ha1, hd1⟩ := start_agrees hok σ
  have h4 := history_accounts hok hord h ha1 hc
  have h5 : Accounts (App.start σ views).2 [] ([1, 2, 3] ++ idsAll (App.start σ views).1.body) := by
    have h6 := createChildren_accounts σ 3 views 4
    intro x hx
    have h6 := h6 x
    simp only [App.start, createdBy_append, removedBy_append, List.mem_append, List.not_mem_nil, false_or] at hx h6 ⊢
    simp only [createdBy, List.filterMap_cons, creates, List.filterMap_nil, List.mem_cons, List.not_mem_nil, or_false] at hx h6 ⊢
    tauto
  have h7 : Accounts ((App.start σ views).1.history order h).2 ([1, 2, 3] ++ idsAll (App.start σ views).1.body)
      ([1, 2, 3] ++ idsAll ((App.start σ views).1.history order h).1.body) := by
    intro x hx
    have h4 := h4 x
    simp only [List.mem_append] at hx ⊢
    tauto
  exact h5.trans h7

end

/-! ## The map -/

theorem create_inMap {b b' : Browser} {id o x} (h : b.create id o = .ok b') (hx : b'.inMap x = true) : b.inMap x = true ∨ x = id := by
  unfold Browser.create at h
  split at h
  · cases h; exact Or.inl hx
  · split at h
    · cases h
    · cases h
      simp only [fupd] at hx
      split at hx
      · rename_i e; exact Or.inr e
      · exact Or.inl hx

theorem detach_map (b : Browser) (id : Id) : (b.detach id).inMap = b.inMap := by
  unfold Browser.detach; split <;> rfl

theorem insertBefore_map {b b' : Browser} {p c ref} (h : b.insertBefore p c ref = .ok b') : b'.inMap = b.inMap := by
  unfold Browser.insertBefore at h
  split at h
  · split at h
    · cases h
    · split at h
      · cases h; exact detach_map b c
      · split at h
        · cases h
        · split at h
          · cases h; rfl
          · cases h; exact detach_map b c
  · cases h

theorem step_inMap {b b' : Browser} {c : Cmd} {x} (h : b.step c = .ok b') (hx : b'.inMap x = true) :
    b.inMap x = true ∨ creates c = some x := by
  have hrem : ∀ id, b.remove id = .ok b' → b.inMap x = true := by
    intro id h
    unfold Browser.remove at h
    split at h
    · cases h
    · cases h
      rw [detach_map] at hx
      simp only [fupd] at hx
      split at hx
      · cases hx
      · exact hx
  cases c with
  | createNode id name => exact (create_inMap h hx).imp_right fun e => by rw [e]; rfl
  | createText id name => exact (create_inMap h hx).imp_right fun e => by rw [e]; rfl
  | createComment id name => exact (create_inMap h hx).imp_right fun e => by rw [e]; rfl
  | removeNode id => exact Or.inl (hrem id h)
  | removeText id => exact Or.inl (hrem id h)
  | removeComment id => exact Or.inl (hrem id h)
  | updateText id v => simp only [Browser.step] at h; split at h <;> cases h; exact Or.inl hx
  | setAttr id n v => simp only [Browser.step] at h; split at h <;> cases h; exact Or.inl hx
  | removeAttr id n => simp only [Browser.step] at h; split at h <;> cases h; exact Or.inl hx
  | insertBefore p c ref =>
    simp only [Browser.step] at h
    split at h
    · split at h
      · rw [insertBefore_map h] at hx; exact Or.inl hx
      · split at h
        · cases h
        · rw [insertBefore_map h] at hx; exact Or.inl hx
    · cases h
  | insertCss s v => cases h; exact Or.inl hx
  | callbackAdd id e cb =>
    simp only [Browser.step] at h
    split at h
    · cases h; exact Or.inl hx
    · split at h <;> cases h; exact Or.inl hx
  | callbackRemove id e cb =>
    simp only [Browser.step] at h
    split at h
    · split at h <;> cases h; exact Or.inl hx
    · cases h; exact Or.inl hx

theorem run_inMap : ∀ {cs : List Cmd} {b b' : Browser} {x}, b.run cs = .ok b' → b'.inMap x = true → b.inMap x = true ∨ x ∈ createdBy cs
  | [], b, b', x, h, hx => by cases h; exact Or.inl hx
  | c :: cs, b, b', x, h, hx => by
      simp only [Browser.run] at h
      split at h
      · cases h
      · rename_i b1 h1
        simp only [createdBy, List.mem_filterMap, List.mem_cons, exists_eq_or_imp]
        rcases run_inMap h hx with h2 | h2
        · rcases step_inMap h1 h2 with h3 | h3
          · exact Or.inl h3
          · exact Or.inr (Or.inl h3)
        · exact Or.inr (Or.inr (List.mem_filterMap.mp h2))

section
variable [DecidableEq V]

/-- The nodes in the map are those of the application. -/
theorem map_ids {views : List (View S V)} (hok : ∀ v ∈ views, v.Fine) {order : List (Inst S V) → List (Inst S V)}
    (hord : ∀ l, (order l).Perm l) {σ : S} {h : List (S × List Sub)} (hc : Complete order h (App.start σ views).1) {b : Browser}
    (hs : Sends views (lastState σ h) (App.sent σ views order h) ((App.start σ views).1.history order h).1 b) (x : Id) :
    b.inMap x = true ↔ x ∈ idsAll ((App.start σ views).1.history order h).1.body := by
  constructor
  · intro hx
    rcases run_inMap hs.run hx with h1 | h1
    · simp [Browser.init] at h1
    · rcases sent_accounts hok hord hc x (Or.inr h1) with h2 | h2
      · rcases List.mem_append.mp h2 with h2 | h2
        · exfalso
          have : isRoot x = true := by
            simp only [List.mem_cons, List.not_mem_nil, or_false] at h2
            rcases h2 with rfl | rfl | rfl <;> rfl
          rw [hs.agree.good.free x hx] at this
          cases this
        · exact h2
      · rw [((gone_run hs.run).2 x h2).2] at hx; cases hx
  · exact fun hx => holdsAll_inMap _ hs.agree.holds x hx

/-- **C66** (partial: `View.Fine`, as C49). The application starts in the state `σ` and goes through any number of transactions, after each of
which the subscriptions whose value has changed are run, in any order; the commands are sent in any batches, each of them sorted. Then the
driver in the browser has exactly the nodes that are in the document, and what it does not have is not in another node: nothing is left. -/
theorem C66_nothing_left_partial (views : List (View S V)) (hok : ∀ v ∈ views, v.Fine) (order : List (Inst S V) → List (Inst S V))
    (hord : ∀ l, (order l).Perm l) (σ : S) (h : List (S × List Sub)) (hc : Complete order h (App.start σ views).1)
    (batches : List (List Cmd)) (hb : batches.flatten = (App.start σ views).2 ++ ((App.start σ views).1.history order h).2) :
    ∃ b, Browser.init.run (batches.map sortCommands).flatten = .ok b ∧ (∀ x, b.inMap x = true ↔ Stands b (b.children 3) x) ∧
      ∀ x, isRoot x = false → b.inMap x = false → b.parent x = none := by
  obtain ⟨b, hs⟩ := sends hok hord hc
  refine ⟨b, hs.batches hb, fun x => ?_, fun x hr hx => ?_⟩
  rotate_left
  · cases hp : b.parent x with
    | none => rfl
    | some p =>
      have := (hs.agree.good.inv.par x p hp).1
      rw [hr, hx] at this
      simp at this
  rw [map_ids hok hord hc hs x, hs.agree.body]
  constructor
  · exact idsAll_stands _ hs.agree.holds x
  · exact fun h => stands_ids hs.agree.good hs.agree.holds h (topsAll_sub _)

end
end

/-! ## A history in which nodes come and go -/

example : ∃ b, Browser.init.run (exampleBatches.map sortCommands).flatten = .ok b ∧ (∀ x, b.inMap x = true ↔ Stands b (b.children 3) x) ∧
    ∀ x, isRoot x = false → b.inMap x = false → b.parent x = none :=
  C66_nothing_left_partial exampleView (fun v hv => (exampleView_ok v hv).fine) List.reverse List.reverse_perm 0 exampleHistory
    exampleHistory_complete exampleBatches (by decide +kernel)

/-- The ids of the nodes in the map, of those that were created. -/
def mapped (cs : List Cmd) : Option (List Id) :=
  match Browser.init.run cs with
  | .ok b => some ((createdBy cs).filter b.inMap)
  | .error _ => none

/-- 18 nodes were created (and html, head and body), five of them have been removed. -/
example : (createdBy (exampleBatches.map sortCommands).flatten).length = 21 ∧
    mapped (exampleBatches.map sortCommands).flatten = some [4, 5, 6, 7, 11, 12, 15, 16, 17, 18, 19, 20, 21] := by decide +kernel

end Verif.View

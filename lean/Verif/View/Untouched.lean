import Verif.View.Props
import Mathlib.Tactic.Tauto
/-!
# C50: an update leaves the rest of the document alone

Whatever changes in the state of an application, the commands that are sent are about texts whose value has changed,
attributes whose value has changed, and what is inside of values and lists that have changed. All other nodes are the
same nodes as before, at the same place, with the same content. No restriction on views.
-/
namespace Verif.View
open Verif.Dom

/-! ## Specification -/

/-- The node that a command creates, changes, moves or removes. -/
def about : Cmd → Option Id
  | .createNode id _ => some id
  | .createText id _ => some id
  | .createComment id _ => some id
  | .updateText id _ => some id
  | .setAttr id _ _ => some id
  | .removeAttr id _ => some id
  | .removeNode id => some id
  | .removeText id => some id
  | .removeComment id => some id
  | .insertBefore _ child _ => some child
  | .callbackAdd id _ _ => some id
  | .callbackRemove id _ _ => some id
  | .insertCss _ _ => none

/-- The command is about one of the nodes `xs`, or about a new node (the ids from `n` on are not used yet). -/
def Within (n : Nat) (xs : List Id) (c : Cmd) : Prop := ∃ x : Nat, about c = some x ∧ (x ∈ xs ∨ n ≤ x)

mutual
/-- What may happen to a node when the state changes to `σ`; `last` is the value that was shown before, the ids
from `n` on are not used yet:
* an attribute whose value is another one gets this value, or is removed;
* a text whose value is another one gets this value;
* if the value of a `render_value` or `render_list` is another one, anything may happen to the nodes inside. -/
def May (σ : S) (n : Nat) (c : Cmd) : Inst S V → Prop
  | .element id _ attrs children =>
      (∃ a ∈ attrs, a.f σ ≠ a.last ∧
        (a.f σ = none ∧ c = .removeAttr id a.name ∨ ∃ v, a.f σ = some v ∧ c = .setAttr id a.name v)) ∨
      MayAll σ n c children
  | .text _ _ => False
  | .computedText id f last => f σ ≠ last ∧ c = .updateText id (f σ)
  | .value _ _ f _ _ last content => f σ ≠ last ∧ Within n (idsAll content) c ∨ MayAll σ n c content
  | .list _ _ f _ _ items content => f σ ≠ items ∧ Within n (idsAll content) c ∨ MayAll σ n c content
  | .fragment _ _ content => MayAll σ n c content
def MayAll (σ : S) (n : Nat) (c : Cmd) : List (Inst S V) → Prop
  | [] => False
  | i :: is => May σ n c i ∨ MayAll σ n c is
end

section
variable [DecidableEq V]

mutual
/-- The nodes that are changed, or may be moved or removed, when the state changes to `σ`. -/
def touched (σ : S) : Inst S V → List Id
  | .element id _ attrs children => (if ∃ a ∈ attrs, a.f σ ≠ a.last then [id] else []) ++ touchedAll σ children
  | .text _ _ => []
  | .computedText id f last => if f σ = last then [] else [id]
  | .value _ _ f _ _ last content => if f σ = last then touchedAll σ content else idsAll content
  | .list _ _ f _ _ items content => if f σ = items then touchedAll σ content else idsAll content
  | .fragment _ _ content => touchedAll σ content
def touchedAll (σ : S) : List (Inst S V) → List Id
  | [] => []
  | i :: is => touched σ i ++ touchedAll σ is
end
end

/-! ## What commands are about -/

theorem Within.mono {n m : Nat} {xs ys : List Id} {c : Cmd} (h : Within m xs c) (hn : n ≤ m) (hs : ∀ x : Nat, x ∈ xs → x ∈ ys ∨ n ≤ x) :
    Within n ys c := by
  obtain ⟨x, hx, h | h⟩ := h
  · exact ⟨x, hx, hs x h⟩
  · exact ⟨x, hx, .inr (Nat.le_trans hn h)⟩

mutual
theorem drops_within (n : Nat) : ∀ (i : Inst S V), ∀ c ∈ drops i, Within n (ids i) c
  | .element id _ _ children, c, h => by
      rcases List.mem_cons.1 h with rfl | h
      · exact ⟨id, rfl, .inl (by simp [ids])⟩
      · exact (dropsAll_within n children c h).mono (Nat.le_refl n) fun x hx => .inl (by simp [ids, hx])
  | .text id _, c, h => by
      rw [drops, List.mem_singleton] at h; subst h
      exact ⟨id, rfl, .inl (by simp [ids])⟩
  | .computedText id _ _, c, h => by
      rw [drops, List.mem_singleton] at h; subst h
      exact ⟨id, rfl, .inl (by simp [ids])⟩
  | .value id _ _ _ _ _ content, c, h => by
      rcases List.mem_cons.1 h with rfl | h
      · exact ⟨id, rfl, .inl (by simp [ids])⟩
      · exact (dropsAll_within n content c h).mono (Nat.le_refl n) fun x hx => .inl (by simp [ids, hx])
  | .list id _ _ _ _ _ content, c, h => by
      rcases List.mem_cons.1 h with rfl | h
      · exact ⟨id, rfl, .inl (by simp [ids])⟩
      · exact (dropsAll_within n content c h).mono (Nat.le_refl n) fun x hx => .inl (by simp [ids, hx])
  | .fragment id _ content, c, h => by
      rcases List.mem_cons.1 h with rfl | h
      · exact ⟨id, rfl, .inl (by simp [ids])⟩
      · exact (dropsRev_within n content c h).mono (Nat.le_refl n) fun x hx => .inl (by simp [ids, hx])
theorem dropsAll_within (n : Nat) : ∀ (is : List (Inst S V)), ∀ c ∈ dropsAll is, Within n (idsAll is) c
  | [], c, h => by cases h
  | i :: is, c, h => by
      rcases List.mem_append.1 h with h | h
      · exact (drops_within n i c h).mono (Nat.le_refl n) fun x hx => .inl (by simp [idsAll, hx])
      · exact (dropsAll_within n is c h).mono (Nat.le_refl n) fun x hx => .inl (by simp [idsAll, hx])
theorem dropsRev_within (n : Nat) : ∀ (is : List (Inst S V)), ∀ c ∈ dropsRev is, Within n (idsAll is) c
  | [], c, h => by cases h
  | i :: is, c, h => by
      rcases List.mem_append.1 h with h | h
      · exact (dropsRev_within n is c h).mono (Nat.le_refl n) fun x hx => .inl (by simp [idsAll, hx])
      · exact (drops_within n i c h).mono (Nat.le_refl n) fun x hx => .inl (by simp [idsAll, hx])
end

/-- Nodes that replace nodes with the ids `xs`: the commands and the nodes are within these and new ones. -/
structure Local (n : Nat) (xs : List Id) (is : List (Inst S V)) (cs : List Cmd) (m : Nat) : Prop where
  le : n ≤ m
  cmds : ∀ c ∈ cs, Within n xs c
  ids : ∀ x : Nat, x ∈ idsAll is → x ∈ xs ∨ n ≤ x

/-- The node has an id from `n` on, and so has everything that its insertion creates. -/
structure From (n : Nat) (c : Created S V) : Prop where
  id : n ≤ c.id
  mount : ∀ p m, n ≤ m → m ≤ (c.mount p m).2.2 ∧ (∀ k ∈ (c.mount p m).2.1, Within n [] k) ∧
    ∀ x : Nat, x ∈ ids (c.mount p m).1 → n ≤ x

/-- A created node is new. -/
structure NewNode (n : Nat) (r : Created S V × List Cmd × Nat) : Prop where
  le : n ≤ r.2.2
  cmds : ∀ c ∈ r.2.1, Within n [] c
  created : ∀ k, k ≤ n → From k r.1

theorem From.insert {n : Nat} {d : Created S V} (h : From n d) (p : Id) (ref : Option Id) {m : Nat} (hm : n ≤ m) :
    m ≤ (d.insert p ref m).2.2 ∧ (∀ c ∈ (d.insert p ref m).2.1, Within n [] c) ∧
    ∀ x : Nat, x ∈ ids (d.insert p ref m).1 → n ≤ x := by
  obtain ⟨h1, h2, h3⟩ := h.mount p m hm
  refine ⟨h1, ?_, h3⟩
  intro c hc
  rcases List.mem_cons.1 hc with rfl | hc
  · exact ⟨d.id, rfl, .inr h.id⟩
  · exact h2 c hc

theorem Within.nil {n m : Nat} {xs : List Id} {c : Cmd} (h : Within m [] c) (hn : n ≤ m) : Within n xs c :=
  h.mono hn fun _ hx => by cases hx

theorem onValue_local {create : V → Nat → Created S V × List Cmd × Nat} (hc : ∀ v n, NewNode n (create v n)) (id parent : Id)
    (shown : V → Bool) (v : V) (old : List (Inst S V)) (n : Nat) :
    Local n (idsAll old) (onValue create id parent shown v old n).1 (onValue create id parent shown v old n).2.1
      (onValue create id parent shown v old n).2.2 := by
  unfold onValue
  split
  · have h := hc v n
    obtain ⟨h1, h2, h3⟩ := (h.created n (Nat.le_refl n)).insert parent (some id) h.le
    refine ⟨Nat.le_trans h.le h1, ?_, ?_⟩
    · intro c hc
      simp only [List.mem_append] at hc
      rcases hc with (hc | hc) | hc
      · exact (h.cmds c hc).nil (Nat.le_refl n)
      · exact (h2 c hc).nil (Nat.le_refl n)
      · exact dropsAll_within n old c hc
    · intro x hx
      simp only [idsAll, List.append_nil] at hx
      exact .inr (h3 x hx)
  · exact ⟨Nat.le_refl n, dropsAll_within n old, fun x hx => by cases hx⟩

theorem mem_idsAll {is : List (Inst S V)} {x : Nat} : x ∈ idsAll is ↔ ∃ i ∈ is, x ∈ ids i := by
  induction is with
  | nil => simp [idsAll]
  | cons i is ih => simp [idsAll, ih]

section
variable [DecidableEq V]

theorem pop_local {key : V → V} {k : V} : ∀ {cache : List (V × Inst S V)} {i : Inst S V} {rest : List (V × Inst S V)},
    pop key k cache = some (i, rest) → i ∈ nodes cache ∧ ∀ j ∈ nodes rest, j ∈ nodes cache
  | (v, i) :: cache, j, rest, h => by
      simp only [pop] at h
      split at h
      · cases h
        exact ⟨by simp [nodes], fun j hj => by simp only [nodes, List.map_cons, List.mem_cons]; exact .inr hj⟩
      · split at h
        · cases h
        · rename_i j' cache' hp
          cases h
          obtain ⟨h1, h2⟩ := pop_local hp
          refine ⟨by simp only [nodes, List.map_cons, List.mem_cons]; exact .inr h1, fun j hj => ?_⟩
          simp only [nodes, List.map_cons, List.mem_cons] at hj ⊢
          rcases hj with hj | hj
          · exact .inl hj
          · exact .inr (h2 j hj)

theorem place_local {key : V → V} {fresh : Id → V → Nat → Inst S V × List Cmd × Nat}
    {again : Id → Inst S V → Nat → Inst S V × List Cmd × Nat}
    (hf : ∀ ref v n, Local n [] [(fresh ref v n).1] (fresh ref v n).2.1 (fresh ref v n).2.2) :
    ∀ (vs : List V) (cache : List (V × Inst S V)) (ref : Id) (n : Nat),
    (∀ i ∈ nodes cache, ∀ ref n, Local n (ids i) [(again ref i n).1] (again ref i n).2.1 (again ref i n).2.2) →
    Local n (idsAll (nodes cache)) (nodes (place key fresh again vs cache ref n).pairs) (place key fresh again vs cache ref n).cmds
      (place key fresh again vs cache ref n).next ∧
    ∀ i ∈ nodes (place key fresh again vs cache ref n).cache, i ∈ nodes cache
  | [], cache, ref, n, ha => ⟨⟨Nat.le_refl n, by simp [place], by simp [place, nodes, idsAll]⟩, fun i hi => hi⟩
  | v :: vs, cache, ref, n, ha => by
      simp only [place]
      split
      · rename_i i rest hp
        obtain ⟨hi, hr⟩ := pop_local hp
        have h1 := ha i hi ref n
        obtain ⟨h2, h3⟩ := place_local (key := key) (again := again) hf vs rest (again ref i n).1.id (again ref i n).2.2 (fun j hj => ha j (hr j hj))
        have hsub : ∀ x : Nat, x ∈ idsAll (nodes rest) → x ∈ idsAll (nodes cache) := by
          intro x hx
          obtain ⟨j, hj, hx⟩ := mem_idsAll.1 hx
          exact mem_idsAll.2 ⟨j, hr j hj, hx⟩
        have hisub : ∀ x : Nat, x ∈ ids i → x ∈ idsAll (nodes cache) := fun x hx => mem_idsAll.2 ⟨i, hi, hx⟩
        refine ⟨⟨Nat.le_trans h1.le h2.le, ?_, ?_⟩, fun j hj => hr j (h3 j hj)⟩
        · intro c hc
          rcases List.mem_append.1 hc with hc | hc
          · exact (h1.cmds c hc).mono (Nat.le_refl n) fun x hx => .inl (hisub x hx)
          · exact (h2.cmds c hc).mono h1.le fun x hx => .inl (hsub x hx)
        · intro x hx
          simp only [nodes, List.map_append, idsAll_append, List.mem_append] at hx
          rcases hx with hx | hx
          · exact (h2.ids x hx).elim (fun h => .inl (hsub x h)) fun h => .inr (Nat.le_trans h1.le h)
          · exact (h1.ids x (by simpa using hx)).elim (fun h => .inl (hisub x h)) .inr
      · have h1 := hf ref v n
        obtain ⟨h2, h3⟩ := place_local (key := key) (again := again) hf vs cache (fresh ref v n).1.id (fresh ref v n).2.2 ha
        refine ⟨⟨Nat.le_trans h1.le h2.le, ?_, ?_⟩, h3⟩
        · intro c hc
          rcases List.mem_append.1 hc with hc | hc
          · exact (h1.cmds c hc).nil (Nat.le_refl n)
          · exact (h2.cmds c hc).mono h1.le fun x hx => .inl hx
        · intro x hx
          simp only [nodes, List.map_append, idsAll_append, List.mem_append] at hx
          rcases hx with hx | hx
          · exact (h2.ids x hx).elim .inl fun h => .inr (Nat.le_trans h1.le h)
          · exact (h1.ids x (by simpa using hx)).elim (fun h => by cases h) .inr

theorem onList_local {key : V → V} {fresh : Id → V → Nat → Inst S V × List Cmd × Nat}
    {again : Id → Inst S V → Nat → Inst S V × List Cmd × Nat} {order : List (Inst S V) → List (Inst S V)}
    (hf : ∀ ref v n, Local n [] [(fresh ref v n).1] (fresh ref v n).2.1 (fresh ref v n).2.2)
    (hord : ∀ l, (order l).Perm l) (id : Id) (cur : List (V × Inst S V)) (new : List V) (n : Nat)
    (ha : ∀ i ∈ nodes cur, ∀ ref n, Local n (ids i) [(again ref i n).1] (again ref i n).2.1 (again ref i n).2.2) :
    Local n (idsAll (nodes cur)) (nodes (onList key fresh again order id cur new n).1) (onList key fresh again order id cur new n).2.1
      (onList key fresh again order id cur new n).2.2 := by
  obtain ⟨ht, -⟩ := pairsTop_eq cur new
  obtain ⟨hb, -⟩ := pairsBottom_eq (pairsTop cur new).2.1 (pairsTop cur new).2.2
  simp only [onList]
  generalize (((pairsBottom (pairsTop cur new).2.1 (pairsTop cur new).2.2).1.head?.map (·.2.id)).getD id) = ref
  generalize (pairsTop cur new).1 = T at *
  generalize (pairsTop cur new).2.1 = C1 at *
  generalize (pairsTop cur new).2.2 = new1 at *
  generalize (pairsBottom C1 new1).1 = B at *
  generalize (pairsBottom C1 new1).2.1 = C at *
  generalize (pairsBottom C1 new1).2.2 = mid at *
  subst hb ht
  have hsub : ∀ i ∈ nodes C, i ∈ nodes (T ++ (C ++ B)) := by
    intro i hi
    simp only [nodes, List.map_append, List.mem_append] at hi ⊢
    exact .inr (.inl hi)
  obtain ⟨h1, h2⟩ := place_local (key := key) (again := again) hf mid.reverse C ref n (fun i hi => ha i (hsub i hi))
  have hids : ∀ x : Nat, x ∈ idsAll (nodes C) → x ∈ idsAll (nodes (T ++ (C ++ B))) := by
    intro x hx
    obtain ⟨j, hj, hx⟩ := mem_idsAll.1 hx
    exact mem_idsAll.2 ⟨j, hsub j hj, hx⟩
  refine ⟨h1.le, ?_, ?_⟩
  · intro c hc
    rcases List.mem_append.1 hc with hc | hc
    · exact (h1.cmds c hc).mono (Nat.le_refl n) fun x hx => .inl (hids x hx)
    · refine (dropsAll_within n _ c hc).mono (Nat.le_refl n) fun x hx => .inl (hids x ?_)
      obtain ⟨j, hj, hx⟩ := mem_idsAll.1 hx
      exact mem_idsAll.2 ⟨j, h2 j ((hord _).mem_iff.1 hj), hx⟩
  · intro x hx
    simp only [nodes, List.map_append, idsAll_append, List.mem_append] at hx ⊢
    rcases hx with (hx | hx) | hx
    · exact .inl (.inl hx)
    · exact (h1.ids x hx).elim (fun h => .inl (.inr (.inl h))) .inr
    · exact .inl (.inr (.inr hx))

/-! ## Creating and inserting -/

omit [DecidableEq V] in
theorem mountAll_new (parent id : Id) {n : Nat} : ∀ (cs : List (Created S V)) (m : Nat), n ≤ m →
    (∀ c ∈ cs, From n c) →
    m ≤ (mountAll parent id cs m).2.2.1 ∧ (∀ k ∈ (mountAll parent id cs m).2.1, Within n [] k) ∧
      ∀ x : Nat, x ∈ idsAll (mountAll parent id cs m).1 → n ≤ x
  | [], m, hm, _ => ⟨Nat.le_refl m, by simp [mountAll], by simp [mountAll, idsAll]⟩
  | c :: cs, m, hm, h => by
      obtain ⟨h1, h2, h3⟩ := mountAll_new parent id cs m hm (fun c hc => h c (List.mem_cons_of_mem _ hc))
      obtain ⟨h4, h5, h6⟩ := (h c (by simp)).insert parent (some (mountAll parent id cs m).2.2.2) (Nat.le_trans hm h1)
      refine ⟨Nat.le_trans h1 h4, ?_, ?_⟩
      · intro k hk
        rcases List.mem_append.1 hk with hk | hk
        · exact h2 k hk
        · exact h5 k hk
      · intro x hx
        simp only [mountAll, idsAll, List.mem_append] at hx
        exact hx.elim (h6 x) (h3 x)

theorem attrCmd_about (id : Id) (name : String) (v : Option String) : about (attrCmd id name v) = some id := by
  cases v <;> rfl

omit [DecidableEq V] in
theorem list_fresh {create : V → Nat → Created S V × List Cmd × Nat} (hc : ∀ v n, NewNode n (create v n)) (p ref : Id) (v : V) (n : Nat) :
    Local n [] [((create v n).1.insert p (some ref) (create v n).2.2).1]
      ((create v n).2.1 ++ ((create v n).1.insert p (some ref) (create v n).2.2).2.1) ((create v n).1.insert p (some ref) (create v n).2.2).2.2 := by
  have h := hc v n
  obtain ⟨h1, h2, h3⟩ := (h.created n (Nat.le_refl n)).insert p (some ref) h.le
  refine ⟨Nat.le_trans h.le h1, ?_, fun x hx => .inr (h3 x (by simpa [idsAll] using hx))⟩
  intro c hc
  rcases List.mem_append.1 hc with hc | hc
  · exact h.cmds c hc
  · exact h2 c hc

mutual
theorem create_new (σ : S) : ∀ (v : View S V) (n : Nat), NewNode n (create σ v n)
  | .element name attrs children, n => by
      obtain ⟨h1, h2, h3⟩ := createChildren_new σ n children (n + 1)
      refine ⟨Nat.le_trans (Nat.le_succ n) h1, ?_, fun k hk => ⟨hk, ?_⟩⟩
      · intro c hc
        simp only [create, List.mem_cons, List.mem_append, List.mem_map] at hc
        rcases hc with rfl | ⟨a, -, rfl⟩ | hc
        · exact ⟨n, rfl, .inr (Nat.le_refl n)⟩
        · exact ⟨n, attrCmd_about _ _ _, .inr (Nat.le_refl n)⟩
        · exact (h2 c hc).nil (Nat.le_succ n)
      · intro p m hm
        refine ⟨Nat.le_refl m, by simp [create], ?_⟩
        intro x hx
        simp only [create, ids, List.mem_cons] at hx
        rcases hx with rfl | hx
        · exact hk
        · exact Nat.le_trans hk (Nat.le_trans (Nat.le_succ n) (h3 x hx))
  | .text value, n => ⟨Nat.le_succ n, by intro c hc; simp only [create, List.mem_singleton] at hc; subst hc; exact ⟨n, rfl, .inr (Nat.le_refl n)⟩,
      fun k hk => ⟨hk, fun p m hm => ⟨Nat.le_refl m, by simp [create], by intro x hx; simp only [create, ids, List.mem_singleton] at hx; omega⟩⟩⟩
  | .computedText f, n => ⟨Nat.le_succ n, by
        intro c hc
        simp only [create, List.mem_cons, List.not_mem_nil, or_false] at hc
        rcases hc with rfl | rfl <;> exact ⟨n, rfl, .inr (Nat.le_refl n)⟩,
      fun k hk => ⟨hk, fun p m hm => ⟨Nat.le_refl m, by simp [create], by intro x hx; simp only [create, ids, List.mem_singleton] at hx; omega⟩⟩⟩
  | .value f shown render, n => by
      refine ⟨Nat.le_succ n, by intro c hc; simp only [create, List.mem_singleton] at hc; subst hc; exact ⟨n, rfl, .inr (Nat.le_refl n)⟩,
        fun k hk => ⟨hk, fun p m hm => ?_⟩⟩
      have h := onValue_local (fun v m => create_new σ (render v) m) n p shown (f σ) [] m
      refine ⟨h.le, fun c hc => (h.cmds c hc).nil hm, fun x hx => ?_⟩
      simp only [create, ids, List.mem_cons] at hx
      rcases hx with rfl | hx
      · exact hk
      · exact (h.ids x hx).elim (fun h => by cases h) (Nat.le_trans hm)
  | .list f key render, n => by
      refine ⟨Nat.le_succ n, by intro c hc; simp only [create, List.mem_singleton] at hc; subst hc; exact ⟨n, rfl, .inr (Nat.le_refl n)⟩,
        fun k hk => ⟨hk, fun p m hm => ?_⟩⟩
      have h := onList_local (key := key) (again := fun _ i m => (i, [], m)) (order := fun x => x)
        (fresh := fun ref v m =>
            let c := create σ (render v) m
            let i := c.1.insert p (some ref) c.2.2
            (i.1, c.2.1 ++ i.2.1, i.2.2))
        (fun ref v m => list_fresh (fun v m => create_new σ (render v) m) p ref v m)
        (fun l => .refl l) n [] (f σ) m (fun i hi => by cases hi)
      refine ⟨h.le, fun c hc => (h.cmds c hc).nil hm, fun x hx => ?_⟩
      simp only [create, ids, List.mem_cons] at hx
      rcases hx with rfl | hx
      · exact hk
      · exact (h.ids x hx).elim (fun h => by cases h) (Nat.le_trans hm)
  | .fragment vs, n => by
      obtain ⟨h1, h2, h3⟩ := createAll_new σ vs n
      refine ⟨Nat.le_trans h1 (Nat.le_succ _), ?_, fun k hk => ⟨Nat.le_trans hk h1, fun p m hm => ?_⟩⟩
      · intro c hc
        simp only [create, List.mem_append, List.mem_singleton] at hc
        rcases hc with hc | rfl
        · exact h2 c hc
        · exact ⟨_, rfl, .inr h1⟩
      · obtain ⟨h4, h5, h6⟩ := mountAll_new p (createAll σ vs n).2.2 (createAll σ vs n).1 m hm (fun c hc => h3 c hc k hk)
        refine ⟨h4, h5, fun x hx => ?_⟩
        simp only [create, ids, List.mem_cons] at hx
        rcases hx with rfl | hx
        · exact Nat.le_trans hk h1
        · exact h6 x hx
theorem createChildren_new (σ : S) (parent : Id) : ∀ (vs : List (View S V)) (n : Nat),
    n ≤ (createChildren σ parent vs n).2.2 ∧ (∀ c ∈ (createChildren σ parent vs n).2.1, Within n [] c) ∧
      ∀ x : Nat, x ∈ idsAll (createChildren σ parent vs n).1 → n ≤ x
  | [], n => ⟨Nat.le_refl n, by simp [createChildren], by simp [createChildren, idsAll]⟩
  | v :: vs, n => by
      have h := create_new σ v n
      obtain ⟨h1, h2, h3⟩ := (h.created n (Nat.le_refl n)).insert parent none h.le
      obtain ⟨h4, h5, h6⟩ := createChildren_new σ parent vs ((create σ v n).1.insert parent none (create σ v n).2.2).2.2
      have hle := Nat.le_trans h.le h1
      refine ⟨Nat.le_trans hle h4, ?_, ?_⟩
      · intro c hc
        simp only [createChildren, List.mem_append] at hc
        rcases hc with (hc | hc) | hc
        · exact h.cmds c hc
        · exact h2 c hc
        · exact (h5 c hc).nil hle
      · intro x hx
        simp only [createChildren, idsAll, List.mem_append] at hx
        exact hx.elim (h3 x) fun hx => Nat.le_trans hle (h6 x hx)
theorem createAll_new (σ : S) : ∀ (vs : List (View S V)) (n : Nat),
    n ≤ (createAll σ vs n).2.2 ∧ (∀ c ∈ (createAll σ vs n).2.1, Within n [] c) ∧
      ∀ c ∈ (createAll σ vs n).1, ∀ k, k ≤ n → From k c
  | [], n => ⟨Nat.le_refl n, by simp [createAll], by simp [createAll]⟩
  | v :: vs, n => by
      have h := create_new σ v n
      obtain ⟨h4, h5, h6⟩ := createAll_new σ vs (create σ v n).2.2
      refine ⟨Nat.le_trans h.le h4, ?_, ?_⟩
      · intro c hc
        simp only [createAll, List.mem_append] at hc
        rcases hc with hc | hc
        · exact h.cmds c hc
        · exact (h5 c hc).nil h.le
      · intro c hc
        simp only [createAll, List.mem_cons] at hc
        rcases hc with rfl | hc
        · exact h.created
        · exact fun k hk => h6 c hc k (Nat.le_trans hk h.le)
end

/-! ## Inserting again -/

theorem createBefore_local (σ : S) (render : V → View S V) (p ref : Id) (v : V) (n : Nat) :
    Local n [] [(createBefore σ render p ref v n).1] (createBefore σ render p ref v n).2.1 (createBefore σ render p ref v n).2.2 :=
  list_fresh (fun v n => create_new σ (render v) n) p ref v n

mutual
theorem remount_local (σ : S) : ∀ (i : Inst S V) (p : Id) (n : Nat),
    Local n (ids i) [(remount σ i p n).1] (remount σ i p n).2.1 (remount σ i p n).2.2
  | .value id _ f shown render _ content, p, n => by
      have h := onValue_local (fun v m => create_new σ (render v) m) id p shown (f σ) [] n
      refine ⟨h.le, ?_, ?_⟩
      · intro c hc
        simp only [remount, List.mem_append] at hc
        rcases hc with hc | hc
        · exact (h.cmds c hc).nil (Nat.le_refl n)
        · exact (dropsAll_within n content c hc).mono (Nat.le_refl n) fun x hx => .inl (by simp [ids, hx])
      · intro x hx
        simp only [remount, idsAll, ids, List.append_nil, List.mem_cons] at hx
        rcases hx with rfl | hx
        · exact .inl (by simp [ids])
        · exact (h.ids x hx).elim (fun h => by cases h) .inr
  | .list id _ f key render _ content, p, n => by
      have h := onList_local (key := key) (again := fun _ i m => (i, [], m)) (order := fun x => x)
        (createBefore_local σ render p) (fun l => .refl l) id [] (f σ) n (fun i hi => by cases hi)
      refine ⟨h.le, ?_, ?_⟩
      · intro c hc
        simp only [remount, List.mem_append] at hc
        rcases hc with hc | hc
        · exact (h.cmds c hc).nil (Nat.le_refl n)
        · exact (dropsAll_within n content c hc).mono (Nat.le_refl n) fun x hx => .inl (by simp [ids, hx])
      · intro x hx
        simp only [remount, idsAll, ids, List.append_nil, List.mem_cons] at hx
        rcases hx with rfl | hx
        · exact .inl (by simp [ids])
        · exact (h.ids x hx).elim (fun h => by cases h) .inr
  | .fragment id _ content, p, n => by
      have h := remountAll_local σ id content p n
      refine ⟨h.le, fun c hc => (h.cmds c hc).mono (Nat.le_refl n) fun x hx => .inl (by simp [ids, hx]), ?_⟩
      intro x hx
      simp only [remount, idsAll, ids, List.append_nil, List.mem_cons] at hx
      rcases hx with rfl | hx
      · exact .inl (by simp [ids])
      · exact (h.ids x hx).imp_left fun h => by simp [ids, h]
  | .element .., p, n => ⟨Nat.le_refl n, by simp [remount], fun x hx => .inl (by simpa [remount, idsAll] using hx)⟩
  | .text .., p, n => ⟨Nat.le_refl n, by simp [remount], fun x hx => .inl (by simpa [remount, idsAll] using hx)⟩
  | .computedText .., p, n => ⟨Nat.le_refl n, by simp [remount], fun x hx => .inl (by simpa [remount, idsAll] using hx)⟩
theorem remountAll_local (σ : S) (id : Id) : ∀ (is : List (Inst S V)) (p : Id) (n : Nat),
    Local n (idsAll is) (remountAll σ id is p n).1 (remountAll σ id is p n).2.1 (remountAll σ id is p n).2.2.1
  | [], p, n => ⟨Nat.le_refl n, by simp [remountAll], by simp [remountAll, idsAll]⟩
  | i :: is, p, n => by
      have h1 := remountAll_local σ id is p n
      have h2 := remount_local σ i p (remountAll σ id is p n).2.2.1
      refine ⟨Nat.le_trans h1.le h2.le, ?_, ?_⟩
      · intro c hc
        simp only [remountAll, List.mem_append, List.mem_cons] at hc
        rcases hc with hc | rfl | hc
        · exact (h1.cmds c hc).mono (Nat.le_refl n) fun x hx => .inl (by simp [idsAll, hx])
        · exact ⟨i.id, rfl, .inl (by simp [idsAll, id_mem_ids])⟩
        · exact (h2.cmds c hc).mono h1.le fun x hx => .inl (by simp [idsAll, hx])
      · intro x hx
        simp only [remountAll, idsAll, List.mem_append] at hx ⊢
        rcases hx with hx | hx
        · exact (h2.ids x (by simpa [idsAll] using hx)).elim (fun h => .inl (.inl h)) fun h => .inr (Nat.le_trans h1.le h)
        · exact (h1.ids x hx).elim (fun h => .inl (.inr h)) .inr
end

theorem insertAgain_local (σ : S) (p ref : Id) (i : Inst S V) (n : Nat) :
    Local n (ids i) [(insertAgain σ p ref i n).1] (insertAgain σ p ref i n).2.1 (insertAgain σ p ref i n).2.2 := by
  have h := remount_local σ i p n
  refine ⟨h.le, ?_, h.ids⟩
  intro c hc
  simp only [insertAgain, List.mem_cons] at hc
  rcases hc with rfl | hc
  · exact ⟨i.id, rfl, .inl (id_mem_ids i)⟩
  · exact h.cmds c hc

/-! ## Running a subscription -/

omit [DecidableEq V] in
mutual
theorem May.within {σ : S} {n : Nat} {c : Cmd} : ∀ (i : Inst S V), May σ n c i → Within n (ids i) c
  | .element id _ attrs children, h => by
      rcases h with ⟨a, -, -, ⟨-, rfl⟩ | ⟨v, -, rfl⟩⟩ | h
      · exact ⟨id, rfl, .inl (by simp [ids])⟩
      · exact ⟨id, rfl, .inl (by simp [ids])⟩
      · exact (MayAll.within children h).mono (Nat.le_refl n) fun x hx => .inl (by simp [ids, hx])
  | .text _ _, h => h.elim
  | .computedText id f last, h => by obtain ⟨-, rfl⟩ := h; exact ⟨id, rfl, .inl (by simp [ids])⟩
  | .value _ _ _ _ _ _ content, h => by
      rcases h with ⟨-, h⟩ | h
      · exact h.mono (Nat.le_refl n) fun x hx => .inl (by simp [ids, hx])
      · exact (MayAll.within content h).mono (Nat.le_refl n) fun x hx => .inl (by simp [ids, hx])
  | .list _ _ _ _ _ _ content, h => by
      rcases h with ⟨-, h⟩ | h
      · exact h.mono (Nat.le_refl n) fun x hx => .inl (by simp [ids, hx])
      · exact (MayAll.within content h).mono (Nat.le_refl n) fun x hx => .inl (by simp [ids, hx])
  | .fragment _ _ content, h => (MayAll.within content h).mono (Nat.le_refl n) fun x hx => .inl (by simp [ids, hx])
theorem MayAll.within {σ : S} {n : Nat} {c : Cmd} : ∀ (is : List (Inst S V)), MayAll σ n c is → Within n (idsAll is) c
  | [], h => h.elim
  | i :: is, h => by
      rcases h with h | h
      · exact (May.within i h).mono (Nat.le_refl n) fun x hx => .inl (by simp [idsAll, hx])
      · exact (MayAll.within is h).mono (Nat.le_refl n) fun x hx => .inl (by simp [idsAll, hx])
end

omit [DecidableEq V] in
mutual
theorem May.mono {σ : S} {n m : Nat} (hn : n ≤ m) {c : Cmd} : ∀ (i : Inst S V), May σ m c i → May σ n c i
  | .element _ _ _ children, h => h.imp_right (MayAll.mono hn children)
  | .text _ _, h => h
  | .computedText .., h => h
  | .value _ _ _ _ _ _ content, h => h.imp (fun h => ⟨h.1, h.2.mono hn fun _ h => .inl h⟩) (MayAll.mono hn content)
  | .list _ _ _ _ _ _ content, h => h.imp (fun h => ⟨h.1, h.2.mono hn fun _ h => .inl h⟩) (MayAll.mono hn content)
  | .fragment _ _ content, h => MayAll.mono hn content h
theorem MayAll.mono {σ : S} {n m : Nat} (hn : n ≤ m) {c : Cmd} : ∀ (is : List (Inst S V)), MayAll σ m c is → MayAll σ n c is
  | [], h => h
  | i :: is, h => h.imp (May.mono hn i) (MayAll.mono hn is)
end

theorem runAttrs_may (σ : S) (id : Id) (s : Sub) : ∀ (as : List (Attr S)),
    (∀ c ∈ (runAttrs σ id s as).2, ∃ a ∈ as, a.f σ ≠ a.last ∧
      (a.f σ = none ∧ c = .removeAttr id a.name ∨ ∃ v, a.f σ = some v ∧ c = .setAttr id a.name v)) ∧
    ∀ a ∈ (runAttrs σ id s as).1, a.f σ ≠ a.last → a ∈ as
  | [] => ⟨by simp [runAttrs], by simp [runAttrs]⟩
  | a :: as => by
      obtain ⟨h1, h2⟩ := runAttrs_may σ id s as
      simp only [runAttrs, Attr.run]
      refine ⟨?_, ?_⟩
      · intro c hc
        rcases List.mem_append.1 hc with hc | hc
        · split at hc
          · rename_i hd
            simp only [List.mem_singleton] at hc
            refine ⟨a, by simp, hd.2, ?_⟩
            cases hv : a.f σ with
            | none => rw [hv] at hc; exact .inl ⟨rfl, hc⟩
            | some v => rw [hv] at hc; exact .inr ⟨v, rfl, hc⟩
          · cases hc
        · obtain ⟨a', ha', h⟩ := h1 c hc
          exact ⟨a', List.mem_cons_of_mem _ ha', h⟩
      · intro a' ha' hne
        rcases List.mem_cons.1 ha' with rfl | ha'
        · split at hne
          · exact absurd rfl hne
          · rename_i hd; rw [if_neg hd]; exact List.mem_cons_self
        · exact List.mem_cons_of_mem _ (h2 a' ha' hne)

omit [DecidableEq V] in
theorem local_may {σ : S} {n m k : Nat} {xs : List Id} {is : List (Inst S V)} {cs : List Cmd} (h : Local n xs is cs m) (hk : m ≤ k)
    {c : Cmd} (hc : MayAll σ k c is) : Within n xs c :=
  (MayAll.within is hc).mono (Nat.le_trans h.le hk) h.ids

/-- What a subscription that runs does: its commands may happen, and what may happen afterwards may also happen
before. -/
structure Ran (σ : S) (n : Nat) (is js : List (Inst S V)) (cs : List Cmd) (m : Nat) : Prop where
  le : n ≤ m
  cmds : ∀ c ∈ cs, MayAll σ n c is
  later : ∀ k c, m ≤ k → MayAll σ k c js → MayAll σ n c is
  ids : ∀ x : Nat, x ∈ idsAll js → x ∈ idsAll is ∨ n ≤ x

mutual
theorem run_ran (σ : S) {order : List (Inst S V) → List (Inst S V)} (hord : ∀ l, (order l).Perm l) (s : Sub) :
    ∀ (i : Inst S V) (n : Nat), Ran σ n [i] [(run σ order s i n).1] (run σ order s i n).2.1 (run σ order s i n).2.2
  | .element id name attrs children, n => by
      have h := runAll_ran σ hord s children n
      obtain ⟨h1, h2⟩ := runAttrs_may σ id s attrs
      refine ⟨h.le, ?_, ?_, ?_⟩
      · intro c hc
        simp only [run, List.mem_append] at hc
        rcases hc with hc | hc
        · exact .inl (.inl (h1 c hc))
        · exact .inl (.inr (h.cmds c hc))
      · intro k c hk hc
        rcases hc with (⟨a, ha, hne, hc⟩ | hc) | hc
        · exact .inl (.inl ⟨a, h2 a ha hne, hne, hc⟩)
        · exact .inl (.inr (h.later k c hk hc))
        · exact hc.elim
      · intro x hx
        simp only [run, idsAll, Verif.View.ids, List.append_nil, List.mem_cons] at hx ⊢
        rcases hx with hx | hx
        · exact .inl (.inl hx)
        · exact (h.ids x hx).imp_left .inr
  | .text id value, n => ⟨Nat.le_refl n, by simp [run], fun k c hk h => MayAll.mono hk _ h, fun x hx => .inl hx⟩
  | .computedText id f last, n => by
      simp only [run]
      split
      · rename_i hd
        refine ⟨Nat.le_refl n, ?_, ?_, fun x hx => .inl hx⟩
        · intro c hc
          exact .inl ⟨hd.2, List.mem_singleton.1 hc⟩
        · intro k c hk hc
          rcases hc with ⟨hc, -⟩ | hc
          · exact absurd rfl hc
          · exact hc.elim
      · exact ⟨Nat.le_refl n, by simp, fun k c hk h => MayAll.mono hk _ h, fun x hx => .inl hx⟩
  | .value id p f shown render last content, n => by
      simp only [run]
      split
      · rename_i hd
        have h := onValue_local (fun v m => create_new σ (render v) m) id p shown (f σ) content n
        refine ⟨h.le, fun c hc => .inl (.inl ⟨hd.2, h.cmds c hc⟩), ?_, ?_⟩
        · intro k c hk hc
          rcases hc with (⟨hc, -⟩ | hc) | hc
          · exact absurd rfl hc
          · exact .inl (.inl ⟨hd.2, local_may h hk hc⟩)
          · exact hc.elim
        · intro x hx
          simp only [idsAll, Verif.View.ids, List.append_nil, List.mem_cons] at hx ⊢
          rcases hx with hx | hx
          · exact .inl (.inl hx)
          · exact (h.ids x hx).imp_left .inr
      · have h := runAll_ran σ hord s content n
        refine ⟨h.le, fun c hc => .inl (.inr (h.cmds c hc)), ?_, ?_⟩
        · intro k c hk hc
          rcases hc with (⟨hne, hc⟩ | hc) | hc
          · exact .inl (.inl ⟨hne, hc.mono (Nat.le_trans h.le hk) h.ids⟩)
          · exact .inl (.inr (h.later k c hk hc))
          · exact hc.elim
        · intro x hx
          simp only [idsAll, Verif.View.ids, List.append_nil, List.mem_cons] at hx ⊢
          rcases hx with hx | hx
          · exact .inl (.inl hx)
          · exact (h.ids x hx).imp_left .inr
  | .list id p f key render items content, n => by
      simp only [run]
      split
      · rename_i hd
        have h := onList_local (key := key) (createBefore_local σ render p) hord id (items.zip content) (f σ) n
          (fun i _ ref m => insertAgain_local σ p ref i m)
        have hz : ∀ x : Nat, x ∈ idsAll (nodes (items.zip content)) → x ∈ idsAll content := by
          intro x hx
          obtain ⟨j, hj, hx⟩ := mem_idsAll.1 hx
          refine mem_idsAll.2 ⟨j, ?_, hx⟩
          obtain ⟨⟨v, j'⟩, he, rfl⟩ := List.mem_map.1 hj
          exact (List.of_mem_zip he).2
        refine ⟨h.le, fun c hc => .inl (.inl ⟨hd.2, (h.cmds c hc).mono (Nat.le_refl n) fun x hx => .inl (hz x hx)⟩), ?_, ?_⟩
        · intro k c hk hc
          rcases hc with (⟨-, hc⟩ | hc) | hc
          · exact .inl (.inl ⟨hd.2, hc.mono (Nat.le_trans h.le hk) fun x hx => (h.ids x hx).imp_left (hz x)⟩)
          · exact .inl (.inl ⟨hd.2, (local_may h hk hc).mono (Nat.le_refl n) fun x hx => .inl (hz x hx)⟩)
          · exact hc.elim
        · intro x hx
          simp only [idsAll, Verif.View.ids, List.append_nil, List.mem_cons] at hx ⊢
          rcases hx with hx | hx
          · exact .inl (.inl hx)
          · exact (h.ids x hx).imp_left fun h => .inr (hz x h)
      · have h := runAll_ran σ hord s content n
        refine ⟨h.le, fun c hc => .inl (.inr (h.cmds c hc)), ?_, ?_⟩
        · intro k c hk hc
          rcases hc with (⟨hne, hc⟩ | hc) | hc
          · exact .inl (.inl ⟨hne, hc.mono (Nat.le_trans h.le hk) h.ids⟩)
          · exact .inl (.inr (h.later k c hk hc))
          · exact hc.elim
        · intro x hx
          simp only [idsAll, Verif.View.ids, List.append_nil, List.mem_cons] at hx ⊢
          rcases hx with hx | hx
          · exact .inl (.inl hx)
          · exact (h.ids x hx).imp_left .inr
  | .fragment id p content, n => by
      have h := runAll_ran σ hord s content n
      refine ⟨h.le, fun c hc => .inl (h.cmds c hc), ?_, ?_⟩
      · intro k c hk hc
        rcases hc with hc | hc
        · exact .inl (h.later k c hk hc)
        · exact hc.elim
      · intro x hx
        simp only [run, idsAll, Verif.View.ids, List.append_nil, List.mem_cons] at hx ⊢
        rcases hx with hx | hx
        · exact .inl (.inl hx)
        · exact (h.ids x hx).imp_left .inr
theorem runAll_ran (σ : S) {order : List (Inst S V) → List (Inst S V)} (hord : ∀ l, (order l).Perm l) (s : Sub) :
    ∀ (is : List (Inst S V)) (n : Nat), Ran σ n is (runAll σ order s is n).1 (runAll σ order s is n).2.1 (runAll σ order s is n).2.2
  | [], n => ⟨Nat.le_refl n, by simp [runAll], fun _ _ _ h => h, fun x hx => .inl hx⟩
  | i :: is, n => by
      have h1 := run_ran σ hord s i n
      have h2 := runAll_ran σ hord s is (run σ order s i n).2.2
      have one : ∀ {k c}, MayAll σ k c [i] → May σ k c i := fun h => h.elim id fun h => h.elim
      refine ⟨Nat.le_trans h1.le h2.le, ?_, ?_, ?_⟩
      · intro c hc
        rcases List.mem_append.1 hc with hc | hc
        · exact .inl (one (h1.cmds c hc))
        · exact .inr (MayAll.mono h1.le is (h2.cmds c hc))
      · intro k c hk hc
        rcases hc with hc | hc
        · exact .inl (one (h1.later k c (Nat.le_trans h2.le hk) (.inl hc)))
        · exact .inr (MayAll.mono h1.le is (h2.later k c hk hc))
      · intro x hx
        simp only [runAll, idsAll, List.mem_append] at hx ⊢
        rcases hx with hx | hx
        · exact (h1.ids x (by simpa [idsAll] using hx)).imp_left fun h => .inl (by simpa [idsAll] using h)
        · exact (h2.ids x hx).elim (fun h => .inl (.inr h)) fun h => .inr (Nat.le_trans h1.le h)
end

theorem change_may (σ : S) {order : List (Inst S V) → List (Inst S V)} (hord : ∀ l, (order l).Perm l) :
    ∀ (subs : List Sub) (a : App S V), ∀ c ∈ (a.change σ order subs).2, MayAll σ a.next c a.body
  | [], a, c, hc => by cases hc
  | s :: subs, a, c, hc => by
      have h := runAll_ran σ hord s a.body a.next
      rcases List.mem_append.1 hc with hc | hc
      · exact h.cmds c hc
      · exact h.later _ c (Nat.le_refl _) (change_may σ hord subs ⟨_, _⟩ c hc)

/-! ## The nodes that are touched -/

mutual
theorem May.touched {σ : S} {n : Nat} {c : Cmd} : ∀ (i : Inst S V), May σ n c i → Within n (touched σ i) c
  | .element id _ attrs children, h => by
      have he : (∃ a ∈ attrs, a.f σ ≠ a.last) → id ∈ Verif.View.touched σ (.element id ‹_› attrs children) := by
        intro h; simp only [Verif.View.touched, if_pos h]; simp
      rcases h with ⟨a, ha, hne, ⟨-, rfl⟩ | ⟨v, -, rfl⟩⟩ | h
      · exact ⟨id, rfl, .inl (he ⟨a, ha, hne⟩)⟩
      · exact ⟨id, rfl, .inl (he ⟨a, ha, hne⟩)⟩
      · exact (MayAll.touched children h).mono (Nat.le_refl n) fun x hx => .inl (by simp [Verif.View.touched, hx])
  | .text _ _, h => h.elim
  | .computedText id f last, h => by
      obtain ⟨hne, rfl⟩ := h
      exact ⟨id, rfl, .inl (by simp [Verif.View.touched, hne])⟩
  | .value _ _ f _ _ last content, h => by
      simp only [Verif.View.touched]
      rcases h with ⟨hne, h⟩ | h
      · rw [if_neg hne]; exact h
      · split
        · exact MayAll.touched content h
        · exact MayAll.within content h
  | .list _ _ f _ _ items content, h => by
      simp only [Verif.View.touched]
      rcases h with ⟨hne, h⟩ | h
      · rw [if_neg hne]; exact h
      · split
        · exact MayAll.touched content h
        · exact MayAll.within content h
  | .fragment _ _ content, h => by simp only [Verif.View.touched]; exact MayAll.touched content h
theorem MayAll.touched {σ : S} {n : Nat} {c : Cmd} : ∀ (is : List (Inst S V)), MayAll σ n c is → Within n (touchedAll σ is) c
  | [], h => h.elim
  | i :: is, h => by
      rcases h with h | h
      · exact (May.touched i h).mono (Nat.le_refl n) fun x hx => .inl (by simp [touchedAll, hx])
      · exact (MayAll.touched is h).mono (Nat.le_refl n) fun x hx => .inl (by simp [touchedAll, hx])
end

mutual
theorem may_due {σ : S} {n : Nat} {c : Cmd} : ∀ (i : Inst S V), May σ n c i → due σ i ≠ []
  | .element id _ attrs children, h, hd => by
      simp only [due, List.append_eq_nil_iff, List.map_eq_nil_iff, List.filter_eq_nil_iff] at hd
      rcases h with ⟨a, ha, hne, -⟩ | h
      · exact hd.1 a ha (by simpa using hne)
      · exact mayAll_due children h hd.2
  | .text _ _, h, _ => h
  | .computedText id f last, h, hd => by simp [due, h.1] at hd
  | .value _ _ f _ _ last content, h, hd => by
      simp only [due, List.append_eq_nil_iff] at hd
      rcases h with ⟨hne, -⟩ | h
      · simp [hne] at hd
      · exact mayAll_due content h hd.2
  | .list _ _ f _ _ items content, h, hd => by
      simp only [due, List.append_eq_nil_iff] at hd
      rcases h with ⟨hne, -⟩ | h
      · simp [hne] at hd
      · exact mayAll_due content h hd.2
  | .fragment _ _ content, h, hd => mayAll_due content h (by simpa [due] using hd)
theorem mayAll_due {σ : S} {n : Nat} {c : Cmd} : ∀ (is : List (Inst S V)), MayAll σ n c is → dueAll σ is ≠ []
  | [], h, _ => h
  | i :: is, h, hd => by
      simp only [dueAll, List.append_eq_nil_iff] at hd
      rcases h with h | h
      · exact may_due i h hd.1
      · exact mayAll_due is h hd.2
end

end

/-! ## The page -/

/-- The commands are executed; one that throws is logged and has no effect (dom.ts:451-455). -/
def execute (b : Browser) : List Cmd → Browser
  | [] => b
  | c :: cs =>
      match b.step c with
      | .ok b => execute b cs
      | .error _ => execute b cs

/-- Nothing has happened to the nodes that `keep` selects: they have the same content, the same parent, and the same
order. -/
structure Kept (keep : Id → Bool) (b b' : Browser) : Prop where
  objects : ∀ x, keep x = true → b'.objects x = b.objects x
  inMap : ∀ x, keep x = true → b'.inMap x = b.inMap x
  parent : ∀ x, keep x = true → b'.parent x = b.parent x
  order : ∀ p, (b'.children p).filter keep = (b.children p).filter keep

theorem Kept.refl (keep : Id → Bool) (b : Browser) : Kept keep b b :=
  ⟨fun _ _ => rfl, fun _ _ => rfl, fun _ _ => rfl, fun _ => rfl⟩
theorem Kept.trans {keep : Id → Bool} {b c d : Browser} (h : Kept keep b c) (h' : Kept keep c d) : Kept keep b d :=
  ⟨fun x hx => (h'.objects x hx).trans (h.objects x hx), fun x hx => (h'.inMap x hx).trans (h.inMap x hx),
    fun x hx => (h'.parent x hx).trans (h.parent x hx), fun p => (h'.order p).trans (h.order p)⟩

theorem ne_of_keep {keep : Id → Bool} {x id : Id} (hx : keep x = true) (hid : keep id = false) : x ≠ id := by
  rintro rfl; rw [hx] at hid; cases hid

theorem filter_filter_ne {keep : Id → Bool} {id : Id} (hid : keep id = false) (l : List Id) :
    (l.filter (· ≠ id)).filter keep = l.filter keep := by
  induction l with
  | nil => rfl
  | cons x l ih =>
    by_cases h : x = id
    · subst h
      rw [List.filter_cons, if_neg (by simp), ih, List.filter_cons, if_neg (by simp [hid])]
    · simp only [List.filter_cons]
      rw [if_pos (by simpa using h), List.filter_cons, ih]

theorem filter_insertBeforeIn {keep : Id → Bool} {id r : Id} (hid : keep id = false) (l : List Id) :
    (insertBeforeIn id r l).filter keep = l.filter keep := by
  induction l with
  | nil => simp [insertBeforeIn, hid]
  | cons x l ih =>
    simp only [insertBeforeIn]
    split
    · simp [List.filter_cons, hid]
    · simp [List.filter_cons, ih]

theorem detach_kept {keep : Id → Bool} {id : Id} (hid : keep id = false) (b : Browser) : Kept keep b (b.detach id) := by
  unfold Browser.detach
  split
  · exact Kept.refl keep b
  · rename_i p _
    refine ⟨fun _ _ => rfl, fun _ _ => rfl, fun x hx => by simp [fupd, ne_of_keep hx hid], fun q => ?_⟩
    simp only [fupd]
    split
    · rename_i h; rw [h]; exact filter_filter_ne hid _
    · rfl

theorem create_kept {keep : Id → Bool} {id : Id} (hid : keep id = false) {b b' : Browser} {o : Content} (h : b.create id o = .ok b') :
    Kept keep b b' := by
  unfold Browser.create at h
  split at h
  · cases h; exact Kept.refl keep b
  · split at h
    · cases h
    · cases h
      exact ⟨fun x hx => by simp [fupd, ne_of_keep hx hid], fun x hx => by simp [fupd, ne_of_keep hx hid], fun _ _ => rfl, fun _ => rfl⟩

theorem remove_kept {keep : Id → Bool} {id : Id} (hid : keep id = false) {b b' : Browser} (h : b.remove id = .ok b') :
    Kept keep b b' := by
  unfold Browser.remove at h
  split at h
  · cases h
  · cases h
    exact Kept.trans (c := { b with inMap := fupd b.inMap id false })
      ⟨fun _ _ => rfl, fun x hx => by simp [fupd, ne_of_keep hx hid], fun _ _ => rfl, fun _ => rfl⟩ (detach_kept hid _)

theorem insert_kept {keep : Id → Bool} {id : Id} (hid : keep id = false) {b b' : Browser} {p : Id} {ref : Option Id}
    (h : b.insertBefore p id ref = .ok b') : Kept keep b b' := by
  have hput : ∀ (c : Browser) (l : List Id), l.filter keep = (c.children p).filter keep →
      Kept keep c { c with parent := fupd c.parent id (some p), children := fupd c.children p l } := by
    intro c l hl
    refine ⟨fun _ _ => rfl, fun _ _ => rfl, fun x hx => by simp [fupd, ne_of_keep hx hid], fun q => ?_⟩
    simp only [fupd]
    split
    · rename_i h; rw [h]; exact hl
    · rfl
  unfold Browser.insertBefore at h
  split at h
  · split at h
    · cases h
    · split at h
      · cases h
        exact (detach_kept hid b).trans (hput _ _ (by simp [List.filter_append, hid]))
      · split at h
        · cases h
        · split at h
          · cases h; exact Kept.refl keep b
          · cases h
            exact (detach_kept hid b).trans (hput _ _ (filter_insertBeforeIn hid _))
  · cases h

theorem step_kept {keep : Id → Bool} {c : Cmd} (hc : ∀ x, about c = some x → keep x = false) {b b' : Browser} (h : b.step c = .ok b') :
    Kept keep b b' := by
  have hobj : ∀ (id : Id) (o : Content), keep id = false → Kept keep b { b with objects := fupd b.objects id (some o) } := fun id o hid =>
    ⟨fun x hx => by simp [fupd, ne_of_keep hx hid], fun _ _ => rfl, fun _ _ => rfl, fun _ => rfl⟩
  cases c with
  | createNode id name => exact create_kept (hc id rfl) h
  | createText id v => exact create_kept (hc id rfl) h
  | createComment id v => exact create_kept (hc id rfl) h
  | updateText id v =>
    simp only [Browser.step] at h
    split at h
    · cases h; exact hobj _ _ (hc id rfl)
    · cases h
  | setAttr id n v =>
    simp only [Browser.step] at h
    split at h
    · cases h; exact hobj _ _ (hc id rfl)
    · cases h
  | removeAttr id n =>
    simp only [Browser.step] at h
    split at h
    · cases h; exact hobj _ _ (hc id rfl)
    · cases h
  | removeNode id => exact remove_kept (hc id rfl) h
  | removeText id => exact remove_kept (hc id rfl) h
  | removeComment id => exact remove_kept (hc id rfl) h
  | insertBefore p id ref =>
    simp only [Browser.step] at h
    split at h
    · split at h
      · exact insert_kept (hc id rfl) h
      · split at h
        · cases h
        · exact insert_kept (hc id rfl) h
    · cases h
  | insertCss s v => cases h; exact ⟨fun _ _ => rfl, fun _ _ => rfl, fun _ _ => rfl, fun _ => rfl⟩
  | callbackAdd id e cb =>
    simp only [Browser.step] at h
    split at h
    · cases h; exact Kept.refl keep b
    · split at h
      · cases h; exact ⟨fun _ _ => rfl, fun _ _ => rfl, fun _ _ => rfl, fun _ => rfl⟩
      · cases h
  | callbackRemove id e cb =>
    simp only [Browser.step] at h
    split at h
    · split at h
      · cases h; exact ⟨fun _ _ => rfl, fun _ _ => rfl, fun _ _ => rfl, fun _ => rfl⟩
      · cases h
    · cases h; exact Kept.refl keep b

theorem execute_kept {keep : Id → Bool} : ∀ (cs : List Cmd) (b : Browser), (∀ c ∈ cs, ∀ x, about c = some x → keep x = false) →
    Kept keep b (execute b cs)
  | [], b, _ => Kept.refl keep b
  | c :: cs, b, h => by
      simp only [execute]
      split
      · rename_i b' hb
        exact (step_kept (h c (by simp)) hb).trans (execute_kept cs b' fun c hc => h c (List.mem_cons_of_mem _ hc))
      · exact execute_kept cs b fun c hc => h c (List.mem_cons_of_mem _ hc)

/-! ## Theorems -/

section
variable [DecidableEq V]

/-- **C50, commands.** Whatever the view, whatever the state before and after, and in whatever order subscriptions run:
each command that is sent gives a new value to a text or an attribute whose value is another one than the one last
shown, or is about new nodes and nodes inside of a value or a list that is another one than the one last shown. -/
theorem C50_commands (a : App S V) (σ : S) (order : List (Inst S V) → List (Inst S V)) (hord : ∀ l, (order l).Perm l)
    (subs : List Sub) : ∀ c ∈ (a.change σ order subs).2, MayAll σ a.next c a.body :=
  change_may σ hord subs a

/-- **C50, silence.** If no value is another one, no command is sent. -/
theorem C50_silent (a : App S V) (σ : S) (order : List (Inst S V) → List (Inst S V)) (hord : ∀ l, (order l).Perm l)
    (subs : List Sub) (h : dueAll σ a.body = []) : (a.change σ order subs).2 = [] := by
  rw [List.eq_nil_iff_forall_not_mem]
  intro c hc
  exact mayAll_due _ (C50_commands a σ order hord subs c hc) h

/-- **C50, the page.** All other nodes of the page are still there: the same nodes, with the same content, the same
parents and in the same order. -/
theorem C50_document (a : App S V) (σ : S) (order : List (Inst S V) → List (Inst S V)) (hord : ∀ l, (order l).Perm l)
    (subs : List Sub) (b : Browser) :
    Kept (fun x => decide (x < a.next ∧ x ∉ touchedAll σ a.body)) b (execute b (a.change σ order subs).2) := by
  refine execute_kept _ b fun c hc x hx => ?_
  obtain ⟨y, hy, h⟩ := MayAll.touched _ (C50_commands a σ order hord subs c hc)
  rw [hx] at hy
  cases hy
  rw [decide_eq_false_iff_not]
  rintro ⟨h1, h2⟩
  rcases h with h | h
  · exact h2 h
  · exact Nat.lt_irrefl _ (Nat.lt_of_lt_of_le h1 h)

/-- Without exceptions, this is what `Browser.run` gives. -/
theorem execute_run : ∀ (cs : List Cmd) {b b' : Browser}, b.run cs = .ok b' → execute b cs = b'
  | [], b, b', h => by cases h; rfl
  | c :: cs, b, b', h => by
      simp only [Browser.run] at h
      simp only [execute]
      split at h
      · cases h
      · rename_i hb
        rw [hb]
        exact execute_run cs h

end

/-- In the example of C49 the change from 0 to 3 touches the paragraph (its style), the two texts, the part that was
shown, and nothing in the list, which was empty; the text "n = " (5) and the list element (11) are kept. -/
example : touchedAll 3 (App.start 0 exampleView).1.body = [4, 6, 8, 9, 10] ∧
    (App.start 0 exampleView).1.next = 13 := by decide +kernel

example : dueAll 3 (App.start 0 exampleView).1.body ≠ [] ∧ dueAll 0 (App.start 0 exampleView).1.body = [] ∧
    ((App.start 0 exampleView).1.change 3 List.reverse (dueAll 3 (App.start 0 exampleView).1.body)).2 ≠ [] := by
  decide +kernel

end Verif.View

import Verif.Reactive.GraphLemmas
/-!
# C10: node ids

Source: `crates/vertigo/src/computed/graph_id.rs`.
-/
namespace Verif.Reactive

/-- graph_id.rs:35-41: `COUNTER.fetch_add(1)` on a u64; the wrap-around after 2^64
allocations is modelled. The pair is (id returned, next counter). -/
def uniqueId (counter : Nat) : Nat × Nat := (counter, (counter + 1) % 2 ^ 64)

/-- graph_id.rs:14-24 (`new_value`, `new_computed`, `new_client`). -/
def GraphId.alloc (kind : Kind) (counter : Nat) : GraphId × Nat :=
  let (n, counter) := uniqueId counter
  (⟨kind, n⟩, counter)

/-- The ids handed out for a sequence of allocations. -/
def allocAll (counter : Nat) : List Kind → List GraphId
  | [] => []
  | k :: ks => (GraphId.alloc k counter).1 :: allocAll (GraphId.alloc k counter).2 ks

/-- The counter starts at 1 (graph_id.rs:38). -/
def ids (kinds : List Kind) : List GraphId := allocAll 1 kinds

theorem allocAll_num (ks : List Kind) : ∀ n, n + ks.length ≤ 2 ^ 64 → ∀ i (h : i < (allocAll n ks).length),
    ((allocAll n ks)[i]).num = n + i ∧ ∃ h' : i < ks.length, ((allocAll n ks)[i]).kind = ks[i] := by
  induction ks with
  | nil => intro n _ i h; simp [allocAll] at h
  | cons k ks ih =>
    intro n hn i h
    simp only [List.length_cons] at hn
    cases i with
    | zero => simp [allocAll, GraphId.alloc, uniqueId]
    | succ i =>
      simp only [allocAll, GraphId.alloc, uniqueId, List.getElem_cons_succ]
      by_cases hm : n + 1 < 2 ^ 64
      · have : (n + 1) % 2 ^ 64 = n + 1 := Nat.mod_eq_of_lt hm
        have h' : i < (allocAll ((n + 1) % 2 ^ 64) ks).length := by
          simpa [allocAll, GraphId.alloc, uniqueId] using h
        obtain ⟨h1, h2, h3⟩ := ih ((n + 1) % 2 ^ 64) (by omega) i h'
        exact ⟨by omega, by simpa using h2, by simpa using h3⟩
      · have : ks = [] := by
          apply List.length_eq_zero_iff.mp; omega
        subst this; simp [allocAll] at h

theorem allocAll_length (n ks) : (allocAll n ks).length = ks.length := by
  induction ks generalizing n with
  | nil => rfl
  | cons k ks ih => simp [allocAll, ih]

/-- **C10.** Whatever is created in whatever order (fewer than 2^64 nodes): every node
gets its own id of its kind, no two nodes share an id (nor a number), and ids are
ordered by kind first — values before computeds before clients — and within a kind by
age. -/
theorem C10_ids_unique_ordered (kinds : List Kind) (hsize : kinds.length < 2 ^ 64) :
    (ids kinds).map GraphId.kind = kinds ∧
    ((ids kinds).map GraphId.num).Nodup ∧ (ids kinds).Nodup ∧
    ∀ i j (hi : i < (ids kinds).length) (hj : j < (ids kinds).length),
      ((ids kinds)[i]).lt (ids kinds)[j] ↔
        (kinds[i]'(by simpa [ids, allocAll_length] using hi)).rank <
            (kinds[j]'(by simpa [ids, allocAll_length] using hj)).rank ∨
        (kinds[i]'(by simpa [ids, allocAll_length] using hi) =
            kinds[j]'(by simpa [ids, allocAll_length] using hj) ∧ i < j) := by
  have hnum := allocAll_num kinds 1 (by omega)
  have hn : ((ids kinds).map GraphId.num).Nodup := by
    rw [List.nodup_iff_pairwise_ne, List.pairwise_iff_getElem]
    intro i j hi hj hij
    simp only [List.length_map] at hi hj
    simp only [List.getElem_map]
    have h1 := (hnum i hi).1
    have h2 := (hnum j hj).1
    simp only [ids]
    omega
  refine ⟨?_, hn, ?_, ?_⟩
  · apply List.ext_getElem
    · simp [ids, allocAll_length]
    · intro i h1 h2
      simp only [List.getElem_map]
      obtain ⟨_, h3⟩ := (hnum i (by simpa [ids] using h1)).2
      exact h3
  · exact List.Pairwise.of_map GraphId.num (fun a b h e => h (congrArg GraphId.num e)) hn
  · intro i j hi hj
    obtain ⟨h1, _, h2⟩ := hnum i hi
    obtain ⟨h3, _, h4⟩ := hnum j hj
    have e1 : ((ids kinds)[i]).num = 1 + i := h1
    have e2 : ((ids kinds)[j]).num = 1 + j := h3
    have e3 : ((ids kinds)[i]).kind = _ := h2
    have e4 : ((ids kinds)[j]).kind = _ := h4
    simp only [GraphId.lt, e1, e2, e3, e4]
    constructor
    · rintro (h | ⟨h, h'⟩)
      · exact Or.inl h
      · exact Or.inr ⟨Kind.rank_inj h, by omega⟩
    · rintro (h | ⟨h, h'⟩)
      · exact Or.inl h
      · exact Or.inr ⟨by rw [h], by omega⟩

/-- The order really is: value before computed before client. -/
theorem C10_kind_order : Kind.value.rank < Kind.computed.rank ∧
    Kind.computed.rank < Kind.client.rank := by decide

/-- Iterating a set of clients visits older ones first, whatever the order of insertion. -/
theorem C10_sets_oldest_first (l : List GraphId) (hc : ∀ x ∈ l, x.kind = .client) :
    (sOfList l).Pairwise (fun a b => a.num < b.num) ∧ ∀ x, x ∈ sOfList l ↔ x ∈ l := by
  refine ⟨?_, fun x => mem_sOfList⟩
  apply List.Pairwise.imp_of_mem _ (asc_sOfList l)
  intro a b ha hb hlt
  have h1 := hc a (mem_sOfList.mp ha)
  have h2 := hc b (mem_sOfList.mp hb)
  simp only [GraphId.lt, h1, h2] at hlt
  omega

example : ids [.client, .value, .computed, .value] =
    [⟨.client, 1⟩, ⟨.value, 2⟩, ⟨.computed, 3⟩, ⟨.value, 4⟩] := by decide
example : sOfList [⟨.client, 9⟩, ⟨.client, 2⟩, ⟨.client, 9⟩, ⟨.client, 5⟩] =
    [⟨.client, 2⟩, ⟨.client, 5⟩, ⟨.client, 9⟩] := by decide

end Verif.Reactive

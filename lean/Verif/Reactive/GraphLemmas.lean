import Verif.Reactive.Graph
/-! Helper lemmas about the dependency graph. -/
namespace Verif.Reactive

/-! ### Order -/

theorem Kind.rank_inj {a b : Kind} (h : a.rank = b.rank) : a = b := by
  cases a <;> cases b <;> simp_all [Kind.rank]

theorem GraphId.ext' {a b : GraphId} (h1 : a.kind.rank = b.kind.rank) (h2 : a.num = b.num) :
    a = b := by
  cases a; cases b; simp at h1 h2; simp [h2, Kind.rank_inj h1]

theorem GraphId.lt_trans {a b c : GraphId} (h1 : a.lt b) (h2 : b.lt c) : a.lt c := by
  unfold GraphId.lt at *; omega

theorem GraphId.lt_irrefl (a : GraphId) : ¬ a.lt a := by
  unfold GraphId.lt; omega

theorem GraphId.lt_total {a b : GraphId} (h1 : ¬ a.lt b) (h2 : a ≠ b) : b.lt a := by
  unfold GraphId.lt at *
  by_cases hk : a.kind.rank = b.kind.rank
  · by_cases hn : a.num = b.num
    · exact absurd (GraphId.ext' hk hn) h2
    · omega
  · omega

/-- Strictly ascending. -/
abbrev Asc (l : List GraphId) : Prop := l.Pairwise GraphId.lt

/-! ### Sets -/

@[simp] theorem mem_sIns {x y : GraphId} {l} : y ∈ sIns x l ↔ y = x ∨ y ∈ l := by
  induction l with
  | nil => simp [sIns]
  | cons a l ih =>
    simp only [sIns]
    split
    · subst_vars; simp; 
    · split
      · simp
      · simp [ih]; grind

@[simp] theorem mem_sDel {x y : GraphId} {l} : y ∈ sDel x l ↔ y ∈ l ∧ y ≠ x := by
  simp [sDel]

@[simp] theorem mem_sExtend {y : GraphId} {l s} : y ∈ sExtend s l ↔ y ∈ s ∨ y ∈ l := by
  induction l generalizing s with
  | nil => simp [sExtend]
  | cons a l ih =>
    have : sExtend s (a :: l) = sExtend (sIns a s) l := rfl
    rw [this, ih]; simp; grind

@[simp] theorem mem_sOfList {y : GraphId} {l} : y ∈ sOfList l ↔ y ∈ l := by
  have : sOfList l = sExtend [] l := rfl
  rw [this]; simp

@[simp] theorem mem_sDiff {y : GraphId} {a b} : y ∈ sDiff a b ↔ y ∈ a ∧ y ∉ b := by
  simp [sDiff]

theorem asc_sIns {x l} (h : Asc l) : Asc (sIns x l) := by
  induction l with
  | nil => simp [sIns]
  | cons a l ih =>
    simp only [sIns]
    split
    · exact h
    · rename_i hne
      split
      · rename_i hlt
        have h := List.pairwise_cons.mp h
        refine List.pairwise_cons.mpr ⟨?_, List.pairwise_cons.mpr h⟩
        intro b hb
        rcases List.mem_cons.mp hb with rfl | hb
        · exact hlt
        · exact GraphId.lt_trans hlt (h.1 b hb)
      · rename_i hnlt
        have h := List.pairwise_cons.mp h
        refine List.pairwise_cons.mpr ⟨?_, ih h.2⟩
        intro b hb
        rcases mem_sIns.mp hb with rfl | hb
        · exact GraphId.lt_total hnlt hne
        · exact h.1 b hb

theorem asc_sDel {x l} (h : Asc l) : Asc (sDel x l) := List.Pairwise.filter _ h

theorem asc_sDiff {a b} (h : Asc a) : Asc (sDiff a b) := List.Pairwise.filter _ h

theorem asc_sExtend {s l} (h : Asc s) : Asc (sExtend s l) := by
  induction l generalizing s with
  | nil => exact h
  | cons a l ih => exact ih (asc_sIns h)

theorem asc_sOfList (l) : Asc (sOfList l) := asc_sExtend (by simp)

theorem asc_nodup {l} (h : Asc l) : l.Nodup :=
  List.Pairwise.imp (R := GraphId.lt)
    (fun {a b} (hab : a.lt b) (he : a = b) => GraphId.lt_irrefl b (he ▸ hab)) h

theorem sIns_length_le (x l) : (sIns x l).length ≤ l.length + 1 := by
  induction l with
  | nil => simp [sIns]
  | cons a l ih => simp only [sIns]; split <;> (try split) <;> simp <;> omega

theorem sDel_length_le (x l) : (sDel x l).length ≤ l.length := List.length_filter_le _ _

theorem sDel_length_lt {x l} (h : x ∈ l) : (sDel x l).length < l.length := by
  apply List.length_filter_lt_length_iff_exists.mpr
  exact ⟨x, h, by simp⟩

/-! ### Relations -/

structure Rel.WF (m : Rel) : Prop where
  keys : (m.map (·.1)).Nodup
  nonempty : ∀ e ∈ m, e.2 ≠ []
  asc : ∀ e ∈ m, Asc e.2

theorem Rel.WF.nil : Rel.WF [] := ⟨by simp, by simp, by simp⟩

theorem Rel.get_not_key {m : Rel} {x} (h : x ∉ m.map (·.1)) : m.get x = [] := by
  induction m with
  | nil => rfl
  | cons e m ih =>
    obtain ⟨k, s⟩ := e
    simp at h
    have : k ≠ x := fun e => h.1 e.symm
    simp [Rel.get, this]
    exact ih (by simpa using h.2)

theorem Rel.get_asc {m : Rel} (h : m.WF) (x) : Asc (m.get x) := by
  induction m with
  | nil => simp [Rel.get]
  | cons e m ih =>
    obtain ⟨k, s⟩ := e
    simp only [Rel.get]
    split
    · exact h.asc _ (List.mem_cons_self ..)
    · exact ih ⟨(List.nodup_cons.mp h.keys).2, fun e he => h.nonempty e (List.mem_cons_of_mem _ he),
        fun e he => h.asc e (List.mem_cons_of_mem _ he)⟩

theorem Rel.mem_add {m : Rel} {x z w y} :
    y ∈ (m.add x z).get w ↔ (w = x ∧ y = z) ∨ y ∈ m.get w := by
  induction m with
  | nil => simp [Rel.add, Rel.get, sIns]; grind
  | cons e m ih =>
    obtain ⟨k, s⟩ := e
    simp only [Rel.add]
    split
    · subst_vars; simp only [Rel.get]; split <;> simp_all
      grind
    · simp only [Rel.get]
      split
      · grind
      · exact ih

theorem Rel.mem_remove {m : Rel} (hn : (m.map (·.1)).Nodup) {x z w y} :
    y ∈ (m.remove x z).get w ↔ y ∈ m.get w ∧ ¬ (w = x ∧ y = z) := by
  induction m with
  | nil => simp [Rel.remove, Rel.get]
  | cons e m ih =>
    obtain ⟨k, s⟩ := e
    have hn' := List.nodup_cons.mp hn
    simp only [Rel.remove]
    split
    · rename_i hk
      subst hk
      split
      · rename_i hemp
        simp only [List.isEmpty_iff] at hemp
        by_cases hw : k = w
        · subst hw
          rw [Rel.get_not_key hn'.1]
          simp only [Rel.get, if_true]
          have : ∀ y, y ∈ s → y = z := by
            intro y hy
            apply Classical.byContradiction
            intro hne
            have : y ∈ sDel z s := by simp [hy, hne]
            rw [hemp] at this
            cases this
          grind
        · simp only [Rel.get, if_neg hw]
          have : w ≠ k := fun e => hw e.symm
          simp [this]
      · by_cases hw : k = w
        · subst hw; simp [Rel.get]
        · have : w ≠ k := fun e => hw e.symm
          simp [Rel.get, hw, this]
    · rename_i hk
      by_cases hw : k = w
      · subst hw
        simp [Rel.get, hk]
      · simp only [Rel.get, if_neg hw]
        exact ih hn'.2

theorem Rel.keys_add {m : Rel} {x y k} : k ∈ (m.add x y).map (·.1) ↔ k = x ∨ k ∈ m.map (·.1) := by
  induction m with
  | nil => simp [Rel.add]
  | cons e m ih =>
    obtain ⟨k', s⟩ := e
    simp only [Rel.add]
    split
    · subst_vars; simp
    · simp only [List.map_cons, List.mem_cons, ih]; grind

theorem Rel.keys_remove {m : Rel} {x y k} (h : k ∈ (m.remove x y).map (·.1)) : k ∈ m.map (·.1) := by
  induction m with
  | nil => simp [Rel.remove] at h
  | cons e m ih =>
    obtain ⟨k', s⟩ := e
    simp only [Rel.remove] at h
    split at h
    · split at h
      · exact List.mem_cons_of_mem _ h
      · simpa using h
    · rcases List.mem_cons.mp h with rfl | h
      · exact List.mem_cons_self ..
      · exact List.mem_cons_of_mem _ (ih h)

theorem Rel.WF.tail {e} {m : Rel} (h : Rel.WF (e :: m)) : Rel.WF m :=
  ⟨(List.nodup_cons.mp h.keys).2, fun e he => h.nonempty e (List.mem_cons_of_mem _ he),
        fun e he => h.asc e (List.mem_cons_of_mem _ he)⟩

theorem Rel.WF.cons {e} {m : Rel} (h : Rel.WF m) (h1 : e.1 ∉ m.map (·.1)) (h2 : e.2 ≠ [])
    (h3 : Asc e.2) : Rel.WF (e :: m) := by
  refine ⟨List.nodup_cons.mpr ⟨h1, h.keys⟩, ?_, ?_⟩
  · intro e' he
    rcases List.mem_cons.mp he with rfl | he
    · exact h2
    · exact h.nonempty _ he
  · intro e' he
    rcases List.mem_cons.mp he with rfl | he
    · exact h3
    · exact h.asc _ he

theorem sIns_ne_nil (x l) : sIns x l ≠ [] := by
  intro h
  have : x ∈ sIns x l := by simp
  rw [h] at this
  cases this

theorem Rel.WF.add {m : Rel} (h : m.WF) (x y) : (m.add x y).WF := by
  induction m with
  | nil => exact Rel.WF.cons Rel.WF.nil (by simp) (sIns_ne_nil _ _) (asc_sIns (by simp))
  | cons e m ih =>
    obtain ⟨k, s⟩ := e
    have hk := (List.nodup_cons.mp h.keys).1
    simp only [Rel.add]
    split
    · exact Rel.WF.cons h.tail hk (sIns_ne_nil _ _) (asc_sIns (h.asc _ (List.mem_cons_self ..)))
    · rename_i hne
      refine Rel.WF.cons (ih h.tail) ?_ (h.nonempty _ (List.mem_cons_self ..))
        (h.asc _ (List.mem_cons_self ..))
      rw [Rel.keys_add]
      rintro (h' | h')
      · exact hne h'
      · exact hk h'

theorem Rel.WF.remove {m : Rel} (h : m.WF) (x y) : (m.remove x y).WF := by
  induction m with
  | nil => exact Rel.WF.nil
  | cons e m ih =>
    obtain ⟨k, s⟩ := e
    have hk := (List.nodup_cons.mp h.keys).1
    simp only [Rel.remove]
    split
    · split
      · exact h.tail
      · rename_i hne
        refine Rel.WF.cons h.tail hk ?_ (asc_sDel (h.asc _ (List.mem_cons_self ..)))
        intro h'
        simp only at h'
        rw [h'] at hne
        simp at hne
    · exact Rel.WF.cons (ih h.tail) (fun hh => hk (Rel.keys_remove hh))
        (h.nonempty _ (List.mem_cons_self ..)) (h.asc _ (List.mem_cons_self ..))

theorem Rel.size_add (m : Rel) (x y) : (m.add x y).size ≤ m.size + 1 := by
  induction m with
  | nil => simp [Rel.add, Rel.size, sIns]
  | cons e m ih =>
    obtain ⟨k, s⟩ := e
    simp only [Rel.add]
    split
    · have := sIns_length_le y s; simp only [Rel.size]; omega
    · simp only [Rel.size]; omega

theorem Rel.size_remove_le (m : Rel) (x y) : (m.remove x y).size ≤ m.size := by
  induction m with
  | nil => simp [Rel.remove]
  | cons e m ih =>
    obtain ⟨k, s⟩ := e
    simp only [Rel.remove]
    split
    · split
      · simp only [Rel.size]; omega
      · have := sDel_length_le y s; simp only [Rel.size]; omega
    · simp only [Rel.size]; omega

theorem Rel.size_remove_lt {m : Rel} {x y} (h : y ∈ m.get x) : (m.remove x y).size < m.size := by
  induction m with
  | nil => simp [Rel.get] at h
  | cons e m ih =>
    obtain ⟨k, s⟩ := e
    simp only [Rel.get] at h
    simp only [Rel.remove]
    split
    · rename_i hk
      rw [if_pos hk] at h
      have h1 := sDel_length_lt h
      split
      · simp only [Rel.size]; omega
      · simp only [Rel.size]; omega
    · rename_i hk
      rw [if_neg hk] at h
      have := ih h
      simp only [Rel.size]; omega

/-! ### Connections -/

/-- The edge relation stored in a graph. -/
def Conn.E (g : Conn) (p c : GraphId) : Prop := c ∈ g.pc.get p

structure Conn.WF (g : Conn) : Prop where
  pc : g.pc.WF
  cp : g.cp.WF
  inv : ∀ p c, c ∈ g.pc.get p ↔ p ∈ g.cp.get c

theorem Conn.WF.empty : Conn.empty.WF :=
  ⟨Rel.WF.nil, Rel.WF.nil, by simp [Conn.empty, Rel.get]⟩

theorem Conn.exec_add_E (g : Conn) (p c a b) :
    (g.exec (.add p c)).1.E a b ↔ (a = p ∧ b = c) ∨ g.E a b := by
  simp [Conn.exec, Conn.E, Rel.mem_add]

theorem Conn.exec_remove_fst (g : Conn) (p c) :
    (g.exec (.remove p c)).1 = ⟨g.pc.remove p c, g.cp.remove c p⟩ := by
  simp only [Conn.exec]; split <;> rfl

theorem Conn.exec_remove_E {g : Conn} (h : g.WF) (p c a b) :
    (g.exec (.remove p c)).1.E a b ↔ g.E a b ∧ ¬ (a = p ∧ b = c) := by
  rw [Conn.exec_remove_fst]
  exact Rel.mem_remove h.pc.keys

theorem Conn.WF.exec {g : Conn} (h : g.WF) (cmd) : (g.exec cmd).1.WF := by
  cases cmd with
  | add p c =>
    refine ⟨h.pc.add _ _, h.cp.add _ _, ?_⟩
    intro a b
    simp only [Conn.exec, Rel.mem_add, h.inv a b]
    grind
  | remove p c =>
    rw [Conn.exec_remove_fst]
    refine ⟨h.pc.remove _ _, h.cp.remove _ _, ?_⟩
    intro a b
    simp only
    rw [Rel.mem_remove h.pc.keys, Rel.mem_remove h.cp.keys, h.inv a b]
    grind

theorem Conn.exec_remove_snd {g : Conn} (h : g.WF) (p c) (cmd : Cmd) :
    cmd ∈ (g.exec (.remove p c)).2 ↔
      (∀ d, ¬ (g.exec (.remove p c)).1.E p d) ∧
        ∃ n, cmd = .remove n p ∧ (g.exec (.remove p c)).1.E n p := by
  have hw := h.exec (.remove p c)
  rw [Conn.exec_remove_fst] at hw ⊢
  simp only [Conn.exec, Conn.E]
  split
  · rename_i he
    simp only [List.isEmpty_iff] at he
    simp only [List.mem_map]
    constructor
    · rintro ⟨n, hn, rfl⟩
      refine ⟨?_, n, rfl, (hw.inv _ _).mpr hn⟩
      intro d hd; rw [he] at hd; cases hd
    · rintro ⟨_, n, rfl, hn⟩
      exact ⟨n, (hw.inv _ _).mp hn, rfl⟩
  · rename_i he
    simp only [List.not_mem_nil, false_iff]
    rintro ⟨hd, _⟩
    apply he
    simp only [List.isEmpty_iff]
    apply List.eq_nil_iff_forall_not_mem.mpr
    exact hd

theorem Conn.exec_remove_size_le (g : Conn) (p c) :
    (g.exec (.remove p c)).1.cp.size ≤ g.cp.size := by
  rw [Conn.exec_remove_fst]; exact Rel.size_remove_le _ _ _

theorem Conn.exec_remove_size_lt {g : Conn} (h : g.WF) {p c} (he : g.E p c) :
    (g.exec (.remove p c)).1.cp.size < g.cp.size := by
  rw [Conn.exec_remove_fst]; exact Rel.size_remove_lt ((h.inv _ _).mp he)

/-- If the edge does not exist, removing it changes nothing. -/
theorem Rel.remove_of_not_mem {m : Rel} (h : m.WF) {x y} (hm : y ∉ m.get x) : m.remove x y = m := by
  induction m with
  | nil => rfl
  | cons e m ih =>
    obtain ⟨k, s⟩ := e
    simp only [Rel.get] at hm
    simp only [Rel.remove]
    split
    · rename_i hk
      rw [if_pos hk] at hm
      have : sDel y s = s := by
        simp only [sDel, List.filter_eq_self]
        intro a ha
        simp only [ne_eq, decide_not, Bool.not_eq_eq_eq_not, Bool.not_true, decide_eq_false_iff_not]
        rintro rfl
        exact hm ha
      rw [this]
      have hne := h.nonempty _ (List.mem_cons_self ..)
      simp [hne]
    · rename_i hk
      rw [if_neg hk] at hm
      rw [ih h.tail hm]

theorem Conn.exec_remove_none {g : Conn} (h : g.WF) {p c} (he : ¬ g.E p c) :
    (g.exec (.remove p c)).1 = g := by
  rw [Conn.exec_remove_fst, Rel.remove_of_not_mem h.pc he,
    Rel.remove_of_not_mem h.cp (fun hh => he ((h.inv _ _).mpr hh))]

/-! ### Command lists -/

theorem Conn.execList_cons (g : Conn) (c cs) :
    g.execList (c :: cs) =
      (((g.exec c).1.execList cs).1, (g.exec c).2 ++ ((g.exec c).1.execList cs).2) := rfl

theorem Conn.execList_append (g : Conn) (a b) :
    g.execList (a ++ b) =
      (((g.execList a).1.execList b).1, (g.execList a).2 ++ ((g.execList a).1.execList b).2) := by
  induction a generalizing g with
  | nil => simp [Conn.execList]
  | cons c cs ih =>
    rw [List.cons_append, Conn.execList_cons, ih, Conn.execList_cons]
    simp

theorem Conn.WF.execList {g : Conn} (h : g.WF) (cs) : (g.execList cs).1.WF := by
  induction cs generalizing g with
  | nil => exact h
  | cons c cs ih => rw [Conn.execList_cons]; exact ih (h.exec c)

theorem Conn.execList_adds (g : Conn) (l : List GraphId) (x) :
    (∀ a b, (g.execList (l.map fun p => .add p x)).1.E a b ↔ (a ∈ l ∧ b = x) ∨ g.E a b) ∧
      (g.execList (l.map fun p => .add p x)).2 = [] ∧
      (g.execList (l.map fun p => .add p x)).1.cp.size ≤ g.cp.size + l.length := by
  induction l generalizing g with
  | nil => simp [Conn.execList]
  | cons p l ih =>
    simp only [List.map_cons, Conn.execList_cons]
    obtain ⟨h1, h2, h3⟩ := ih (g.exec (.add p x)).1
    refine ⟨?_, ?_, ?_⟩
    · intro a b
      rw [h1, Conn.exec_add_E]
      simp only [List.mem_cons]
      grind
    · rw [h2]; rfl
    · have := Rel.size_add g.cp x p
      have h4 : (g.exec (.add p x)).1.cp = g.cp.add x p := rfl
      rw [h4] at h3
      simp only [List.length_cons]
      omega

def Removes (cs : List Cmd) : Prop := ∀ c ∈ cs, ∃ p x, c = .remove p x

theorem Removes.cons {c cs} (h : Removes (c :: cs)) : (∃ p x, c = .remove p x) ∧ Removes cs :=
  ⟨h c (List.mem_cons_self ..), fun c hc => h c (List.mem_cons_of_mem _ hc)⟩

theorem Removes.append {a b} (h : Removes a) (h' : Removes b) : Removes (a ++ b) := by
  intro c hc
  rcases List.mem_append.mp hc with hc | hc
  · exact h c hc
  · exact h' c hc

theorem Conn.exec_remove_removes {g : Conn} (h : g.WF) (p c) :
    Removes (g.exec (.remove p c)).2 := by
  intro cmd hc
  obtain ⟨_, n, rfl, _⟩ := (Conn.exec_remove_snd h p c cmd).mp hc
  exact ⟨n, p, rfl⟩

theorem Conn.execList_removes {g : Conn} (h : g.WF) {cs} (hr : Removes cs) :
    Removes (g.execList cs).2 := by
  induction cs generalizing g with
  | nil => intro c hc; simp [Conn.execList] at hc
  | cons c cs ih =>
    obtain ⟨⟨p, x, rfl⟩, hr'⟩ := hr.cons
    rw [Conn.execList_cons]
    exact (Conn.exec_remove_removes h p x).append (ih (h.exec _) hr')

theorem Conn.execList_size_le {g : Conn} {cs} (hr : Removes cs) :
    (g.execList cs).1.cp.size ≤ g.cp.size := by
  induction cs generalizing g with
  | nil => exact Nat.le_refl _
  | cons c cs ih =>
    obtain ⟨⟨p, x, rfl⟩, hr'⟩ := hr.cons
    rw [Conn.execList_cons]
    exact Nat.le_trans (ih hr') (Conn.exec_remove_size_le g p x)

/-- A round either removes an edge or leaves the graph unchanged; in the latter
case every follow-up command names an edge that exists. -/
theorem Conn.execList_progress {g : Conn} (h : g.WF) {cs} (hr : Removes cs) :
    (g.execList cs).1.cp.size < g.cp.size ∨
      ((g.execList cs).1 = g ∧ (∀ p x, .remove p x ∈ cs → ¬ g.E p x) ∧
        ∀ p x, .remove p x ∈ (g.execList cs).2 → g.E p x) := by
  induction cs generalizing g with
  | nil => right; simp [Conn.execList]
  | cons c cs ih =>
    obtain ⟨⟨p, x, rfl⟩, hr'⟩ := hr.cons
    rw [Conn.execList_cons]
    by_cases he : g.E p x
    · left
      exact Nat.lt_of_le_of_lt (Conn.execList_size_le hr') (Conn.exec_remove_size_lt h he)
    · have hg := Conn.exec_remove_none h he
      have hs := Conn.exec_remove_snd h p x
      rw [hg] at hs ⊢
      rcases ih h hr' with hlt | ⟨h1, h2, h3⟩
      · left; exact hlt
      · right
        refine ⟨h1, ?_, ?_⟩
        · intro p' x' hm
          rcases List.mem_cons.mp hm with h4 | h4
          · cases h4; exact he
          · exact h2 p' x' h4
        · intro p' x' hm
          rcases List.mem_append.mp hm with h4 | h4
          · obtain ⟨_, n, h5, h6⟩ := (hs _).mp h4
            cases h5
            exact h6
          · exact h3 p' x' h4

open Classical in
/-- Termination measure of the cascade. -/
noncomputable def Conn.measure (g : Conn) (cs : List Cmd) : Nat :=
  if cs = [] then 0
  else 2 * g.cp.size + (if ∃ p x, .remove p x ∈ cs ∧ g.E p x then 0 else 1) + 1

theorem Conn.measure_lt {g : Conn} (h : g.WF) {cs} (hr : Removes cs) (hne : cs ≠ []) :
    (g.execList cs).1.measure (g.execList cs).2 < g.measure cs := by
  classical
  unfold Conn.measure
  rw [if_neg hne]
  by_cases h2 : (g.execList cs).2 = []
  · rw [if_pos h2]; omega
  rw [if_neg h2]
  rcases Conn.execList_progress h hr with hlt | ⟨h1, hn, hall⟩
  · split <;> split <;> omega
  · have hno : ¬ ∃ p x, Cmd.remove p x ∈ cs ∧ g.E p x := by
      rintro ⟨p, x, hm, he⟩; exact hn p x hm he
    have hyes : ∃ p x, Cmd.remove p x ∈ (g.execList cs).2 ∧ (g.execList cs).1.E p x := by
      rw [h1]
      obtain ⟨c, hc⟩ := List.exists_mem_of_ne_nil _ h2
      obtain ⟨p, x, rfl⟩ := Conn.execList_removes h hr c hc
      exact ⟨p, x, hc, hall p x hc⟩
    rw [if_neg hno, if_pos hyes, h1]
    omega

theorem Conn.loop_succ (g : Conn) (fuel nodes cs) :
    g.loop (fuel + 1) nodes cs =
      if (g.execList cs).2.isEmpty then
        some ((g.execList cs).1, sExtend nodes (cs.map Cmd.parent))
      else (g.execList cs).1.loop fuel (sExtend nodes (cs.map Cmd.parent)) (g.execList cs).2 := rfl

theorem Conn.loop_some {g : Conn} (h : g.WF) {cs} (hr : Removes cs) (fuel nodes)
    (hf : g.measure cs < fuel) : ∃ r, g.loop fuel nodes cs = some r := by
  induction fuel generalizing g cs nodes with
  | zero => omega
  | succ fuel ih =>
    simp only [Conn.loop]
    split
    · exact ⟨_, rfl⟩
    · rename_i hne
      have hne' : cs ≠ [] := by
        rintro rfl; simp [Conn.execList] at hne
      exact ih (h.execList cs) (Conn.execList_removes h hr) _
        (by have := Conn.measure_lt h hr hne'; omega)

theorem Conn.updateCommands_eq (g : Conn) (x N) :
    g.updateCommands x N = ((sDiff N (sOfList (g.cp.get x))).map fun p => .add p x) ++
      ((sDiff (sOfList (g.cp.get x)) N).map fun p => .remove p x) := rfl

theorem Conn.measure_le (g : Conn) (cs) : g.measure cs ≤ 2 * g.cp.size + 2 := by
  unfold Conn.measure; split <;> (try split) <;> omega

theorem Conn.loop_one_some {g : Conn} (h : g.WF) (x N nodes) :
    ∃ r, g.loop (g.loopFuel N) nodes (g.updateCommands x N) = some r := by
  obtain ⟨n, hn⟩ : ∃ n, n = 2 * (g.cp.size + N.length) + 3 := ⟨_, rfl⟩
  have hfuel : g.loopFuel N = n + 1 := by unfold Conn.loopFuel; omega
  rw [hfuel, Conn.loop_succ]
  split
  · exact ⟨_, rfl⟩
  · obtain ⟨_, h2, h3⟩ := Conn.execList_adds g (sDiff N (sOfList (g.cp.get x))) x
    have hlen : (sDiff N (sOfList (g.cp.get x))).length ≤ N.length := List.length_filter_le _ _
    rw [Conn.updateCommands_eq, Conn.execList_append, h2]
    simp only [List.nil_append]
    have hr : Removes ((sDiff (sOfList (g.cp.get x)) N).map fun p => Cmd.remove p x) := by
      intro c hc
      obtain ⟨p, _, rfl⟩ := List.mem_map.mp hc
      exact ⟨p, x, rfl⟩
    refine Conn.loop_some ((h.execList _).execList _) (Conn.execList_removes (h.execList _) hr) _ _ ?_
    refine Nat.lt_of_le_of_lt (Conn.measure_le _ _) ?_
    have := Conn.execList_size_le (g := (g.execList ((sDiff N (sOfList (g.cp.get x))).map fun p => .add p x)).1) hr
    omega

theorem Conn.setParents_some {g : Conn} (h : g.WF) (x N) : ∃ r, g.setParents x N = some r := by
  obtain ⟨r, hr⟩ := Conn.loop_one_some h x N [x]
  unfold Conn.setParents
  rw [hr]
  exact ⟨_, rfl⟩


/-! ### The cascade -/

/-- Invariant of the cascade after the additions: `E0` is the edge relation then,
`X` the updated client, `N` its new producers, `Q` the pending commands. -/
structure Casc (E0 : GraphId → GraphId → Prop) (X : GraphId) (N : List GraphId)
    (g : Conn) (Q : List Cmd) : Prop where
  wf : g.WF
  sub : ∀ p c, g.E p c → E0 p c
  orig : ∀ cmd ∈ Q, ∃ p c, cmd = .remove p c ∧ E0 p c
  why : ∀ p c, E0 p c → (¬ g.E p c ∨ .remove p c ∈ Q) →
    (c = X ∧ p ∉ N) ∨ ((∀ d, ¬ g.E c d) ∧ ∃ d, E0 c d)
  dead : ∀ c, (∃ d, E0 c d) → (∀ d, ¬ g.E c d) → ∀ p, g.E p c → .remove p c ∈ Q
  own : ∀ p, p ∉ N → g.E p X → .remove p X ∈ Q
  anc : ∀ p c, E0 p c → (¬ g.E p c ∨ .remove p c ∈ Q) → Relation.TransGen E0 p X

theorem Casc.step {E0 X N g p c Q} (h : Casc E0 X N g (.remove p c :: Q)) :
    Casc E0 X N (g.exec (.remove p c)).1 (Q ++ (g.exec (.remove p c)).2) := by
  have hE := Conn.exec_remove_E h.wf p c
  have hS := Conn.exec_remove_snd h.wf p c
  have hw := h.wf.exec (.remove p c)
  have h0 : E0 p c := by
    obtain ⟨p', c', he, h0⟩ := h.orig _ (List.mem_cons_self ..)
    cases he; exact h0
  generalize hg' : (g.exec (.remove p c)).1 = g' at *
  generalize (g.exec (.remove p c)).2 = new at *
  have hanc : ∀ a b, E0 a b → (¬ g'.E a b ∨ .remove a b ∈ Q ++ new) → Relation.TransGen E0 a X := by
    intro a b hab hor
    rcases hor with hno | hq
    · by_cases hgab : g.E a b
      · have : a = p ∧ b = c := by
          apply Classical.byContradiction
          intro hne
          exact hno ((hE a b).mpr ⟨hgab, hne⟩)
        obtain ⟨rfl, rfl⟩ := this
        exact h.anc a b hab (.inr (List.mem_cons_self ..))
      · exact h.anc a b hab (.inl hgab)
    · rcases List.mem_append.mp hq with hq | hq
      · exact h.anc a b hab (.inr (List.mem_cons_of_mem _ hq))
      · obtain ⟨hd, n, he, hn⟩ := (hS _).mp hq
        cases he
        have hp := h.anc _ c h0 (.inr (List.mem_cons_self ..))
        exact Relation.TransGen.trans (.single hab) hp
  refine ⟨hw, ?_, ?_, ?_, ?_, ?_, hanc⟩
  · intro a b hab
    exact h.sub a b ((hE a b).mp hab).1
  · intro cmd hc
    rcases List.mem_append.mp hc with hc | hc
    · exact h.orig cmd (List.mem_cons_of_mem _ hc)
    · obtain ⟨_, n, rfl, hn⟩ := (hS cmd).mp hc
      exact ⟨n, p, rfl, h.sub _ _ ((hE _ _).mp hn).1⟩
  · intro a b hab hor
    have hdead : ∀ b, ((∀ d, ¬ g.E b d) ∧ ∃ d, E0 b d) → ((∀ d, ¬ g'.E b d) ∧ ∃ d, E0 b d) :=
      fun b hb => ⟨fun d hd => hb.1 d ((hE b d).mp hd).1, hb.2⟩
    rcases hor with hno | hq
    · by_cases hgab : g.E a b
      · have : a = p ∧ b = c := by
          apply Classical.byContradiction
          intro hne
          exact hno ((hE a b).mpr ⟨hgab, hne⟩)
        obtain ⟨rfl, rfl⟩ := this
        exact (h.why a b hab (.inr (List.mem_cons_self ..))).imp id (hdead b)
      · exact (h.why a b hab (.inl hgab)).imp id (hdead b)
    · rcases List.mem_append.mp hq with hq | hq
      · exact (h.why a b hab (.inr (List.mem_cons_of_mem _ hq))).imp id (hdead b)
      · obtain ⟨hd, n, he, hn⟩ := (hS _).mp hq
        cases he
        exact .inr ⟨hd, c, h0⟩
  · intro b hb0 hb q hq
    by_cases hold : ∀ d, ¬ g.E b d
    · have hm := h.dead b hb0 hold q ((hE q b).mp hq).1
      rcases List.mem_cons.mp hm with he | hm
      · cases he
        exact absurd ⟨rfl, rfl⟩ ((hE _ _).mp hq).2
      · exact List.mem_append_left _ hm
    · have : ∃ d, g.E b d := by
        apply Classical.byContradiction
        intro hh; exact hold (fun d hd => hh ⟨d, hd⟩)
      obtain ⟨d, hd⟩ := this
      have hbp : b = p := by
        apply Classical.byContradiction
        intro hne
        exact hb d ((hE b d).mpr ⟨hd, fun hh => hne hh.1⟩)
      subst hbp
      exact List.mem_append_right _ ((hS _).mpr ⟨hb, q, rfl, hq⟩)
  · intro q hq hqX
    have hm := h.own q hq ((hE q X).mp hqX).1
    rcases List.mem_cons.mp hm with he | hm
    · cases he
      exact absurd ⟨rfl, rfl⟩ ((hE _ _).mp hqX).2
    · exact List.mem_append_left _ hm

theorem Casc.congr {E0 X N g Q Q'} (h : Casc E0 X N g Q) (hq : ∀ c, c ∈ Q ↔ c ∈ Q') :
    Casc E0 X N g Q' :=
  ⟨h.wf, h.sub, fun c hc => h.orig c ((hq c).mpr hc),
    fun p c h0 hor => h.why p c h0 (hor.imp id (fun hm => (hq _).mpr hm)),
    fun c h0 hd p hp => (hq _).mp (h.dead c h0 hd p hp),
    fun p hp he => (hq _).mp (h.own p hp he),
    fun p c h0 hor => h.anc p c h0 (hor.imp id (fun hm => (hq _).mpr hm))⟩

theorem Casc.list {E0 X N g} {cs acc : List Cmd} (h : Casc E0 X N g (cs ++ acc))
    (hr : Removes cs) : Casc E0 X N (g.execList cs).1 (acc ++ (g.execList cs).2) := by
  induction cs generalizing g acc with
  | nil => simpa [Conn.execList] using h
  | cons c cs ih =>
    obtain ⟨⟨p, x, rfl⟩, hr'⟩ := hr.cons
    rw [Conn.execList_cons]
    have h1 := h.step
    have h2 := ih (acc := acc ++ (g.exec (.remove p x)).2) (h1.congr (by simp)) hr'
    simpa using h2

/-- Executing removals: the edges named are gone afterwards, every edge that
disappears is named. -/
theorem Conn.execList_E {g : Conn} (h : g.WF) {cs} (hr : Removes cs) (a b) :
    (g.execList cs).1.E a b ↔ g.E a b ∧ .remove a b ∉ cs := by
  induction cs generalizing g with
  | nil => simp [Conn.execList]
  | cons c cs ih =>
    obtain ⟨⟨p, x, rfl⟩, hr'⟩ := hr.cons
    rw [Conn.execList_cons]
    simp only
    rw [ih (h.exec _) hr', Conn.exec_remove_E h]
    simp only [List.mem_cons, Cmd.remove.injEq]
    grind

theorem Conn.loop_sub {g : Conn} (h : g.WF) {cs} (hr : Removes cs) {fuel nodes r}
    (hl : g.loop fuel nodes cs = some r) (a b) (he : r.1.E a b) : g.E a b ∧ .remove a b ∉ cs := by
  induction fuel generalizing g cs nodes with
  | zero => simp [Conn.loop] at hl
  | succ fuel ih =>
    rw [Conn.loop_succ] at hl
    split at hl
    · cases hl
      exact (Conn.execList_E h hr a b).mp he
    · have := ih (h.execList cs) (Conn.execList_removes h hr) hl
      exact (Conn.execList_E h hr a b).mp this.1

theorem Conn.loop_executes {g : Conn} (h : g.WF) {cs} (hr : Removes cs) {fuel nodes r}
    (hl : g.loop fuel nodes cs = some r) (a b) (hm : .remove a b ∈ cs) : ¬ r.1.E a b :=
  fun he => (Conn.loop_sub h hr hl a b he).2 hm

/-- Every emitted command names an edge that existed before the round. -/
theorem Conn.execList_emits {g : Conn} (h : g.WF) {cs} (hr : Removes cs) (a b)
    (hm : .remove a b ∈ (g.execList cs).2) : g.E a b := by
  induction cs generalizing g with
  | nil => simp [Conn.execList] at hm
  | cons c cs ih =>
    obtain ⟨⟨p, x, rfl⟩, hr'⟩ := hr.cons
    rw [Conn.execList_cons] at hm
    rcases List.mem_append.mp hm with hm | hm
    · obtain ⟨_, n, he, hn⟩ := (Conn.exec_remove_snd h p x _).mp hm
      cases he
      exact ((Conn.exec_remove_E h _ _ _ _).mp hn).1
    · exact ((Conn.exec_remove_E h p x _ _).mp (ih (h.exec _) hr' hm)).1

theorem Casc.loop {E0 X N g cs nodes fuel} {r : Conn × List GraphId}
    (h : Casc E0 X N g cs) (hr : Removes cs) (hloop : g.loop fuel nodes cs = some r) :
    Casc E0 X N r.1 [] ∧
      (∀ p, p ∈ r.2 ↔ p ∈ nodes ∨ (∃ c, .remove p c ∈ cs) ∨ ∃ c, g.E p c ∧ ¬ r.1.E p c) ∧
      (∀ p c, r.1.E p c → g.E p c) ∧ (Asc nodes → Asc r.2) := by
  induction fuel generalizing g cs nodes with
  | zero => simp [Conn.loop] at hloop
  | succ fuel ih =>
    rw [Conn.loop_succ] at hloop
    have hE := Conn.execList_E h.wf hr
    have h1 := Casc.list (acc := []) (by simpa using h) hr
    simp only [List.nil_append] at h1
    have hpar : ∀ p, p ∈ cs.map Cmd.parent ↔ ∃ c, .remove p c ∈ cs := by
      intro p
      simp only [List.mem_map]
      constructor
      · rintro ⟨cmd, hm, rfl⟩
        obtain ⟨p, x, rfl⟩ := hr cmd hm
        exact ⟨x, hm⟩
      · rintro ⟨c, hm⟩; exact ⟨_, hm, rfl⟩
    split at hloop
    · rename_i hemp
      simp only [List.isEmpty_iff] at hemp
      cases hloop
      rw [hemp] at h1
      refine ⟨h1, ?_, fun p c hh => ((hE p c).mp hh).1, fun ha => asc_sExtend ha⟩
      intro p
      simp only [mem_sExtend, hpar]
      constructor
      · rintro (h | h)
        · exact .inl h
        · exact .inr (.inl h)
      · rintro (h | h | ⟨c, h2, h3⟩)
        · exact .inl h
        · exact .inr h
        · refine .inr ⟨c, ?_⟩
          apply Classical.byContradiction
          intro hn
          exact h3 ((hE p c).mpr ⟨h2, hn⟩)
    · obtain ⟨h2, h3, h4, h5⟩ := ih h1 (Conn.execList_removes h.wf hr) hloop
      refine ⟨h2, ?_, fun p c hh => ((hE p c).mp (h4 p c hh)).1, fun ha => h5 (asc_sExtend ha)⟩
      intro p
      rw [h3]
      simp only [mem_sExtend, hpar]
      constructor
      · rintro ((hn | hn) | ⟨c, hn⟩ | ⟨c, h6, h7⟩)
        · exact .inl hn
        · exact .inr (.inl hn)
        · -- an emitted command: its edge existed in `g` or had been emitted
          by_cases hge : g.E p c
          · refine .inr (.inr ⟨c, hge, ?_⟩)
            intro hh
            exact (Conn.loop_executes h1.wf (Conn.execList_removes h.wf hr) hloop p c hn) hh
          · exact absurd (Conn.execList_emits h.wf hr p c hn) hge
        · exact .inr (.inr ⟨c, ((hE p c).mp h6).1, h7⟩)
      · rintro (h | h | ⟨c, h6, h7⟩)
        · exact .inl (.inl h)
        · exact .inl (.inr h)
        · by_cases hm : Cmd.remove p c ∈ cs
          · exact .inl (.inr ⟨c, hm⟩)
          · exact .inr (.inr ⟨c, (hE p c).mpr ⟨h6, hm⟩, h7⟩)

/-- What one update of the producers of `X` does. -/
structure SetSpec (g : Conn) (X : GraphId) (N : List GraphId) (g' : Conn)
    (nodes : List GraphId) : Prop where
  wf : g'.WF
  sub : ∀ p c, g'.E p c → g.E p c ∨ (c = X ∧ p ∈ N)
  own : ∀ p, g'.E p X → p ∈ N
  why : ∀ p c, (g.E p c ∨ (c = X ∧ p ∈ N)) → ¬ g'.E p c →
    (c = X ∧ p ∉ N) ∨ ((∀ d, ¬ g'.E c d) ∧ ∃ d, g.E c d ∨ (d = X ∧ c ∈ N))
  dead : ∀ c, (∃ d, g.E c d ∨ (d = X ∧ c ∈ N)) → (∀ d, ¬ g'.E c d) → ∀ p, ¬ g'.E p c
  mem : ∀ p, p ∈ nodes ↔ p = X ∨ (p ∈ N ∧ ¬ g.E p X) ∨
    ∃ c, (g.E p c ∨ (c = X ∧ p ∈ N)) ∧ ¬ g'.E p c
  asc : Asc nodes
  anc : ∀ p c, (g.E p c ∨ (c = X ∧ p ∈ N)) → ¬ g'.E p c →
    Relation.TransGen (fun a b => g.E a b ∨ (b = X ∧ a ∈ N)) p X

theorem Conn.loop_adds (g : Conn) (l : List GraphId) (X cs fuel nodes) :
    g.loop (fuel + 1) nodes ((l.map fun p => .add p X) ++ cs) =
      (g.execList (l.map fun p => .add p X)).1.loop (fuel + 1) (sExtend nodes l) cs := by
  obtain ⟨_, h2, _⟩ := Conn.execList_adds g l X
  have hp : (l.map fun p => Cmd.add p X).map Cmd.parent = l := by
    rw [List.map_map]
    conv => rhs; rw [← List.map_id l]
    rfl
  rw [Conn.loop_succ, Conn.loop_succ, Conn.execList_append, h2]
  simp only [List.nil_append, List.map_append, hp]
  have : ∀ s a b, sExtend s (a ++ b) = sExtend (sExtend s a) b := by
    intro s a b; simp [sExtend, List.foldl_append]
  rw [this]

theorem Conn.setParents_spec {g : Conn} (h : g.WF) {X N g' info}
    (hs : g.setParents X N = some (g', info)) :
    ∃ nodes, SetSpec g X N g' nodes ∧ info = g'.activeInfo nodes := by
  unfold Conn.setParents at hs
  split at hs
  · cases hs
  rename_i g'' nodes hl
  cases hs
  refine ⟨nodes, ?_, rfl⟩
  obtain ⟨n, hn⟩ : ∃ n, n = 2 * (g.cp.size + N.length) + 3 := ⟨_, rfl⟩
  have hfuel : g.loopFuel N = n + 1 := by unfold Conn.loopFuel; omega
  rw [hfuel, Conn.updateCommands_eq, Conn.loop_adds] at hl
  obtain ⟨hE1, _, _⟩ := Conn.execList_adds g (sDiff N (sOfList (g.cp.get X))) X
  have hw1 := h.execList ((sDiff N (sOfList (g.cp.get X))).map fun p => .add p X)
  generalize (g.execList ((sDiff N (sOfList (g.cp.get X))).map fun p => .add p X)).1 = g1 at *
  have hE1 : ∀ a b, g1.E a b ↔ g.E a b ∨ (b = X ∧ a ∈ N) := by
    intro a b
    rw [hE1]
    simp only [mem_sDiff, mem_sOfList, ← h.inv]
    unfold Conn.E
    by_cases hb : b = X
    · subst hb; by_cases hh : b ∈ g.pc.get a <;> simp [hh]
    · simp [hb]
  have hr : Removes ((sDiff (sOfList (g.cp.get X)) N).map fun p => Cmd.remove p X) := by
    intro c hc
    obtain ⟨p, _, rfl⟩ := List.mem_map.mp hc
    exact ⟨p, X, rfl⟩
  have hq : ∀ p c, Cmd.remove p c ∈ ((sDiff (sOfList (g.cp.get X)) N).map fun p => Cmd.remove p X) ↔
      c = X ∧ p ∉ N ∧ g.E p X := by
    intro p c
    simp only [List.mem_map, mem_sDiff, mem_sOfList, ← h.inv, Cmd.remove.injEq, Conn.E]
    grind
  have hinit : Casc g1.E X N g1 ((sDiff (sOfList (g.cp.get X)) N).map fun p => Cmd.remove p X) := by
    refine ⟨hw1, fun _ _ hh => hh, ?_, ?_, ?_, ?_, ?_⟩
    rotate_right
    · intro p c h0 hor
      rcases hor with hor | hor
      · exact absurd h0 hor
      · obtain ⟨rfl, h2, _⟩ := (hq p c).mp hor
        exact .single h0
    · intro cmd hc
      obtain ⟨p, c, rfl⟩ := hr cmd hc
      exact ⟨p, c, rfl, (hE1 _ _).mpr (.inl (by
        obtain ⟨rfl, _, h3⟩ := (hq p c).mp hc; exact h3))⟩
    · intro p c h0 hor
      rcases hor with hor | hor
      · exact absurd h0 hor
      · obtain ⟨rfl, h2, _⟩ := (hq p c).mp hor
        exact .inl ⟨rfl, h2⟩
    · rintro c ⟨d, hd⟩ hno
      exact absurd hd (hno d)
    · intro p hp he
      rw [hq]
      refine ⟨rfl, hp, ?_⟩
      rcases (hE1 p X).mp he with h1 | h1
      · exact h1
      · exact absurd h1.2 hp
  obtain ⟨hc, hnodes, hsub, hasc⟩ := hinit.loop hr hl
  simp only at hc hnodes hsub
  have hE1' : g1.E = fun a b => g.E a b ∨ (b = X ∧ a ∈ N) := by
    funext a b; exact propext (hE1 a b)
  refine ⟨hc.wf, ?_, ?_, ?_, ?_, ?_, hasc (asc_sExtend (by simp)),
    fun p c h0 hno => hE1' ▸ hc.anc p c ((hE1 p c).mpr h0) (.inl hno)⟩
  · intro p c hh; exact (hE1 p c).mp (hsub p c hh)
  · intro p hh
    apply Classical.byContradiction
    intro hn
    have := hc.own p hn hh
    cases this
  · intro p c h0 hno
    rcases hc.why p c ((hE1 p c).mpr h0) (.inl hno) with h1 | ⟨h1, d, h2⟩
    · exact .inl h1
    · exact .inr ⟨h1, d, (hE1 c d).mp h2⟩
  · rintro c ⟨d, hd⟩ hno p hp
    have := hc.dead c ⟨d, (hE1 c d).mpr hd⟩ hno p hp
    cases this
  · intro p
    rw [hnodes]
    simp only [mem_sExtend, List.mem_singleton, mem_sDiff, mem_sOfList, ← h.inv, hq]
    simp only [hE1]
    constructor
    · rintro ((h1 | h1) | ⟨c, rfl, h1, h2⟩ | h1)
      · exact .inl h1
      · exact .inr (.inl h1)
      · refine .inr (.inr ⟨c, .inl h2, ?_⟩)
        intro hh
        have := hc.own p h1 hh
        cases this
      · exact .inr (.inr h1)
    · rintro (h1 | h1 | h1)
      · exact .inl (.inl h1)
      · exact .inl (.inr h1)
      · exact .inr (.inr h1)

/-! ### Transitive consumers -/

theorem depsStep_spec (xs result stack) :
    (∀ y, y ∈ (depsStep xs result stack).1 ↔ y ∈ result ∨ y ∈ xs) ∧
    (∀ y, y ∈ (depsStep xs result stack).2 ↔ y ∈ stack ∨ (y ∈ xs ∧ y ∉ result)) ∧
    (Asc result → Asc (depsStep xs result stack).1) := by
  induction xs generalizing result stack with
  | nil => simp [depsStep]
  | cons x xs ih =>
    simp only [depsStep]
    split
    · rename_i hx
      obtain ⟨h1, h2, h3⟩ := ih result stack
      refine ⟨?_, ?_, h3⟩
      · intro y; rw [h1]; simp; grind
      · intro y; rw [h2]; simp; grind
    · rename_i hx
      obtain ⟨h1, h2, h3⟩ := ih (sIns x result) (x :: stack)
      refine ⟨?_, ?_, fun ha => h3 (asc_sIns ha)⟩
      · intro y; rw [h1]; simp; grind
      · intro y; rw [h2]; simp; grind

theorem Conn.depsLoop_spec (g : Conn) (id fuel result stack r)
    (hl : g.depsLoop fuel result stack = some r)
    (hsound : ∀ y, (y ∈ result ∨ (y ∈ stack ∧ y ≠ id)) → Relation.TransGen g.E id y)
    (hclosed : ∀ x, (x ∈ result ∨ x = id) → x ∉ stack → ∀ y, g.E x y → y ∈ result)
    (hstack : ∀ x ∈ stack, x ∈ result ∨ x = id) (hasc : Asc result) :
    (∀ y, y ∈ r ↔ Relation.TransGen g.E id y) ∧ Asc r := by
  induction fuel generalizing result stack with
  | zero => simp [Conn.depsLoop] at hl
  | succ fuel ih =>
    cases stack with
    | nil =>
      simp only [Conn.depsLoop] at hl
      cases hl
      refine ⟨fun y => ⟨fun hy => hsound y (.inl hy), fun hy => ?_⟩, hasc⟩
      induction hy with
      | single hxy => exact hclosed id (.inr rfl) (by simp) _ hxy
      | tail hxy hyz ih2 => exact hclosed _ (.inl ih2) (by simp) _ hyz
    | cons x stack =>
      simp only [Conn.depsLoop] at hl
      obtain ⟨h1, h2, h3⟩ := depsStep_spec (g.pc.get x) result stack
      have hx : x = id ∨ Relation.TransGen g.E id x := by
        rcases hstack x (List.mem_cons_self ..) with hh | hh
        · exact .inr (hsound x (.inl hh))
        · exact .inl hh
      have hreach : ∀ y, g.E x y → Relation.TransGen g.E id y := by
        intro y hy
        rcases hx with rfl | hx
        · exact .single hy
        · exact .tail hx hy
      refine ih _ _ hl ?_ ?_ ?_ (h3 hasc)
      · rintro y (hy | ⟨hy, hne⟩)
        · rcases (h1 y).mp hy with hy | hy
          · exact hsound y (.inl hy)
          · exact hreach y hy
        · rcases (h2 y).mp hy with hy | hy
          · exact hsound y (.inr ⟨List.mem_cons_of_mem _ hy, hne⟩)
          · exact hreach y hy.1
      · intro a ha hns b hab
        rw [h1]
        by_cases hax : a = x
        · subst hax; exact .inr hab
        · left
          have hor : a ∈ result ∨ a = id := by
            rcases ha with ha | ha
            · rcases (h1 a).mp ha with ha | ha
              · exact .inl ha
              · left
                apply Classical.byContradiction
                intro hnr
                exact hns ((h2 a).mpr (.inr ⟨ha, hnr⟩))
            · exact .inr ha
          refine hclosed a hor ?_ b hab
          simp only [List.mem_cons, not_or]
          exact ⟨hax, fun hh => hns ((h2 a).mpr (.inl hh))⟩
      · intro y hy
        rcases (h2 y).mp hy with hy | hy
        · rcases hstack y (List.mem_cons_of_mem _ hy) with hh | hh
          · exact .inl ((h1 y).mpr (.inl hh))
          · exact .inr hh
        · exact .inl ((h1 y).mpr (.inr hy.1))

/-- All right-hand sides of a relation. -/
def Rel.targets : Rel → List GraphId
  | [] => []
  | (_, s) :: m => s ++ Rel.targets m

theorem Rel.targets_length (m : Rel) : m.targets.length = m.size := by
  induction m with
  | nil => rfl
  | cons e m ih => obtain ⟨k, s⟩ := e; simp [Rel.targets, Rel.size, ih]

theorem Rel.mem_targets {m : Rel} {x y} (h : y ∈ m.get x) : y ∈ m.targets := by
  induction m with
  | nil => simp [Rel.get] at h
  | cons e m ih =>
    obtain ⟨k, s⟩ := e
    simp only [Rel.get] at h
    split at h
    · exact List.mem_append_left _ h
    · exact List.mem_append_right _ (ih h)

/-- Elements of `T` outside of `r`. -/
def outside (T r : List GraphId) : Nat := (T.filter (fun x => x ∉ r)).length

theorem outside_sIns {T r x} (hx : x ∈ T) (hr : x ∉ r) : outside T (sIns x r) < outside T r := by
  unfold outside
  have : (T.filter (fun y => y ∉ sIns x r)) = (T.filter (fun y => y ∉ r)).filter (fun y => y ≠ x) := by
    rw [List.filter_filter]
    congr 1
    funext y
    by_cases h1 : y = x <;> by_cases h2 : y ∈ r <;> simp [h1, h2]
  rw [this]
  apply List.length_filter_lt_length_iff_exists.mpr
  exact ⟨x, by simp [hx, hr], by simp⟩

theorem depsStep_measure (T : List GraphId) (xs result stack) (hsub : ∀ x ∈ xs, x ∈ T) :
    (depsStep xs result stack).2.length + outside T (depsStep xs result stack).1 ≤
      stack.length + outside T result := by
  induction xs generalizing result stack with
  | nil => simp [depsStep]
  | cons x xs ih =>
    simp only [depsStep]
    split
    · exact ih _ _ (fun y hy => hsub y (List.mem_cons_of_mem _ hy))
    · rename_i hx
      have h1 := ih (sIns x result) (x :: stack) (fun y hy => hsub y (List.mem_cons_of_mem _ hy))
      have h2 := outside_sIns (hsub x (List.mem_cons_self ..)) hx
      simp only [List.length_cons] at h1
      omega

theorem Conn.depsLoop_some (g : Conn) (fuel result stack)
    (hf : stack.length + outside g.pc.targets result < fuel) :
    ∃ r, g.depsLoop fuel result stack = some r := by
  induction fuel generalizing result stack with
  | zero => omega
  | succ fuel ih =>
    cases stack with
    | nil => exact ⟨_, rfl⟩
    | cons x stack =>
      simp only [Conn.depsLoop]
      apply ih
      have := depsStep_measure g.pc.targets (g.pc.get x) result stack (fun y hy => Rel.mem_targets hy)
      simp only [List.length_cons] at hf
      omega

theorem Conn.allDeps_spec (g : Conn) (id) :
    ∃ r, g.allDeps id = some r ∧ (∀ y, y ∈ r ↔ Relation.TransGen g.E id y) ∧ Asc r := by
  obtain ⟨r, hr⟩ := Conn.depsLoop_some g (g.pc.size + 2) [] [id] (by
    have : outside g.pc.targets [] ≤ g.pc.targets.length := List.length_filter_le _ _
    rw [Rel.targets_length] at this
    simp only [List.length_singleton]
    omega)
  refine ⟨r, hr, ?_⟩
  refine Conn.depsLoop_spec g id _ [] [id] r hr ?_ ?_ ?_ (by simp)
  · rintro y (hy | ⟨hy, hne⟩)
    · cases hy
    · simp at hy; exact absurd hy hne
  · rintro x (hx | rfl) hns
    · cases hx
    · simp at hns
  · intro x hx; simp at hx; exact .inr hx

end Verif.Reactive

import Verif.Css.Split
import Mathlib.Data.List.Basic
/-!
# C33: the class names of css

Model of crates/vertigo/src/css/css_manager.rs, next_id.rs and get_selector.rs.
-/
namespace Verif.Css

/-! ## Model -/

/-- The two tables (css_manager.rs:17-18). -/
inductive Kind where
  | static
  | dynamic
  deriving DecidableEq

/-- css_structs.rs:3-9. -/
inductive CssGroup where
  | static (value : Text)
  | dynamic (value : Text)
  | media (query : Text) (rules : List Text)

/-- css_structs.rs:31-33. -/
abbrev CssValue := List CssGroup

/-- css_manager.rs:14-19; `sent` records the calls of `insert_css`. A `HashMap` is a list of entries.
The key of the static table is compared as a text (`&'static str`). -/
structure Manager where
  nextId : Nat := 0
  idsStatic : List (Text × Nat) := []
  idsDynamic : List (Text × Nat) := []
  sent : List (Text × Text) := []

def Manager.table (m : Manager) : Kind → List (Text × Nat)
  | .static => m.idsStatic
  | .dynamic => m.idsDynamic

def Manager.insertId (m : Manager) (k : Kind) (css : Text) (id : Nat) : Manager :=
  match k with
  | .static => { m with idsStatic := (css, id) :: m.idsStatic }
  | .dynamic => { m with idsDynamic := (css, id) :: m.idsDynamic }

/-- css_manager.rs:31-39. -/
def Manager.insertCss (m : Manager) (css : Text) : Option (Nat × Manager) :=
  match transformCss css m.nextId with
  | none => none
  | some (id, docs, n) => some (id, { m with nextId := n, sent := m.sent ++ docs })

/-- css_manager.rs:54-63 (`get_static`) and 65-75 (`get_dynamic`). `none`: the css panics. -/
def Manager.get (m : Manager) (k : Kind) (css : Text) : Option (Text × Manager) :=
  match (m.table k).lookup css with
  | some id => some (getSelector id, m)
  | none =>
      match m.insertCss css with
      | none => none
      | some (id, m) => some (getSelector id, m.insertId k css id)

/-- css_manager.rs:91-93. -/
def Manager.getRules : List Text → Manager → Option (List Text × Manager)
  | [], m => some ([], m)
  | rule :: rules, m =>
      match m.get .dynamic rule with
      | none => none
      | some (name, m) =>
          match Manager.getRules rules m with
          | none => none
          | some (out, m) => some (name :: out, m)

/-- css_manager.rs:81-95. -/
def Manager.getGroup (m : Manager) : CssGroup → Option (List Text × Manager)
  | .static value => (m.get .static value).map fun (x, m) => ([x], m)
  | .dynamic value => (m.get .dynamic value).map fun (x, m) => ([x], m)
  | .media query rules => (Manager.getRules rules m).map fun (l, m) => ("@media".toList :: query :: l, m)

/-- css_manager.rs:80-96. -/
def Manager.getGroups : CssValue → Manager → Option (List Text × Manager)
  | [], m => some ([], m)
  | g :: gs, m =>
      match m.getGroup g with
      | none => none
      | some (out, m) =>
          match Manager.getGroups gs m with
          | none => none
          | some (out', m) => some (out ++ out', m)

/-- css_manager.rs:77-99. -/
def Manager.getClassName (m : Manager) (css : CssValue) : Option (Text × Manager) :=
  match m.getGroups css with
  | none => none
  | some (out, m) => some ([' '].intercalate out, m)

/-- A history of calls. -/
def Manager.run : List CssValue → Manager → Option (List Text × Manager)
  | [], m => some ([], m)
  | css :: l, m =>
      match m.getClassName css with
      | none => none
      | some (name, m) =>
          match Manager.run l m with
          | none => none
          | some (names, m) => some (name :: names, m)

/-! ## Specification -/

/-- A css text of a kind. -/
abbrev Request := Kind × Text

/-- The texts of a css value. -/
def requests : CssValue → List Request
  | [] => []
  | .static value :: gs => (.static, value) :: requests gs
  | .dynamic value :: gs => (.dynamic, value) :: requests gs
  | .media _ rules :: gs => rules.map (.dynamic, ·) ++ requests gs

/-- The class attribute for a numbering of the texts. -/
def classParts (cls : Request → Nat) : CssValue → List Text
  | [] => []
  | .static value :: gs => ("autocss_".toList ++ (Nat.repr (cls (.static, value))).toList) :: classParts cls gs
  | .dynamic value :: gs => ("autocss_".toList ++ (Nat.repr (cls (.dynamic, value))).toList) :: classParts cls gs
  | .media query rules :: gs => ("@media".toList :: query ::
      rules.map fun r => "autocss_".toList ++ (Nat.repr (cls (.dynamic, r))).toList) ++ classParts cls gs

/-- The elements of a list without those that came before. -/
def firsts {α : Type} [DecidableEq α] : List α → List α → List α
  | _, [] => []
  | seen, x :: l => if x ∈ seen then firsts seen l else x :: firsts (x :: seen) l

/-- The rules of a css text whose class has a number. -/
def rulesOfClass (id : Nat) (css : Text) : List (Text × Text) := ((transformCss css (id - 1)).map (·.2.1)).getD []

/-- The last number used by a css text whose class has a number (the numbers after it are those of its keyframes). -/
def lastNumber (id : Nat) (css : Text) : Nat := ((transformCss css (id - 1)).map (·.2.2)).getD id

/-! ## Proofs -/

theorem transformRows_mono (selector : Text) : ∀ (rows : List Text) (n : Nat) out docs n',
    transformRows selector rows n = some (out, docs, n') → n ≤ n'
  | [], n, out, docs, n', h => by cases h; exact Nat.le_refl _
  | row :: rows, n, out, docs, n', h => by
      have ih := transformRows_mono selector rows
      rw [transformRows] at h
      split at h
      · split at h
        · cases h
        · split at h
          · cases h
          · rename_i h'; cases h; exact ih _ _ _ _ h'
      · split at h
        · split at h
          · cases h
          · split at h
            · cases h
            · rename_i h'; cases h; exact ih _ _ _ _ h'
        · split at h
          · split at h
            · split at h
              · cases h
              · rename_i value extra next hanim
                have hle : n ≤ next := by
                  unfold transformAnimation at hanim
                  split at hanim
                  · cases hanim
                  · cases hanim; omega
                  · cases hanim; exact Nat.le_refl _
                split at h
                · cases h
                · rename_i h'; cases h; exact Nat.le_trans hle (ih _ _ _ _ h')
            · split at h
              · cases h
              · rename_i h'; cases h; exact ih _ _ _ _ h'
          · split at h
            · cases h
            · rename_i h'; cases h; exact ih _ _ _ _ h'

theorem transformCss_id {css : Text} {n id n' : Nat} {docs} (h : transformCss css n = some (id, docs, n')) :
    id = n + 1 ∧ id ≤ n' := by
  unfold transformCss at h
  dsimp only at h
  split at h
  · cases h
  · split at h
    · cases h
    · rename_i h'; cases h; exact ⟨rfl, transformRows_mono _ _ _ _ _ _ h'⟩

/-- The entries made so far, in order. -/
structure MInv (m : Manager) (tbl : List (Request × Nat)) : Prop where
  lookup : ∀ k t id, (m.table k).lookup t = some id ↔ ((k, t), id) ∈ tbl
  nodup : (tbl.map (·.1)).Nodup
  sent : m.sent = tbl.flatMap fun e => rulesOfClass e.2 e.1.2
  ranges : ∀ e ∈ tbl, 0 < e.2 ∧ e.2 ≤ lastNumber e.2 e.1.2 ∧ lastNumber e.2 e.1.2 ≤ m.nextId
  ordered : tbl.Pairwise fun a b => lastNumber a.2 a.1.2 < b.2

theorem minv_init : MInv {} [] where
  lookup k t id := by cases k <;> simp [Manager.table]
  nodup := by simp
  sent := rfl
  ranges := by simp
  ordered := by simp

theorem get_spec {m m' : Manager} {tbl} (h : MInv m tbl) {k css name} (hg : m.get k css = some (name, m')) :
    ∃ ext id, MInv m' (tbl ++ ext) ∧ ((k, css), id) ∈ tbl ++ ext ∧ name = getSelector id ∧
      ext.map (·.1) = if (k, css) ∈ tbl.map (·.1) then [] else [(k, css)] := by
  unfold Manager.get at hg
  split at hg
  · rename_i id hl
    cases hg
    have := (h.lookup _ _ _).mp hl
    refine ⟨[], id, by simpa using h, by simpa using this, rfl, ?_⟩
    rw [if_pos (List.mem_map.mpr ⟨_, this, rfl⟩)]
    rfl
  · rename_i hl
    have hnot : (k, css) ∉ tbl.map (·.1) := by
      intro hm
      obtain ⟨e, he, hk⟩ := List.mem_map.mp hm
      have := (h.lookup k css e.2).mpr (by rw [← hk]; exact he)
      rw [hl] at this
      cases this
    unfold Manager.insertCss at hg
    cases ht : transformCss css m.nextId with
    | none => rw [ht] at hg; cases hg
    | some x =>
      obtain ⟨id, docs, n⟩ := x
      rw [ht] at hg
      cases hg
      obtain ⟨hid, hle⟩ := transformCss_id ht
      have hsub : id - 1 = m.nextId := by omega
      have hrules : rulesOfClass id css = docs := by simp [rulesOfClass, hsub, ht]
      have hlast : lastNumber id css = n := by simp [lastNumber, hsub, ht]
      refine ⟨[((k, css), id)], id, ⟨?_, ?_, ?_, ?_, ?_⟩, by simp, rfl, by rw [if_neg hnot]; rfl⟩
      · intro k' t id'
        have htab : (Manager.insertId { m with nextId := n, sent := m.sent ++ docs } k css id).table k' =
            if k' = k then (css, id) :: m.table k' else m.table k' := by
          cases k <;> cases k' <;> rfl
        rw [htab]
        simp only [List.mem_append, List.mem_singleton, Prod.mk.injEq]
        by_cases hk : k' = k
        · subst hk
          rw [if_pos rfl, List.lookup_cons]
          by_cases ht' : t = css
          · subst ht'
            simp only [beq_self_eq_true, Option.some.injEq]
            constructor
            · rintro rfl; exact Or.inr (by simp)
            · rintro (h' | h')
              · exact absurd (List.mem_map.mpr ⟨_, h', rfl⟩) hnot
              · exact h'.2.symm
          · have : (t == css) = false := by simpa using ht'
            simp only [this, h.lookup]
            simp [ht']
        · rw [if_neg hk, h.lookup]
          simp [hk]
      · rw [List.map_append, List.nodup_append]
        refine ⟨h.nodup, by simp, ?_⟩
        intro a ha b hb hab
        simp at hb
        subst hab
        exact hnot (hb ▸ ha)
      · have : (Manager.insertId { m with nextId := n, sent := m.sent ++ docs } k css id).sent = m.sent ++ docs := by
          cases k <;> rfl
        rw [this, List.flatMap_append, ← h.sent]
        simp [hrules]
      · have hnext : (Manager.insertId { m with nextId := n, sent := m.sent ++ docs } k css id).nextId = n := by
          cases k <;> rfl
        rw [hnext]
        intro e he
        rcases List.mem_append.mp he with he | he
        · obtain ⟨h1, h2, h3⟩ := h.ranges e he
          exact ⟨h1, h2, by omega⟩
        · simp at he
          subst he
          exact ⟨by dsimp only; omega, by dsimp only; omega, by dsimp only; omega⟩
      · rw [List.pairwise_append]
        refine ⟨h.ordered, by simp, ?_⟩
        intro a ha b hb
        simp at hb
        subst hb
        have := (h.ranges a ha).2.2
        dsimp only
        omega

theorem firsts_append {α : Type} [DecidableEq α] (l l' : List α) : ∀ seen,
    ∃ seen', firsts seen (l ++ l') = firsts seen l ++ firsts seen' l' ∧ ∀ x, x ∈ seen' ↔ x ∈ seen ∨ x ∈ l := by
  induction l with
  | nil => intro seen; exact ⟨seen, by simp [firsts], by simp⟩
  | cons y l ih =>
    intro seen
    simp only [List.cons_append, firsts]
    split
    · rename_i hy
      obtain ⟨s', h1, h2⟩ := ih seen
      refine ⟨s', h1, fun x => ?_⟩
      rw [h2]
      constructor
      · rintro (h | h) <;> simp [h]
      · rintro (h | h)
        · exact Or.inl h
        · rcases List.mem_cons.mp h with rfl | h
          · exact Or.inl hy
          · exact Or.inr h
    · obtain ⟨s', h1, h2⟩ := ih (y :: seen)
      refine ⟨s', by rw [h1]; rfl, fun x => ?_⟩
      rw [h2]
      simp only [List.mem_cons]
      tauto

theorem firsts_congr {α : Type} [DecidableEq α] (l : List α) : ∀ {s s' : List α}, (∀ x, x ∈ s ↔ x ∈ s') → firsts s l = firsts s' l := by
  induction l with
  | nil => intro s s' _; rfl
  | cons y l ih =>
    intro s s' h
    simp only [firsts, h y]
    split
    · exact ih h
    · rw [ih (s := y :: s) (s' := y :: s') fun x => by simp [h x]]

/-- What a part of the program that asks for some requests does. -/
structure Asks (m m' : Manager) (tbl : List (Request × Nat)) (reqs : List Request) (ext : List (Request × Nat)) : Prop where
  inv : MInv m' (tbl ++ ext)
  ext_eq : ext.map (·.1) = firsts (tbl.map (·.1)) reqs
  found : ∀ r ∈ reqs, ∃ id, (r, id) ∈ tbl ++ ext

theorem Asks.refl {m tbl} (h : MInv m tbl) : Asks m m tbl [] [] := ⟨by simpa using h, rfl, by simp⟩

theorem Asks.trans {m m1 m2 tbl r1 r2 e1 e2} (h1 : Asks m m1 tbl r1 e1) (h2 : Asks m1 m2 (tbl ++ e1) r2 e2) :
    Asks m m2 tbl (r1 ++ r2) (e1 ++ e2) := by
  refine ⟨by rw [← List.append_assoc]; exact h2.inv, ?_, ?_⟩
  · obtain ⟨seen', hs, hs'⟩ := firsts_append r1 r2 (tbl.map (·.1))
    rw [List.map_append, h1.ext_eq, h2.ext_eq, hs, List.map_append, h1.ext_eq]
    congr 1
    apply firsts_congr
    intro x
    rw [hs']
    -- what is in the table
    have hf : ∀ (l seen : List Request) x, x ∈ firsts seen l → x ∈ l := by
      intro l
      induction l with
      | nil => intro seen x hx; cases hx
      | cons y l ih =>
        intro seen x hx
        simp only [firsts] at hx
        split at hx
        · exact List.mem_cons_of_mem _ (ih _ _ hx)
        · rcases List.mem_cons.mp hx with rfl | hx
          · simp
          · exact List.mem_cons_of_mem _ (ih _ _ hx)
    have hf' : ∀ (l seen : List Request) x, x ∈ l → x ∈ seen ∨ x ∈ firsts seen l := by
      intro l
      induction l with
      | nil => intro seen x hx; cases hx
      | cons y l ih =>
        intro seen x hx
        simp only [firsts]
        split
        · rename_i hy
          rcases List.mem_cons.mp hx with rfl | hx
          · exact Or.inl hy
          · exact ih _ _ hx
        · rcases List.mem_cons.mp hx with rfl | hx
          · exact Or.inr (by simp)
          · rcases ih (y :: seen) x hx with h | h
            · rcases List.mem_cons.mp h with rfl | h
              · exact Or.inr (by simp)
              · exact Or.inl h
            · exact Or.inr (List.mem_cons_of_mem _ h)
    simp only [List.mem_append]
    constructor
    · rintro (h | h)
      · exact Or.inl h
      · exact Or.inr (hf _ _ _ h)
    · rintro (h | h)
      · exact Or.inl h
      · exact hf' _ _ _ h
  · intro r hr
    rcases List.mem_append.mp hr with hr | hr
    · obtain ⟨id, hid⟩ := h1.found r hr
      exact ⟨id, by rw [← List.append_assoc]; exact List.mem_append_left _ hid⟩
    · obtain ⟨id, hid⟩ := h2.found r hr
      exact ⟨id, by rw [← List.append_assoc]; exact hid⟩

/-- The number of a request in a table. -/
def numberIn (tbl : List (Request × Nat)) (r : Request) : Nat := (tbl.lookup r).getD 0

theorem lookup_of_mem {tbl : List (Request × Nat)} (hn : (tbl.map (·.1)).Nodup) {r id} (h : (r, id) ∈ tbl) :
    tbl.lookup r = some id := by
  induction tbl with
  | nil => cases h
  | cons e tbl ih =>
    obtain ⟨r', id'⟩ := e
    rw [List.lookup_cons]
    simp only [List.map_cons, List.nodup_cons] at hn
    by_cases hr : r = r'
    · subst hr
      simp only [beq_self_eq_true]
      rcases List.mem_cons.mp h with h | h
      · cases h; rfl
      · exact absurd (List.mem_map.mpr ⟨_, h, rfl⟩) hn.1
    · have : (r == r') = false := by simpa using hr
      simp only [this]
      rcases List.mem_cons.mp h with h | h
      · cases h; exact absurd rfl hr
      · exact ih hn.2 h

theorem numberIn_append {tbl ext : List (Request × Nat)} (hn : ((tbl ++ ext).map (·.1)).Nodup) {r id} (h : (r, id) ∈ tbl) :
    numberIn (tbl ++ ext) r = numberIn tbl r := by
  have h1 := lookup_of_mem hn (List.mem_append_left ext h)
  rw [List.map_append, List.nodup_append] at hn
  have h2 := lookup_of_mem hn.1 h
  simp [numberIn, h1, h2]

theorem get_asks {m m' : Manager} {tbl} (h : MInv m tbl) {k css name} (hg : m.get k css = some (name, m')) :
    ∃ ext, Asks m m' tbl [(k, css)] ext ∧ ∀ ext', ((tbl ++ ext ++ ext').map (·.1)).Nodup →
      name = getSelector (numberIn (tbl ++ ext ++ ext') (k, css)) := by
  obtain ⟨ext, id, h1, h2, h3, h4⟩ := get_spec h hg
  refine ⟨ext, ⟨h1, ?_, ?_⟩, ?_⟩
  · rw [h4]; simp [firsts]
  · intro r hr; simp at hr; subst hr; exact ⟨id, h2⟩
  · intro ext' hn
    rw [h3]
    congr 1
    unfold numberIn
    rw [lookup_of_mem hn (List.mem_append_left ext' h2)]
    rfl

theorem getRules_asks : ∀ (rules : List Text) {m m' : Manager} {tbl out}, MInv m tbl → Manager.getRules rules m = some (out, m') →
    ∃ ext, Asks m m' tbl (rules.map (.dynamic, ·)) ext ∧ ∀ ext', ((tbl ++ ext ++ ext').map (·.1)).Nodup →
      out = rules.map fun r => getSelector (numberIn (tbl ++ ext ++ ext') (.dynamic, r))
  | [], m, m', tbl, out, h, hg => by
      cases hg; exact ⟨[], Asks.refl h, by simp⟩
  | rule :: rules, m, m', tbl, out, h, hg => by
      rw [Manager.getRules] at hg
      cases h1 : m.get .dynamic rule with
      | none => rw [h1] at hg; cases hg
      | some x =>
        obtain ⟨name, m1⟩ := x
        rw [h1] at hg
        dsimp only at hg
        cases h2 : Manager.getRules rules m1 with
        | none => rw [h2] at hg; cases hg
        | some y =>
          obtain ⟨out', m2⟩ := y
          rw [h2] at hg
          cases hg
          obtain ⟨e1, a1, n1⟩ := get_asks h h1
          obtain ⟨e2, a2, n2⟩ := getRules_asks rules a1.inv h2
          refine ⟨e1 ++ e2, a1.trans a2, fun ext' hn => ?_⟩
          have hn1 := n1 (e2 ++ ext') (by simpa using hn)
          have hn2 := n2 ext' (by simpa using hn)
          simp only [List.append_assoc] at hn1 hn2 ⊢
          rw [hn1, hn2]
          rfl

theorem getGroups_asks : ∀ (css : CssValue) {m m' : Manager} {tbl out}, MInv m tbl → Manager.getGroups css m = some (out, m') →
    ∃ ext, Asks m m' tbl (requests css) ext ∧ ∀ ext', ((tbl ++ ext ++ ext').map (·.1)).Nodup →
      out = classParts (numberIn (tbl ++ ext ++ ext')) css
  | [], m, m', tbl, out, h, hg => by
      cases hg; exact ⟨[], Asks.refl h, by simp [classParts]⟩
  | g :: gs, m, m', tbl, out, h, hg => by
      rw [Manager.getGroups] at hg
      -- the first group
      have hfirst : ∀ o m1, m.getGroup g = some (o, m1) →
          ∃ ext, Asks m m1 tbl (requests [g]) ext ∧ ∀ ext', ((tbl ++ ext ++ ext').map (·.1)).Nodup →
            o = classParts (numberIn (tbl ++ ext ++ ext')) [g] := by
        intro o m1 hm
        unfold Manager.getGroup at hm
        cases g with
        | static value =>
          dsimp only at hm
          cases h1 : m.get .static value with
          | none => rw [h1] at hm; cases hm
          | some x =>
            rw [h1] at hm; cases hm
            obtain ⟨e, a, n⟩ := get_asks h h1
            exact ⟨e, a, fun ext' hn => by rw [n ext' hn]; rfl⟩
        | dynamic value =>
          dsimp only at hm
          cases h1 : m.get .dynamic value with
          | none => rw [h1] at hm; cases hm
          | some x =>
            rw [h1] at hm; cases hm
            obtain ⟨e, a, n⟩ := get_asks h h1
            exact ⟨e, a, fun ext' hn => by rw [n ext' hn]; rfl⟩
        | media query rules =>
          dsimp only at hm
          cases h1 : Manager.getRules rules m with
          | none => rw [h1] at hm; cases hm
          | some x =>
            obtain ⟨l, m2⟩ := x
            rw [h1] at hm
            simp only [Option.map_some, Option.some.injEq, Prod.mk.injEq] at hm
            obtain ⟨rfl, rfl⟩ := hm
            obtain ⟨e, a, n⟩ := getRules_asks rules h h1
            have hr : requests [.media query rules] = rules.map (.dynamic, ·) := by
              rw [requests, requests, List.append_nil]
            have hcp : ∀ c, classParts c [.media query rules] = "@media".toList :: query ::
                rules.map fun r => getSelector (c (.dynamic, r)) := by
              intro c; rw [classParts, classParts, List.append_nil]; rfl
            exact ⟨e, hr ▸ a, fun ext' hn => by rw [n ext' hn, hcp]⟩
      generalize m.getGroup g = first at hg hfirst
      cases first with
      | none => cases hg
      | some x =>
        obtain ⟨o, m1⟩ := x
        dsimp only at hg
        cases h2 : Manager.getGroups gs m1 with
        | none => rw [h2] at hg; cases hg
        | some y =>
          obtain ⟨o', m2⟩ := y
          rw [h2] at hg
          cases hg
          obtain ⟨e1, a1, n1⟩ := hfirst o m1 rfl
          obtain ⟨e2, a2, n2⟩ := getGroups_asks gs a1.inv h2
          have hreq : requests (g :: gs) = requests [g] ++ requests gs := by cases g <;> simp [requests]
          have hcls : ∀ c, classParts c (g :: gs) = classParts c [g] ++ classParts c gs := by
            intro c; cases g <;> simp [classParts]
          refine ⟨e1 ++ e2, by rw [hreq]; exact a1.trans a2, fun ext' hn => ?_⟩
          have hn1 := n1 (e2 ++ ext') (by simpa using hn)
          have hn2 := n2 ext' (by simpa using hn)
          simp only [List.append_assoc] at hn1 hn2 ⊢
          rw [hn1, hn2, hcls]

theorem run_asks : ∀ (l : List CssValue) {m m' : Manager} {tbl names}, MInv m tbl → Manager.run l m = some (names, m') →
    ∃ ext, Asks m m' tbl (l.flatMap requests) ext ∧ ∀ ext', ((tbl ++ ext ++ ext').map (·.1)).Nodup →
      names = l.map fun css => [' '].intercalate (classParts (numberIn (tbl ++ ext ++ ext')) css)
  | [], m, m', tbl, out, h, hg => by
      cases hg; exact ⟨[], Asks.refl h, by simp⟩
  | css :: l, m, m', tbl, out, h, hg => by
      rw [Manager.run, Manager.getClassName] at hg
      cases h1 : m.getGroups css with
      | none => rw [h1] at hg; cases hg
      | some x =>
        obtain ⟨o, m1⟩ := x
        rw [h1] at hg
        dsimp only at hg
        cases h2 : Manager.run l m1 with
        | none => rw [h2] at hg; cases hg
        | some y =>
          obtain ⟨o', m2⟩ := y
          rw [h2] at hg
          cases hg
          obtain ⟨e1, a1, n1⟩ := getGroups_asks css h h1
          obtain ⟨e2, a2, n2⟩ := run_asks l a1.inv h2
          refine ⟨e1 ++ e2, a1.trans a2, fun ext' hn => ?_⟩
          have hn1 := n1 (e2 ++ ext') (by simpa using hn)
          have hn2 := n2 ext' (by simpa using hn)
          simp only [List.append_assoc] at hn1 hn2 ⊢
          rw [hn1, hn2]
          rfl

/-! ## C33 -/

/-- **C33.** For every history of requests for class names that does not panic there is a numbering of the css texts
such that: every class attribute consists of the numbers of its texts, so equal texts (of a kind) always get the same class; different texts
get different numbers, and not even numbers used for keyframes of another; and the rules sent are those of the
texts in the order they were first asked for, each once. -/
theorem C33_classes (history : List CssValue) (names : List Text) (m : Manager)
    (h : Manager.run history {} = some (names, m)) :
    ∃ cls : Request → Nat,
      names = history.map (fun css => [' '].intercalate (classParts cls css)) ∧
      m.sent = (firsts [] (history.flatMap requests)).flatMap (fun r => rulesOfClass (cls r) r.2) ∧
      (∀ r ∈ history.flatMap requests, ∀ r' ∈ history.flatMap requests, r ≠ r' →
        lastNumber (cls r) r.2 < cls r' ∨ lastNumber (cls r') r'.2 < cls r) ∧
      (∀ r ∈ history.flatMap requests, 0 < cls r ∧ cls r ≤ lastNumber (cls r) r.2) := by
  obtain ⟨tbl, a, hnames⟩ := run_asks history minv_init h
  simp only [List.nil_append] at hnames
  have inv := a.inv
  rw [List.nil_append] at inv
  have hn := inv.nodup
  have hnum : ∀ e ∈ tbl, numberIn tbl e.1 = e.2 := fun e he => by
    simp [numberIn, lookup_of_mem hn he]
  have hfound : ∀ r ∈ history.flatMap requests, (r, numberIn tbl r) ∈ tbl := by
    intro r hr
    obtain ⟨id, hid⟩ := a.found r hr
    rw [List.nil_append] at hid
    have := hnum _ hid
    dsimp only at this
    rw [this]; exact hid
  refine ⟨numberIn tbl, ?_, ?_, ?_, ?_⟩
  · have := hnames [] (by simpa using hn)
    simpa using this
  · rw [inv.sent]
    have e := a.ext_eq
    rw [List.map_nil] at e
    rw [← e, List.flatMap_map]
    apply List.flatMap_congr
    intro e he
    rw [hnum e he]
  · intro r hr r' hr' hne
    have h1 := hfound r hr
    have h2 := hfound r' hr'
    have hp := inv.ordered
    generalize numberIn tbl r = n1 at h1 ⊢
    generalize numberIn tbl r' = n2 at h2 ⊢
    rcases List.append_of_mem h1 with ⟨x, y, hxy⟩
    have h2' := h2
    rw [hxy] at h2'
    rcases List.mem_append.mp h2' with h2' | h2'
    · right
      rw [hxy, List.pairwise_append] at hp
      exact hp.2.2 _ h2' (r, n1) (by simp)
    · rcases List.mem_cons.mp h2' with h2' | h2'
      · have := congrArg Prod.fst h2'; exact absurd this.symm hne
      · left
        rw [hxy, List.pairwise_append, List.pairwise_cons] at hp
        exact hp.2.1.1 _ h2'
  · intro r hr
    have := inv.ranges _ (hfound r hr)
    exact ⟨this.1, this.2.1⟩

/-- Different numbers are different class names. -/
theorem C33_names (a b : Nat) (h : getSelector a = getSelector b) : a = b := by
  unfold getSelector at h
  have := List.append_cancel_left h
  rw [Nat.toList_repr, Nat.toList_repr] at this
  rw [← Nat.ofDigitChars_ten_toDigits (n := a), this, Nat.ofDigitChars_ten_toDigits]

/-- The rule for the declarations of a text is for its class, and comes after its other rules. -/
theorem C33_own_rule (css : Text) (n id n' : Nat) (docs : List (Text × Text)) (h : transformCss css n = some (id, docs, n')) :
    id = n + 1 ∧ ∃ docs' value, docs = docs' ++ [('.' :: getSelector id, value)] := by
  refine ⟨(transformCss_id h).1, ?_⟩
  unfold transformCss at h
  dsimp only at h
  split at h
  · cases h
  · split at h
    · cases h
    · cases h; exact ⟨_, _, rfl⟩

/-- Three texts, one of them twice and one as both kinds. -/
example :
    let a := "color: red".toList
    let b := "animation: 1s { from { top: 0 } }".toList
    (Manager.run [[.static a, .dynamic b], [.dynamic a], [.dynamic b, .static a]] {}).map (fun x => (x.1, x.2.sent)) =
      some (["autocss_1 autocss_2".toList, "autocss_4".toList, "autocss_2 autocss_1".toList],
        [(".autocss_1".toList, "color: red".toList),
         ("@keyframes autocss_3".toList, "from { top: 0 }".toList),
         (".autocss_2".toList, "animation: 1s autocss_3 ".toList),
         (".autocss_4".toList, "color: red".toList)]) := by decide +kernel

end Verif.Css

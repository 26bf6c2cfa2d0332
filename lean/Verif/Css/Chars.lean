import Verif.Css.Manager
import Verif.Css.Transform
/-!
# The characters of rules

Every character of the rules of a css text is one of the text, or one that the css manager writes.
-/
namespace Verif.Css

/-- The characters which the css manager writes. -/
def written : Text := ". autocss_@keyframes{}:;\n0123456789".toList

variable {P : Char → Prop}

def AllC (P : Char → Prop) (t : Text) : Prop := ∀ c ∈ t, P c

theorem AllC.append {a b : Text} (h : AllC P a) (h' : AllC P b) : AllC P (a ++ b) := by
  intro c hc
  rcases List.mem_append.mp hc with hc | hc
  · exact h c hc
  · exact h' c hc

theorem AllC.sub {a b : Text} (h : AllC P b) (hs : ∀ c ∈ a, c ∈ b) : AllC P a := fun c hc => h c (hs c hc)

theorem AllC.trim {a : Text} (h : AllC P a) : AllC P (trim a) := by
  obtain ⟨w, w', e, -, -⟩ := trim_eq a
  exact h.sub fun c hc => by rw [e]; simp [hc]

theorem AllC.intercalate {sep : Text} (hs : AllC P sep) : ∀ {l : List Text}, (∀ t ∈ l, AllC P t) → AllC P (sep.intercalate l)
  | [], _ => by intro c hc; simp [List.intercalate] at hc
  | [t], h => by intro c hc; simp [List.intercalate] at hc; exact h t (by simp) c hc
  | t :: u :: l, h => by
      have e : sep.intercalate (t :: u :: l) = t ++ sep ++ sep.intercalate (u :: l) := by simp [List.intercalate]
      rw [e]
      exact ((h t (by simp)).append hs).append (AllC.intercalate hs fun x hx => h x (by simp [List.mem_cons.mp hx]))

theorem allC_written (hP : AllC P written) {t : Text} (h : ∀ c ∈ t, c ∈ written) : AllC P t := hP.sub h

theorem toDigits_sub (n : Nat) : ∀ c ∈ (Nat.repr n).toList, c ∈ "0123456789".toList := by
  intro c hc
  have hd : c.isDigit = true := by
    have := Nat.isDigit_of_mem_toDigits (b := 10) (n := n) (c := c) (by decide) (by decide)
    exact this (by simpa [Nat.repr] using hc)
  simp only [Char.isDigit, Bool.and_eq_true, decide_eq_true_eq] at hd
  have h1 : 48 ≤ c.toNat := hd.1
  have h2 : c.toNat ≤ 57 := hd.2
  have key : ∀ k : Fin 10, Char.ofNat (48 + k) ∈ "0123456789".toList := by decide
  have := key ⟨c.toNat - 48, by omega⟩
  simp only at this
  rwa [show 48 + (c.toNat - 48) = c.toNat by omega, Char.ofNat_toNat] at this

theorem selector_all (hP : AllC P written) (n : Nat) : AllC P (getSelector n) := by
  refine AllC.append (allC_written hP (by decide)) fun c hc => hP c ?_
  have := toDigits_sub n c hc
  revert c
  intro c _ hc
  have key : ∀ c ∈ "0123456789".toList, c ∈ written := by decide
  exact key c hc

theorem splitBytes_sub : ∀ {t : Text} {n a b}, splitBytes n t = some (a, b) → t = a ++ b
  | t, 0, a, b, h => by simp only [splitBytes] at h; cases h; rfl
  | [], n + 1, a, b, h => by simp [splitBytes] at h
  | c :: t, n + 1, a, b, h => by
      simp only [splitBytes] at h
      split at h
      · split at h
        · cases h
        · rename_i a' b' h1
          cases h
          simp [splitBytes_sub h1]
      · cases h

theorem slice_sub {t : Text} {i j a} (h : slice t i j = some a) : ∀ c ∈ a, c ∈ t := by
  unfold slice at h
  split at h
  · split at h
    · cases h
    · rename_i x y h1
      cases h2 : splitBytes i x with
      | none => rw [h2] at h; cases h
      | some p =>
        rw [h2] at h; cases h
        intro c hc
        rw [splitBytes_sub h1, splitBytes_sub h2]
        simp [hc]
  · cases h

theorem brackets_all {t : Text} (ht : AllC P t) {a b d} (h : findBrackets t = some (some (a, b, d))) : AllC P a ∧ AllC P b ∧ AllC P d := by
  simp only [findBrackets] at h
  split at h
  · split at h
    · rename_i h1 h2 h3
      cases h
      refine ⟨AllC.trim (ht.sub (slice_sub h1)), AllC.trim (ht.sub (slice_sub h2)), AllC.trim (ht.sub fun c hc => ?_)⟩
      rw [splitBytes_sub h3]
      simp [hc]
    · cases h
  · cases h

theorem scan_all : ∀ {css row : Text} {side out}, AllC P row → AllC P css → scan side row css = some out → ∀ t ∈ out, AllC P t
  | [], row, side, out, hr, _, h, t, ht => by
      simp only [scan] at h; cases h; rw [List.mem_singleton.mp ht]; exact hr
  | c :: css, row, side, out, hr, hc, h, t, ht => by
      have hcss : AllC P css := hc.sub fun c h => by simp [h]
      simp only [scan] at h
      split at h
      · cases h
      · split at h
        · split at h
          · cases h
          · rename_i out' h1
            cases h
            rcases List.mem_cons.mp ht with rfl | ht
            · exact hr
            · exact scan_all (fun _ h => by cases h) hcss h1 t ht
        · exact scan_all (hr.append fun x hx => by rw [List.mem_singleton.mp hx]; exact hc c (by simp)) hcss h t ht

theorem splitRows_all {css : Text} (hc : AllC P css) {out} (h : splitRows css = some out) : ∀ t ∈ out, AllC P t := by
  unfold splitRows at h
  split at h
  · cases h
  · rename_i o h1
    cases h
    intro t ht
    obtain ⟨u, hu, rfl⟩ := List.mem_map.mp (List.mem_filter.mp ht).1
    exact (scan_all (fun _ h => by cases h) hc h1 u hu).trim

theorem selectorRule_all {row parent : Text} (hr : AllC P row) (hp : AllC P parent) {x} (h : transformSelector row parent = some (some x)) :
    AllC P x.1 ∧ AllC P x.2 := by
  unfold transformSelector at h
  split at h
  · cases h
  · rename_i h1
    cases h
    have := brackets_all hr h1
    exact ⟨hp.append this.1, this.2.1⟩
  · cases h

theorem mediaRows_all (hP : AllC P written) {parent : Text} (hp : AllC P parent) : ∀ {rows : List Text} {reg pse}, (∀ t ∈ rows, AllC P t) →
    mediaRows parent rows = some (reg, pse) → (∀ t ∈ reg, AllC P t) ∧ ∀ t ∈ pse, AllC P t
  | [], reg, pse, _, h => by simp only [mediaRows] at h; cases h; simp
  | row :: rows, reg, pse, hr, h => by
      have hrow := hr row (by simp)
      have hrows : ∀ t ∈ rows, AllC P t := fun t ht => hr t (by simp [ht])
      simp only [mediaRows] at h
      split at h
      · split at h
        · cases h
        · rename_i extra h1
          split at h
          · cases h
          · rename_i reg' pse' h2
            obtain ⟨i1, i2⟩ := mediaRows_all hP hp hrows h2
            split at h
            · rename_i sel rules
              cases h
              have := selectorRule_all hrow hp h1
              refine ⟨i1, fun t ht => ?_⟩
              rcases List.mem_cons.mp ht with rfl | ht
              · exact ((this.1.append (allC_written hP (by decide))).append this.2).append (allC_written hP (by decide))
              · exact i2 t ht
            · cases h; exact ⟨i1, i2⟩
      · split at h
        · cases h
        · rename_i reg' pse' h2
          obtain ⟨i1, i2⟩ := mediaRows_all hP hp hrows h2
          cases h
          refine ⟨fun t ht => ?_, i2⟩
          rcases List.mem_cons.mp ht with rfl | ht
          · exact hrow
          · exact i1 t ht

theorem addSets_all (hP : AllC P written) : ∀ {sets : List Text} {content : Text}, AllC P content → (∀ t ∈ sets, AllC P t) → AllC P (addSets content sets)
  | [], content, h, _ => h
  | set :: sets, content, h, hs => by
      rw [addSets]
      refine addSets_all hP (AllC.append ?_ (hs set (by simp))) fun t ht => hs t (by simp [ht])
      split
      · exact h.append (allC_written hP (by decide))
      · exact h

theorem media_all (hP : AllC P written) {row parent : Text} (hr : AllC P row) (hp : AllC P parent) {l} (h : transformMedia row parent = some l) :
    ∀ x ∈ l, AllC P x.1 ∧ AllC P x.2 := by
  unfold transformMedia at h
  split at h
  · cases h
  · cases h; simp
  · rename_i query input _ h1
    have hb := brackets_all hr h1
    split at h
    · cases h
    · rename_i rows h2
      split at h
      · cases h
      · rename_i reg pse h3
        obtain ⟨i1, i2⟩ := mediaRows_all hP hp (splitRows_all hb.2.1 h2) h3
        split at h
        · cases h
          intro x hx
          rw [List.mem_singleton.mp hx]
          refine ⟨hb.1, addSets_all hP ?_ i2⟩
          split
          · exact ((hp.append (allC_written hP (by decide))).append (AllC.intercalate (allC_written hP (by decide)) i1)).append
              (allC_written hP (by decide))
          · intro c hc; cases hc
        · cases h; simp

theorem animation_all (hP : AllC P written) {css : Text} (hc : AllC P css) {n v e m} (h : transformAnimation css n = some (v, e, m)) :
    AllC P v ∧ ∀ x ∈ e, AllC P x.1 ∧ AllC P x.2 := by
  unfold transformAnimation at h
  split at h
  · cases h
  · rename_i h1
    cases h
    have hb := brackets_all hc h1
    have hsel := selector_all hP (n + 1)
    refine ⟨(((hb.1.append (allC_written hP (by decide))).append hsel).append (allC_written hP (by decide))).append hb.2.2, ?_⟩
    intro x hx
    cases hx
    exact ⟨AllC.append (allC_written hP (by decide)) hsel, hb.2.1⟩
  · cases h; exact ⟨hc, by simp⟩

theorem splitOn_all (P : Char → Prop) (sep : Char) : ∀ {t : Text}, AllC P t → ∀ u ∈ t.splitOn sep, AllC P u := by
  intro t ht u hu
  have h1 := List.intercalate_splitOn sep (xs := t)
  refine ht.sub fun c hc => ?_
  have key : ∀ (l : List Text), u ∈ l → c ∈ [sep].intercalate l := by
    intro l
    induction l with
    | nil => intro h; cases h
    | cons a l ih =>
      intro h
      cases l with
      | nil => simp [List.intercalate]; rwa [← List.mem_singleton.mp h]
      | cons b l =>
        have e : [sep].intercalate (a :: b :: l) = a ++ [sep] ++ [sep].intercalate (b :: l) := by simp [List.intercalate]
        rw [e]
        rcases List.mem_cons.mp h with rfl | h
        · simp [hc]
        · simp [ih h]
  rw [← h1]
  exact key _ hu

theorem pair_all (hP : AllC P written) {row : Text} (hr : AllC P row) {x} (h : rowSplitToPair row = some x) : AllC P x.1 ∧ AllC P x.2 := by
  have hs := splitOn_all P ':' hr
  unfold rowSplitToPair at h
  split at h
  · rename_i key attr attrs h1
    rw [h1] at hs
    cases h
    exact ⟨(hs key (by simp)).trim, AllC.trim (AllC.intercalate (allC_written hP (by decide)) fun t ht => hs t (List.mem_cons_of_mem _ ht))⟩
  · cases h

theorem rows_all (hP : AllC P written) {sel : Text} (hsel : AllC P sel) : ∀ {rows : List Text} {n out docs m}, (∀ t ∈ rows, AllC P t) →
    transformRows sel rows n = some (out, docs, m) → (∀ t ∈ out, AllC P t) ∧ ∀ x ∈ docs, AllC P x.1 ∧ AllC P x.2
  | [], n, out, docs, m, _, h => by simp only [transformRows] at h; cases h; simp
  | row :: rows, n, out, docs, m, hr, h => by
      have hrow := hr row (by simp)
      have hrows : ∀ t ∈ rows, AllC P t := fun t ht => hr t (by simp [ht])
      have both : ∀ {a b : List (Text × Text)}, (∀ x ∈ a, AllC P x.1 ∧ AllC P x.2) → (∀ x ∈ b, AllC P x.1 ∧ AllC P x.2) →
          ∀ x ∈ a ++ b, AllC P x.1 ∧ AllC P x.2 := by
        intro a b h1 h2 x hx
        rcases List.mem_append.mp hx with hx | hx
        · exact h1 x hx
        · exact h2 x hx
      have one : ∀ {a : Text} {l : List Text}, AllC P a → (∀ t ∈ l, AllC P t) → ∀ t ∈ a :: l, AllC P t := by
        intro a l h1 h2 t ht
        rcases List.mem_cons.mp ht with rfl | ht
        · exact h1
        · exact h2 t ht
      simp only [transformRows] at h
      split at h
      · split at h
        · cases h
        · rename_i extra h1
          split at h
          · cases h
          · rename_i h2
            cases h
            obtain ⟨i1, i2⟩ := rows_all hP hsel hrows h2
            refine ⟨i1, both (fun x hx => ?_) i2⟩
            rw [Option.mem_toList] at hx
            rw [show extra = some x from hx] at h1
            exact selectorRule_all hrow hsel h1
      · split at h
        · split at h
          · cases h
          · rename_i extra h1
            split at h
            · cases h
            · rename_i h2
              cases h
              obtain ⟨i1, i2⟩ := rows_all hP hsel hrows h2
              exact ⟨i1, both (media_all hP hrow hsel h1) i2⟩
        · split at h
          · rename_i name value hp
            have hpair := pair_all hP hrow hp
            split at h
            · split at h
              · cases h
              · rename_i v e k h1
                split at h
                · cases h
                · rename_i h2
                  cases h
                  obtain ⟨i1, i2⟩ := rows_all hP hsel hrows h2
                  obtain ⟨a1, a2⟩ := animation_all hP hpair.2 h1
                  refine ⟨one ((hpair.1.append (allC_written hP (by decide))).append a1) i1, both (fun x hx => ?_) i2⟩
                  exact a2 x (by simpa using hx)
            · split at h
              · cases h
              · rename_i h2
                cases h
                obtain ⟨i1, i2⟩ := rows_all hP hsel hrows h2
                exact ⟨one ((hpair.1.append (allC_written hP (by decide))).append hpair.2) i1, i2⟩
          · split at h
            · cases h
            · rename_i h2
              cases h
              obtain ⟨i1, i2⟩ := rows_all hP hsel hrows h2
              exact ⟨one hrow i1, i2⟩

theorem rulesOfClass_all (hP : AllC P written) {css : Text} (hc : AllC P css) (n : Nat) : ∀ x ∈ rulesOfClass n css, AllC P x.1 ∧ AllC P x.2 := by
  unfold rulesOfClass
  cases h : transformCss css (n - 1) with
  | none => simp
  | some r =>
    obtain ⟨id, docs, m⟩ := r
    simp only [Option.map_some, Option.getD_some]
    simp only [transformCss] at h
    split at h
    · cases h
    · rename_i rows h1
      split at h
      · cases h
      · rename_i out docs' n' h2
        cases h
        have hsel : AllC P ('.' :: getSelector (n - 1 + 1)) := AllC.append (a := ['.']) (allC_written hP (by decide)) (selector_all hP _)
        obtain ⟨i1, i2⟩ := rows_all hP hsel (splitRows_all hc h1) h2
        intro x hx
        rcases List.mem_append.mp hx with hx | hx
        · exact i2 x hx
        · rw [List.mem_singleton.mp hx]
          exact ⟨hsel, AllC.intercalate (allC_written hP (by decide)) i1⟩

end Verif.Css

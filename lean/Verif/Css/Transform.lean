import Verif.Css.Split
/-!
# C34: the rules made from a css text

A css text written from a list of items — declarations, animations, pseudo selectors and media queries — gives exactly
the rules of these items.
-/
namespace Verif.Css

/-! ## Specification -/

/-- What can be written in a media query. -/
inductive MediaItem where
  | rule (name value : Text)
  | pseudo (selector rules trailing : Text)

/-- What can be written in a css text. In a media query there can be a separator after the last item, and then
`last` is the white space behind it. -/
inductive Item where
  | decl (name value : Text)
  | animation (name before frames after : Text)
  | pseudo (selector rules trailing : Text)
  | media (query : Text) (items : List MediaItem) (last : Option Text) (trailing : Text)

def MediaItem.text : MediaItem → Text
  | .rule name value => name ++ ':' :: value
  | .pseudo selector rules trailing => selector ++ '{' :: rules ++ '}' :: trailing

/-- How an item is written (without the separator). -/
def Item.text : Item → Text
  | .decl name value => name ++ ':' :: value
  | .animation name before frames after => name ++ ':' :: before ++ '{' :: frames ++ '}' :: after
  | .pseudo selector rules trailing => selector ++ '{' :: rules ++ '}' :: trailing
  | .media query items last trailing =>
      query ++ '{' :: [';'].intercalate (items.map MediaItem.text ++ last.toList) ++ '}' :: trailing

/-- The rules of a media query, for a class. -/
def mediaContent (cls : Text) (items : List MediaItem) : List Text :=
  let rules := items.filterMap fun
    | i@(.rule ..) => some (trim i.text)
    | _ => none
  let sets := items.filterMap fun
    | .pseudo selector rules _ => some (cls ++ trim selector ++ " { ".toList ++ trim rules ++ " }".toList)
    | _ => none
  (if rules = [] then [] else [cls ++ " { ".toList ++ [';'].intercalate rules ++ " }".toList]) ++ sets

/-- The declarations of the class itself and the further rules: `n` is the number of names used. -/
def expected (cls : Text) : List Item → Nat → List Text × List (Text × Text)
  | [], _ => ([], [])
  | .decl name value :: items, n =>
      let (out, docs) := expected cls items n
      ((trim name ++ ": ".toList ++ trim value) :: out, docs)
  | .animation name before frames after :: items, n =>
      let keyframes := "autocss_".toList ++ (Nat.repr (n + 1)).toList
      let (out, docs) := expected cls items (n + 1)
      ((trim name ++ ": ".toList ++ (trim before ++ [' '] ++ keyframes ++ [' '] ++ trim after)) :: out,
        ("@keyframes ".toList ++ keyframes, trim frames) :: docs)
  | .pseudo selector rules _ :: items, n =>
      let (out, docs) := expected cls items n
      (out, (cls ++ trim selector, trim rules) :: docs)
  | .media query rows _ _ :: items, n =>
      let (out, docs) := expected cls items n
      (out, (if rows = [] then [] else [(trim query, ['\n'].intercalate (mediaContent cls rows))]) ++ docs)

/-- A property name with white space around it. -/
structure NameOk (name : Text) : Prop where
  chars : ∀ c ∈ name, isWs c = true ∨ c.isAlphanum = true ∨ c = '-' ∨ c = '_'
  some : trim name ≠ []

/-- No brackets and no separators. -/
def Plain (t : Text) : Prop := ∀ c ∈ t, c ≠ '{' ∧ c ≠ '}' ∧ c ≠ ';'

/-- Only ASCII characters (see C34_nonascii_violated). -/
def Ascii (t : Text) : Prop := ∀ c ∈ t, c.toNat < 128

structure SelectorOk (selector rules trailing : Text) : Prop where
  plain : Plain selector
  ascii : Ascii selector
  rulesAscii : Ascii rules
  balanced : level 0 rules = some 0
  trailing : ∀ c ∈ trailing, isWs c = true ∧ c.toNat < 128

def MediaItem.Ok : MediaItem → Prop
  | .rule name value => NameOk name ∧ Plain value ∧ Ascii name ∧ Ascii value
  | .pseudo selector rules trailing => SelectorOk selector rules trailing ∧ (trim selector).head? = some ':'

def Item.Ok : Item → Prop
  | .decl name value => NameOk name ∧ Plain value
  | .animation name before frames after => trim name = "animation".toList ∧ Plain before ∧ Plain after ∧
      Ascii before ∧ Ascii frames ∧ Ascii after ∧ level 0 frames = some 0
  | .pseudo selector rules trailing => SelectorOk selector rules trailing ∧
      ((trim selector).head? = some ':' ∨ (trim selector).head? = some '[' ∧ (':' ∈ selector ∨ '.' ∈ selector))
  | .media query items last trailing => SelectorOk query [] trailing ∧ "@media".toList <+: trim query ∧
      (':' ∈ query ∨ '.' ∈ query) ∧ (∀ i ∈ items, i.Ok ∧ Shallow i.text) ∧
      ∀ w ∈ last, ∀ c ∈ w, isWs c = true ∧ c.toNat < 128

/-! ## Proofs -/

theorem level_plain {t : Text} (h : ∀ c ∈ t, c ≠ '{' ∧ c ≠ '}') (n : Nat) : level n t = some n := by
  induction t with
  | nil => rfl
  | cons c t ih =>
    have := h c (by simp)
    simp only [level, this.1, this.2, if_false]
    exact ih fun d hd => h d (by simp [hd])

theorem level_succ {t : Text} : ∀ {n k}, level n t = some k → level (n + 1) t = some (k + 1) := by
  induction t with
  | nil => intro n k h; cases h; rfl
  | cons c t ih =>
    intro n k h
    simp only [level] at h ⊢
    split
    · rename_i hc; rw [if_pos hc] at h; exact ih h
    · rename_i hc
      rw [if_neg hc] at h
      split
      · rename_i hc'
        rw [if_pos hc'] at h
        split at h
        · cases h
        · rename_i hn
          rw [if_neg (by omega)]
          have := ih h
          rwa [show n - 1 + 1 = n + 1 - 1 by omega] at this
      · rename_i hc'; rw [if_neg hc'] at h; exact ih h

theorem level_prefix {a b : Text} {n k} (h : level n (a ++ b) = some k) : ∃ m, level n a = some m := by
  rw [level_append] at h
  cases h' : level n a with
  | none => rw [h'] at h; cases h
  | some m => exact ⟨m, rfl⟩

theorem level_bracket {a b c : Text} (ha : Plain a) (hb : level 0 b = some 0) (hc : Plain c) :
    level 0 (a ++ '{' :: b ++ '}' :: c) = some 0 := by
  rw [List.append_assoc, level_append, level_plain (fun c h => ⟨(ha c h).1, (ha c h).2.1⟩)]
  simp only [Option.bind_some, List.cons_append, level, if_true]
  rw [level_append, level_succ hb]
  simp only [Option.bind_some, level]
  simp only [Char.reduceEq, if_false, if_true, Nat.zero_add, Nat.reduceEqDiff, Nat.sub_self]
  exact level_plain (fun d h => ⟨(hc d h).1, (hc d h).2.1⟩) 0

theorem append_cons_split {a b p q : Text} {x y : Char} (h : a ++ x :: b = p ++ y :: q) (hx : y ∉ a) :
    ∃ p', p = a ++ p' ∧ x :: b = p' ++ y :: q := by
  rcases List.append_eq_append_iff.mp h with ⟨w, rfl, hw⟩ | ⟨w, rfl, hw⟩
  · exact ⟨w, rfl, hw⟩
  · cases w with
    | nil => exact ⟨[], by simp, by simpa using hw.symm⟩
    | cons z w =>
      simp at hw
      exact absurd (by simp [hw.1]) hx

theorem piece_plain {t : Text} (h : Plain t) : Piece t where
  balanced := level_plain (fun c hc => ⟨(h c hc).1, (h c hc).2.1⟩) 0
  opens p q e := absurd rfl (h '{' (by rw [e]; simp)).1
  inside p q e := absurd rfl (h ';' (by rw [e]; simp)).2.2
  shallow p q n e hn := by
    rw [level_plain (fun c hc => ⟨(h c (by rw [e]; simp [hc])).1, (h c (by rw [e]; simp [hc])).2.1⟩)] at hn
    cases hn; decide

theorem piece_bracket {a b c : Text} (ha : Plain a) (hm : Marked a) (hb : level 0 b = some 0) (hc : Plain c)
    (hs : Shallow (a ++ '{' :: b ++ '}' :: c)) : Piece (a ++ '{' :: b ++ '}' :: c) where
  balanced := level_bracket ha hb hc
  opens p q e := by
    rw [List.append_assoc, List.cons_append] at e
    obtain ⟨p', rfl, _⟩ := append_cons_split e fun h => (ha _ h).1 rfl
    rcases hm with h | h
    · exact Or.inl (by simp [h])
    · exact Or.inr (by simp [h])
  inside p q e := by
    rw [List.append_assoc, List.cons_append] at e
    obtain ⟨p', rfl, e'⟩ := append_cons_split e fun h => (ha _ h).2.2 rfl
    cases p' with
    | nil => simp at e'
    | cons x p' =>
      simp only [List.cons_append, List.cons.injEq] at e'
      obtain ⟨rfl, e'⟩ := e'
      have hl : level 0 (a ++ '{' :: p') = level 1 p' := by
        rw [level_append, level_plain (fun c h => ⟨(ha c h).1, (ha c h).2.1⟩)]
        rfl
      rw [hl]
      rcases List.append_eq_append_iff.mp e' with ⟨w, rfl, hw⟩ | ⟨w, rfl, hw⟩
      · -- the separator is after the brackets
        cases w with
        | nil => simp at hw
        | cons y w =>
          simp only [List.cons_append, List.cons.injEq] at hw
          obtain ⟨_, hw⟩ := hw
          exact absurd rfl (hc ';' (by rw [hw]; simp)).2.2
      · obtain ⟨m, hm⟩ := level_prefix hb
        rw [level_succ hm]
        simp
  shallow := hs

/-! ### Trimming -/

def trimL (t : Text) : Text := t.dropWhile isWs
def trimR (t : Text) : Text := (t.reverse.dropWhile isWs).reverse

theorem trimL_mid {x : Char} (hx : isWs x = false) (a b : Text) : trimL (a ++ x :: b) = trimL a ++ x :: b := by
  unfold trimL
  rw [List.dropWhile_append]
  split
  · rename_i h
    rw [List.dropWhile_cons, if_neg (by simp [hx])]
    simp only [List.isEmpty_iff] at h
    rw [h]; rfl
  · rfl

theorem trimR_mid {x : Char} (hx : isWs x = false) (a b : Text) : trimR (a ++ x :: b) = a ++ x :: trimR b := by
  unfold trimR
  have : (a ++ x :: b).reverse = b.reverse ++ x :: a.reverse := by simp
  rw [this]
  have := trimL_mid hx b.reverse a.reverse
  unfold trimL at this
  rw [this]
  simp

theorem trim_mid {x : Char} (hx : isWs x = false) (a b : Text) : trim (a ++ x :: b) = trimL a ++ x :: trimR b := by
  have h : trim (a ++ x :: b) = trimR (trimL (a ++ x :: b)) := rfl
  rw [h, trimL_mid hx, trimR_mid hx]

theorem trimL_eq (t : Text) : ∃ w, t = w ++ trimL t ∧ ∀ c ∈ w, isWs c = true :=
  ⟨t.takeWhile isWs, (List.takeWhile_append_dropWhile ..).symm, fun _ h => List.mem_takeWhile_imp h⟩

theorem trimR_eq (t : Text) : ∃ w, t = trimR t ++ w ∧ ∀ c ∈ w, isWs c = true := by
  obtain ⟨w, h, hw⟩ := trimL_eq t.reverse
  refine ⟨w.reverse, ?_, by simpa using hw⟩
  have := congrArg List.reverse h
  rw [List.reverse_reverse, List.reverse_append] at this
  exact this

theorem trim_trimL (t : Text) : trim (trimL t) = trim t := by
  obtain ⟨w, h, hw⟩ := trimL_eq t
  conv => rhs; rw [h]
  have := trim_pad (w' := []) (t := trimL t) hw (by simp)
  simpa using this.symm

theorem trim_trimR (t : Text) : trim (trimR t) = trim t := by
  obtain ⟨w, h, hw⟩ := trimR_eq t
  conv => rhs; rw [h]
  have := trim_pad (w := []) (t := trimR t) (by simp) hw
  simpa using this.symm

theorem trim_eq (t : Text) : ∃ w w', t = w ++ trim t ++ w' ∧ (∀ c ∈ w, isWs c = true) ∧ ∀ c ∈ w', isWs c = true := by
  obtain ⟨w, h, hw⟩ := trimL_eq t
  obtain ⟨w', h', hw'⟩ := trimR_eq (trimL t)
  refine ⟨w, w', ?_, hw, hw'⟩
  have e : trim t = trimR (trimL t) := rfl
  rw [e, List.append_assoc, ← h', ← h]

theorem trimL_sub {t : Text} {c : Char} (h : c ∈ trimL t) : c ∈ t := (List.dropWhile_suffix _).subset h
theorem trimR_sub {t : Text} {c : Char} (h : c ∈ trimR t) : c ∈ t := by
  have := (List.dropWhile_suffix (l := t.reverse) isWs).subset (List.mem_reverse.mp h)
  exact List.mem_reverse.mp this

theorem trimR_ws {t : Text} (h : ∀ c ∈ t, isWs c = true) : trimR t = [] := by
  unfold trimR
  rw [List.dropWhile_eq_nil_iff.mpr (by simpa using h)]
  rfl

theorem trim_ws {t : Text} (h : ∀ c ∈ t, isWs c = true) : trim t = [] := by
  have := trim_pad (w := t) (w' := []) (t := []) h (by simp)
  simpa [trim] using this

/-- The first character of a trimmed text. -/
theorem trimL_head {t : Text} : (trimL t).head? = (trim t).head? := by
  have e : trim t = trimR (trimL t) := rfl
  rw [e]
  obtain ⟨w, h, hw⟩ := trimR_eq (trimL t)
  cases hr : trimR (trimL t) with
  | cons c r => rw [h, hr]; rfl
  | nil =>
    rw [hr, List.nil_append] at h
    cases hl : trimL t with
    | nil => rfl
    | cons c l =>
      have h1 : isWs c = true := hw c (by rw [← h, hl]; simp)
      have h2 : isWs c = false := dropWhile_head t c (by unfold trimL at hl; rw [hl]; rfl)
      rw [h1] at h2; cases h2

theorem trim_prefix (t : Text) : trim t <+: trimL t := by
  obtain ⟨w, h, _⟩ := trimR_eq (trimL t)
  exact ⟨w, h.symm⟩

/-! ### Brackets -/

theorem splitBytes_ascii {a : Text} (h : Ascii a) (b : Text) : splitBytes a.length (a ++ b) = some (a, b) := by
  induction a with
  | nil => simp [splitBytes]
  | cons c a ih =>
    have hc : c.utf8Size = 1 := by
      have := h c (by simp)
      rw [Char.utf8Size_eq_one_iff]
      exact UInt32.le_iff_toNat_le.mpr (by simpa using Nat.le_of_lt_succ this)
    simp only [List.length_cons, List.cons_append, splitBytes, hc]
    rw [if_pos (by omega), Nat.add_sub_cancel, ih fun d hd => h d (by simp [hd])]

theorem findIdx_mid {a b : Text} {x : Char} (h : x ∉ a) : (a ++ x :: b).findIdx? (· = x) = some a.length := by
  induction a with
  | nil => simp [List.findIdx?_cons]
  | cons c a ih =>
    have : c ≠ x := fun e => h (by simp [e])
    rw [List.cons_append, List.findIdx?_cons]
    simp only [this, decide_false, Bool.false_eq_true, if_false]
    rw [ih fun h' => h (by simp [h'])]
    simp

theorem findIdx_none {a : Text} {x : Char} (h : x ∉ a) : a.findIdx? (· = x) = none := by
  rw [List.findIdx?_eq_none_iff]
  intro c hc
  simp
  exact fun e => h (e ▸ hc)

theorem findBrackets_none {t : Text} (h : '{' ∉ t) : findBrackets t = some none := by
  simp only [findBrackets, findIdx_none h]

theorem findBrackets_some {a b c : Text} (ha : '{' ∉ a) (hc : '}' ∉ c) (aa : Ascii a) (ab : Ascii b) :
    findBrackets (a ++ '{' :: b ++ '}' :: c) = some (some (trim a, trim b, trim c)) := by
  have h1 : (a ++ '{' :: b ++ '}' :: c).findIdx? (· = '{') = some a.length := by
    rw [List.append_assoc, List.cons_append]; exact findIdx_mid ha
  have h2 : (a ++ '{' :: b ++ '}' :: c).reverse.findIdx? (· = '}') = some c.length := by
    have : (a ++ '{' :: b ++ '}' :: c).reverse = c.reverse ++ '}' :: (a ++ '{' :: b).reverse := by simp
    rw [this, findIdx_mid (by simpa using hc), List.length_reverse]
  have h3 : (a ++ '{' :: b ++ '}' :: c).length - 1 - c.length = (a ++ '{' :: b).length := by
    simp only [List.length_append, List.length_cons]; omega
  have asc : Ascii (a ++ '{' :: b) := by
    intro d hd
    simp only [List.mem_append, List.mem_cons] at hd
    rcases hd with hd | rfl | hd
    · exact aa d hd
    · decide
    · exact ab d hd
  have s1 : slice (a ++ '{' :: b ++ '}' :: c) 0 a.length = some a := by
    unfold slice
    rw [if_pos (Nat.zero_le _), List.append_assoc, splitBytes_ascii aa]
    simp [splitBytes]
  have s2 : slice (a ++ '{' :: b ++ '}' :: c) (a.length + 1) (a ++ '{' :: b).length = some b := by
    unfold slice
    rw [if_pos (by simp), splitBytes_ascii asc]
    have asc' : Ascii (a ++ ['{']) := fun d hd => asc d (by
      simp only [List.mem_append, List.mem_cons, List.not_mem_nil, or_false] at hd ⊢
      rcases hd with hd | hd
      · exact Or.inl hd
      · exact Or.inr (Or.inl hd))
    have := splitBytes_ascii asc' b
    rw [List.length_append, List.append_assoc] at this
    dsimp only
    have e : a.length + 1 = a.length + ['{'].length := rfl
    rw [e]
    have e2 : a ++ '{' :: b = a ++ (['{'] ++ b) := rfl
    rw [e2, this]
    rfl
  have s3 : splitBytes ((a ++ '{' :: b).length + 1) (a ++ '{' :: b ++ '}' :: c) = some (a ++ '{' :: b ++ ['}'], c) := by
    have asc' : Ascii (a ++ '{' :: b ++ ['}']) := by
      intro d hd
      rcases List.mem_append.mp hd with hd | hd
      · exact asc d hd
      · simp at hd; subst hd; decide
    have := splitBytes_ascii asc' c
    rw [List.length_append, List.append_assoc] at this
    exact this
  unfold findBrackets
  rw [h1, h2]
  simp only [Option.map_some]
  rw [h3, s1, s2, s3]

/-! ### White space around a css text -/

theorem ws_special {c : Char} (h : isWs c = true) : c ≠ '{' ∧ c ≠ '}' ∧ c ≠ ':' ∧ c ≠ '.' ∧ c ≠ ';' ∧ c ≠ '[' ∧ c ≠ '@' := by
  refine ⟨?_, ?_, ?_, ?_, ?_, ?_, ?_⟩ <;> (rintro rfl; revert h; decide)

theorem scan_ws (side : Side) (css : Text) : ∀ (w row : Text), (∀ c ∈ w, isWs c = true) →
    scan side row (w ++ css) = scan side (row ++ w) css
  | [], row, _ => by simp
  | c :: w, row, h => by
      obtain ⟨h1, h2, h3, h4, h5, _⟩ := ws_special (h c (by simp))
      have ha : side.after c = some side := by simp [Side.after, h1, h2, h3, h4]
      rw [List.cons_append, scan, ha]
      simp only [h5, false_and, if_false]
      rw [scan_ws side css w _ fun d hd => h d (by simp [hd])]
      simp

theorem scan_pre {w : Text} (hw : ∀ c ∈ w, isWs c = true) : ∀ (css row : Text) (side : Side),
    (scan side (w ++ row) css).map (·.map trim) = (scan side row css).map (·.map trim)
  | [], row, side => by
      have := trim_pad (w' := []) (t := row) hw (by simp)
      simp only [scan, Option.map_some, List.map_cons, List.map_nil]
      simp only [List.append_nil] at this
      rw [this]
  | c :: css, row, side => by
      simp only [scan]
      cases side.after c with
      | none => rfl
      | some side' =>
        dsimp only
        split
        · have := trim_pad (w' := []) (t := row) hw (by simp)
          simp only [List.append_nil] at this
          cases scan .left [] css with
          | none => rfl
          | some out => simp [this]
        · rw [List.append_assoc]; exact scan_pre hw css _ _

theorem scan_post {w : Text} (hw : ∀ c ∈ w, isWs c = true) : ∀ (css row : Text) (side : Side),
    (scan side row (css ++ w)).map (·.map trim) = (scan side row css).map (·.map trim)
  | [], row, side => by
      have h := scan_ws side [] w row hw
      rw [List.append_nil] at h
      have := trim_pad (w := []) (t := row) (by simp) hw
      simp only [List.nil_append] at this
      rw [List.nil_append, h]
      simp [scan, this]
  | c :: css, row, side => by
      simp only [scan, List.cons_append]
      cases side.after c with
      | none => rfl
      | some side' =>
        dsimp only
        split
        · have := scan_post hw css [] .left
          cases h1 : scan .left [] (css ++ w) with
          | none => rw [h1] at this; cases h2 : scan .left [] css with
            | none => rfl
            | some o => rw [h2] at this; cases this
          | some o =>
            rw [h1] at this
            cases h2 : scan .left [] css with
            | none => rw [h2] at this; cases this
            | some o' => rw [h2] at this; simp at this; simp [this]
        · exact scan_post hw css _ _

theorem splitRows_eq (css : Text) :
    splitRows css = ((scan .left [] css).map (·.map trim)).map fun out => out.filter fun item => trim item ≠ [] := by
  unfold splitRows
  cases scan .left [] css <;> rfl

theorem splitRows_trim (css : Text) : splitRows (trim css) = splitRows css := by
  obtain ⟨w, w', h, hw, hw'⟩ := trim_eq css
  conv => rhs; rw [h]
  rw [splitRows_eq, splitRows_eq, scan_post hw', scan_ws _ _ w [] hw]
  have := scan_pre hw (trim css) [] .left
  rw [List.append_nil] at this
  rw [List.nil_append, this]

/-! ### Items -/

theorem name_plain {name : Text} (h : NameOk name) : ∀ c ∈ name, c ≠ '{' ∧ c ≠ '}' ∧ c ≠ ';' ∧ c ≠ ':' ∧ c ≠ '[' ∧ c ≠ '@' := by
  intro c hc
  rcases h.chars c hc with h | h | rfl | rfl
  · have := ws_special h; exact ⟨this.1, this.2.1, this.2.2.2.2.1, this.2.2.1, this.2.2.2.2.2⟩
  · refine ⟨?_, ?_, ?_, ?_, ?_, ?_⟩ <;> (rintro rfl; revert h; decide)
  · decide
  · decide

theorem plain_append {a b : Text} (ha : Plain a) (hb : Plain b) : Plain (a ++ b) := fun c hc => by
  rcases List.mem_append.mp hc with h | h
  · exact ha c h
  · exact hb c h

theorem plain_cons {c : Char} {b : Text} (hc : c ≠ '{' ∧ c ≠ '}' ∧ c ≠ ';') (hb : Plain b) : Plain (c :: b) := fun d hd => by
  rcases List.mem_cons.mp hd with rfl | h
  · exact hc
  · exact hb d h

theorem plain_ws {w : Text} (h : ∀ c ∈ w, isWs c = true ∧ c.toNat < 128) : Plain w := fun c hc => by
  have := ws_special (h c hc).1
  exact ⟨this.1, this.2.1, this.2.2.2.2.1⟩

theorem colon_ws : isWs ':' = false := by decide
theorem open_ws : isWs '{' = false := by decide
theorem close_ws : isWs '}' = false := by decide

theorem plain_nameOk {name value : Text} (h : NameOk name) (hv : Plain value) : Plain (name ++ ':' :: value) :=
  plain_append (fun c hc => ⟨(name_plain h c hc).1, (name_plain h c hc).2.1, (name_plain h c hc).2.2.1⟩)
    (plain_cons (by decide) hv)

theorem head_mem {t : Text} {c : Char} (h : t.head? = some c) : c ∈ t := by
  cases t with
  | nil => cases h
  | cons d t => simp at h; simp [h]

theorem trim_sub {t : Text} {c : Char} (h : c ∈ trim t) : c ∈ t := trimL_sub (trimR_sub h)

/-- A row of a selector. -/
theorem trim_selector {a b c : Text} : trim (a ++ '{' :: b ++ '}' :: c) = trimL a ++ '{' :: b ++ '}' :: trimR c := by
  rw [List.append_assoc, List.cons_append, trim_mid open_ws, trimR_mid close_ws]
  simp

theorem trim_decl {a b : Text} : trim (a ++ ':' :: b) = trimL a ++ ':' :: trimR b := trim_mid colon_ws a b

theorem head_trimL {a b : Text} (h : trim a ≠ []) : (trimL a ++ b).head? = (trim a).head? := by
  have := trimL_head (t := a)
  cases hl : trimL a with
  | nil => rw [hl] at this; cases ht : trim a with
    | nil => exact absurd ht h
    | cons x y => rw [ht] at this; cases this
  | cons x y => rw [← this, hl]; rfl

theorem transformSelector_row {a b c parent : Text} (h : SelectorOk a b c) :
    transformSelector (trim (a ++ '{' :: b ++ '}' :: c)) parent = some (some (parent ++ trim a, trim b)) := by
  rw [trim_selector]
  unfold transformSelector
  rw [findBrackets_some (a := trimL a) (fun h' => (h.plain _ (trimL_sub h')).1 rfl)
    (fun h' => (ws_special (h.trailing _ (trimR_sub h')).1).2.1 rfl) (fun d hd => h.ascii d (trimL_sub hd)) h.rulesAscii,
    trim_trimL]

theorem mediaItem_piece {i : MediaItem} (h : i.Ok) (hs : Shallow i.text) : Piece i.text ∧ Marked i.text ∧ trim i.text ≠ [] := by
  cases i with
  | rule name value =>
    refine ⟨piece_plain (plain_nameOk h.1 h.2.1), Or.inl (by simp [MediaItem.text]), ?_⟩
    rw [MediaItem.text, trim_decl]
    simp
  | pseudo selector rules trailing =>
    obtain ⟨h1, h2⟩ := h
    have hm : Marked selector := Or.inl (trim_sub (head_mem h2))
    refine ⟨piece_bracket h1.plain hm h1.balanced (plain_ws h1.trailing) hs, ?_, ?_⟩
    · rcases hm with h | h
      · exact Or.inl (by simp [MediaItem.text, h])
      · exact Or.inr (by simp [MediaItem.text, h])
    · rw [MediaItem.text, trim_selector]; simp

theorem joined_rows {pieces : List Text} (h : ∀ d ∈ pieces, Piece d ∧ Marked d ∧ trim d ≠ []) :
    splitRows ([';'].intercalate pieces) = some (pieces.map trim) := by
  have hf : (pieces.map trim).filter (· ≠ []) = pieces.map trim := by
    apply List.filter_eq_self.mpr
    intro x hx
    obtain ⟨y, hy, rfl⟩ := List.mem_map.mp hx
    simpa using (h y hy).2.2
  rcases List.eq_nil_or_concat pieces with rfl | ⟨l, last, rfl⟩
  · decide +kernel
  · have e : l.concat last = l ++ [last] := by simp
    rw [e] at h hf ⊢
    rw [C34_split_join_partial l last (fun d hd => ⟨(h d (by simp [hd])).1, (h d (by simp [hd])).2.1⟩) (h last (by simp)).1, hf]

/-- With a separator after the last piece. -/
theorem terminated_rows {pieces : List Text} (h : ∀ d ∈ pieces, Piece d ∧ Marked d ∧ trim d ≠ []) {w : Text}
    (hw : ∀ c ∈ w, isWs c = true ∧ c.toNat < 128) :
    splitRows ([';'].intercalate (pieces ++ [w])) = some (pieces.map trim) := by
  rw [C34_split_join_partial pieces w (fun d hd => ⟨(h d hd).1, (h d hd).2.1⟩) (piece_plain (plain_ws hw))]
  have hf : (pieces.map trim).filter (· ≠ []) = pieces.map trim := by
    apply List.filter_eq_self.mpr
    intro x hx
    obtain ⟨y, hy, rfl⟩ := List.mem_map.mp hx
    simpa using (h y hy).2.2
  rw [List.map_append, List.filter_append, hf]
  simp [trim_ws fun c hc => (hw c hc).1]

def rulesOf (items : List MediaItem) : List Text := items.filterMap fun
  | i@(.rule ..) => some (trim i.text)
  | _ => none

def setsOf (cls : Text) (items : List MediaItem) : List Text := items.filterMap fun
  | .pseudo selector rules _ => some (cls ++ trim selector ++ " { ".toList ++ trim rules ++ " }".toList)
  | _ => none

theorem mediaRows_items (cls : Text) : ∀ (items : List MediaItem), (∀ i ∈ items, i.Ok) →
    mediaRows cls (items.map fun i => trim i.text) = some (rulesOf items, setsOf cls items)
  | [], _ => rfl
  | i :: items, h => by
      have ih := mediaRows_items cls items fun j hj => h j (by simp [hj])
      have hi := h i (by simp)
      rw [List.map_cons, mediaRows, ih]
      cases i with
      | rule name value =>
        have hne : (trim (MediaItem.rule name value).text).head? ≠ some ':' := by
          rw [MediaItem.text, trim_decl, head_trimL hi.1.some]
          intro e
          exact (name_plain hi.1 _ (trim_sub (head_mem e))).2.2.2.1 rfl
        rw [if_neg hne]
        rfl
      | pseudo selector rules trailing =>
        have hne : (trim (MediaItem.pseudo selector rules trailing).text).head? = some ':' := by
          rw [MediaItem.text, trim_selector, List.append_assoc, head_trimL, hi.2]
          intro e
          have := hi.2
          rw [e] at this
          cases this
        rw [if_pos hne, MediaItem.text, transformSelector_row hi.1]
        rfl

theorem addSets_eq (sets : List Text) : ∀ (content : Text), content ≠ [] →
    addSets content sets = ['\n'].intercalate (content :: sets) := by
  induction sets with
  | nil => intro c _; simp [addSets, List.intercalate]
  | cons s sets ih =>
    intro c hc
    rw [addSets, if_pos hc, ih _ (by simp)]
    cases sets <;> simp [List.intercalate]

theorem transformMedia_row {query trailing cls : Text} {items : List MediaItem} {last : Option Text} (hcls : cls ≠ [])
    (h : SelectorOk query [] trailing) (hi : ∀ i ∈ items, i.Ok ∧ Shallow i.text)
    (hl : ∀ w ∈ last, ∀ c ∈ w, isWs c = true ∧ c.toNat < 128)
    (hasc : Ascii ([';'].intercalate (items.map MediaItem.text ++ last.toList))) :
    transformMedia (trim (query ++ '{' :: [';'].intercalate (items.map MediaItem.text ++ last.toList) ++ '}' :: trailing)) cls =
      some (if items = [] then [] else [(trim query, ['\n'].intercalate (mediaContent cls items))]) := by
  rw [trim_selector]
  unfold transformMedia
  rw [findBrackets_some (a := trimL query) (fun h' => (h.plain _ (trimL_sub h')).1 rfl)
    (fun h' => (ws_special (h.trailing _ (trimR_sub h')).1).2.1 rfl) (fun d hd => h.ascii d (trimL_sub hd)) hasc]
  dsimp only
  have hp : ∀ d ∈ items.map MediaItem.text, Piece d ∧ Marked d ∧ trim d ≠ [] := by
    intro d hd
    obtain ⟨i, hi', rfl⟩ := List.mem_map.mp hd
    exact mediaItem_piece (hi i hi').1 (hi i hi').2
  have hrows : splitRows ([';'].intercalate (items.map MediaItem.text ++ last.toList)) = some ((items.map MediaItem.text).map trim) := by
    cases last with
    | none => simpa using joined_rows hp
    | some w => exact terminated_rows hp (hl w rfl)
  rw [splitRows_trim, hrows]
  dsimp only
  have hm := mediaRows_items cls items fun i h => (hi i h).1
  have e : items.map (fun i => trim i.text) = (items.map MediaItem.text).map trim := by simp
  rw [e] at hm
  rw [hm]
  dsimp only
  rw [trim_trimL]
  have hc : mediaContent cls items =
      (if rulesOf items = [] then [] else [cls ++ " { ".toList ++ [';'].intercalate (rulesOf items) ++ " }".toList]) ++ setsOf cls items := rfl
  rw [hc]
  have hsne : ∀ s ∈ setsOf cls items, s ≠ [] := by
    intro s hs
    simp only [setsOf, List.mem_filterMap] at hs
    obtain ⟨i, _, hi⟩ := hs
    cases i with
    | rule => cases hi
    | pseudo a b c => simp at hi; subst hi; simp [hcls]
  have hemp : (rulesOf items ≠ [] ∨ setsOf cls items ≠ []) ↔ items ≠ [] := by
    cases items with
    | nil => simp [rulesOf, setsOf]
    | cons i is => cases i <;> simp [rulesOf, setsOf]
  simp only [hemp]
  by_cases hne : items = []
  · simp [hne]
  · rw [if_pos hne, if_neg hne]
    congr 3
    by_cases hr : rulesOf items = []
    · simp only [hr, ne_eq, not_true_eq_false, if_false, if_true, List.nil_append]
      have hs := (hemp.mpr hne).resolve_left (by simp [hr])
      cases hh : setsOf cls items with
      | nil => exact absurd hh hs
      | cons s ss =>
        rw [addSets]
        simp only [ne_eq, not_true_eq_false, if_false, List.nil_append]
        exact addSets_eq ss s (hsne s (by rw [hh]; simp))
    · simp only [hr, ne_eq, not_false_eq_true, if_true, if_false]
      rw [addSets_eq _ _ (by simp)]
      rfl

/-- The number of animations. -/
def animations : List Item → Nat
  | [] => 0
  | .animation .. :: items => animations items + 1
  | _ :: items => animations items

theorem rowSplit_pair {a b : Text} (ha : ':' ∉ a) : rowSplitToPair (a ++ ':' :: b) = some (trim a, trim b) := by
  have h := List.splitOn_append_cons_self_of_not_mem ha b
  unfold rowSplitToPair
  rw [h]
  have hb := List.intercalate_splitOn (xs := b) ':'
  cases hs : b.splitOn ':' with
  | nil => exact absurd hs (by simp)
  | cons x xs =>
    rw [hs] at hb
    dsimp only
    rw [hb]


theorem animation_name {name : Text} (h : trim name = "animation".toList) : NameOk name := by
  refine ⟨?_, by rw [h]; decide⟩
  obtain ⟨w, w', e, hw, hw'⟩ := trim_eq name
  intro c hc
  rw [e, h] at hc
  simp only [List.mem_append] at hc
  rcases hc with (hc | hc) | hc
  · exact Or.inl (hw c hc)
  · right; left
    revert c
    decide
  · exact Or.inl (hw' c hc)

theorem head_name {name : Text} (h : NameOk name) (b : Text) :
    ¬ ((trimL name ++ b).head? = some ':' ∨ (trimL name ++ b).head? = some '[') ∧
    ¬ ("@media".toList.isPrefixOf (trimL name ++ b) = true) := by
  have hh := head_trimL (b := b) h.some
  constructor
  · rw [hh]
    rintro (e | e)
    · exact (name_plain h _ (trim_sub (head_mem e))).2.2.2.1 rfl
    · exact (name_plain h _ (trim_sub (head_mem e))).2.2.2.2.1 rfl
  · intro e
    obtain ⟨q, hq⟩ := List.isPrefixOf_iff_prefix.mp e
    rw [← hq] at hh
    exact (name_plain h _ (trim_sub (head_mem (t := trim name) (c := '@') (by rw [← hh]; rfl)))).2.2.2.2.2 rfl

theorem level_join : ∀ (pieces : List Text), (∀ d ∈ pieces, level 0 d = some 0) → level 0 ([';'].intercalate pieces) = some 0
  | [], _ => rfl
  | [d], h => by simpa [List.intercalate] using h d (by simp)
  | d :: e :: l, h => by
      rw [List.intercalate_cons_cons, level_append, level_append, h d (by simp)]
      exact level_join (e :: l) fun d hd => h d (by simp [hd])

theorem ascii_append {a b : Text} (ha : Ascii a) (hb : Ascii b) : Ascii (a ++ b) := fun c hc => by
  rcases List.mem_append.mp hc with h | h
  · exact ha c h
  · exact hb c h

theorem ascii_cons {c : Char} {b : Text} (hc : c.toNat < 128) (hb : Ascii b) : Ascii (c :: b) := fun d hd => by
  rcases List.mem_cons.mp hd with rfl | h
  · exact hc
  · exact hb d h

theorem ascii_join : ∀ (pieces : List Text), (∀ d ∈ pieces, Ascii d) → Ascii ([';'].intercalate pieces)
  | [], _ => by intro c hc; simp [List.intercalate] at hc
  | [d], h => by simpa [List.intercalate] using h d (by simp)
  | d :: e :: l, h => by
      rw [List.intercalate_cons_cons]
      exact ascii_append (ascii_append (h d (by simp)) (ascii_cons (by decide) (by intro c hc; simp at hc)))
        (ascii_join (e :: l) fun d hd => h d (by simp [hd]))

theorem mediaItem_ascii {i : MediaItem} (h : i.Ok) : Ascii i.text := by
  cases i with
  | rule name value => exact ascii_append h.2.2.1 (ascii_cons (by decide) h.2.2.2)
  | pseudo selector rules trailing =>
    exact ascii_append (ascii_append h.1.ascii (ascii_cons (by decide) h.1.rulesAscii))
      (ascii_cons (by decide) fun c hc => (h.1.trailing c hc).2)

theorem item_piece {i : Item} (h : i.Ok) (hs : Shallow i.text) : Piece i.text ∧ Marked i.text ∧ trim i.text ≠ [] := by
  cases i with
  | decl name value =>
    refine ⟨piece_plain (plain_nameOk h.1 h.2), Or.inl (by simp [Item.text]), ?_⟩
    rw [Item.text, trim_decl]; simp
  | animation name before frames after =>
    obtain ⟨h1, h2, h3, _, _, _, h7⟩ := h
    refine ⟨piece_bracket (a := name ++ ':' :: before) (plain_nameOk (animation_name h1) h2) (Or.inl (by simp)) h7 h3 hs,
      Or.inl (by simp [Item.text]), ?_⟩
    rw [Item.text, trim_selector]; simp
  | pseudo selector rules trailing =>
    obtain ⟨h1, h2⟩ := h
    have hm : Marked selector := by
      rcases h2 with h2 | h2
      · exact Or.inl (trim_sub (head_mem h2))
      · exact h2.2
    refine ⟨piece_bracket h1.plain hm h1.balanced (plain_ws h1.trailing) hs, ?_, ?_⟩
    · rcases hm with h | h
      · exact Or.inl (by simp [Item.text, h])
      · exact Or.inr (by simp [Item.text, h])
    · rw [Item.text, trim_selector]; simp
  | media query items last trailing =>
    obtain ⟨h1, _, hm, h3, h4⟩ := h
    refine ⟨piece_bracket h1.plain hm (level_join _ ?_) (plain_ws h1.trailing) hs, ?_, ?_⟩
    · intro d hd
      rcases List.mem_append.mp hd with hd | hd
      · obtain ⟨i, hi, rfl⟩ := List.mem_map.mp hd
        exact (mediaItem_piece (h3 i hi).1 (h3 i hi).2).1.balanced
      · exact (piece_plain (plain_ws (h4 d (by simpa using hd)))).balanced
    · rcases hm with h | h
      · exact Or.inl (by simp [Item.text, h])
      · exact Or.inr (by simp [Item.text, h])
    · rw [Item.text, trim_selector]; simp

theorem transformRows_items {cls : Text} (hcls : cls ≠ []) : ∀ (items : List Item) (n : Nat), (∀ i ∈ items, i.Ok) →
    transformRows cls (items.map fun i => trim i.text) n =
      some ((expected cls items n).1, (expected cls items n).2, n + animations items)
  | [], n, _ => rfl
  | i :: items, n, h => by
      have ih := fun m => transformRows_items hcls items m fun j hj => h j (by simp [hj])
      have hi := h i (by simp)
      rw [List.map_cons, transformRows]
      cases i with
      | decl name value =>
        obtain ⟨h1, h2⟩ := hi
        have hh := head_name h1 (':' :: trimR value)
        have hcol : ':' ∉ trimL name := fun h' => (name_plain h1 _ (trimL_sub h')).2.2.2.1 rfl
        rw [Item.text, trim_decl, if_neg hh.1, if_neg hh.2, rowSplit_pair hcol, trim_trimL, trim_trimR]
        dsimp only
        rw [trim_trim]
        have hb : findBrackets (trim value) = some none := findBrackets_none fun h' => (h2 _ (trim_sub h')).1 rfl
        split
        · unfold transformAnimation
          rw [hb]
          dsimp only
          rw [ih]
          rfl
        · rw [ih]; rfl
      | animation name before frames after =>
        obtain ⟨h1, h2, h3, h4, h5, h6, h7⟩ := hi
        have hN := animation_name h1
        have e : trim (Item.animation name before frames after).text =
            trimL name ++ ':' :: (before ++ '{' :: frames ++ '}' :: trimR after) := by
          have e1 : (Item.animation name before frames after).text = name ++ ':' :: (before ++ '{' :: frames ++ '}' :: after) := by
            simp [Item.text]
          rw [e1, trim_decl, trimR_mid close_ws]
        have hh := head_name hN (':' :: (before ++ '{' :: frames ++ '}' :: trimR after))
        have hcol : ':' ∉ trimL name := fun h' => (name_plain hN _ (trimL_sub h')).2.2.2.1 rfl
        rw [e, if_neg hh.1, if_neg hh.2, rowSplit_pair hcol, trim_trimL]
        dsimp only
        rw [trim_trim, if_pos h1, trim_selector]
        have hr : trimR (trimR after) = trimR after := by
          unfold trimR
          rw [List.reverse_reverse, dropWhile_of_head fun c hc => dropWhile_head _ c hc]
        have hb := findBrackets_some (a := trimL before) (b := frames) (c := trimR (trimR after))
          (fun h' => (h2 _ (trimL_sub h')).1 rfl) (fun h' => (h3 _ (trimR_sub (trimR_sub h'))).2.1 rfl)
          (fun c hc => h4 c (trimL_sub hc)) h5
        unfold transformAnimation
        rw [hb]
        dsimp only
        rw [ih, trim_trimL, hr, trim_trimR]
        have hanim : n + animations (Item.animation name before frames after :: items) = n + 1 + animations items := by
          rw [animations]; omega
        rw [hanim]
        rfl
      | pseudo selector rules trailing =>
        obtain ⟨h1, h2⟩ := hi
        have hne : trim selector ≠ [] := by
          intro e
          rw [e] at h2
          simp at h2
        have hh : (trim (Item.pseudo selector rules trailing).text).head? = (trim selector).head? := by
          rw [Item.text, trim_selector, List.append_assoc, head_trimL hne]
        rw [if_pos (by rw [hh]; rcases h2 with h2 | h2; exacts [Or.inl h2, Or.inr h2.1]), Item.text,
          transformSelector_row h1]
        dsimp only
        rw [ih]
        rfl
      | media query rows last trailing =>
        obtain ⟨h1, h2, _, h3, h4⟩ := hi
        have hne : trim query ≠ [] := by
          intro e
          rw [e] at h2
          simp at h2
        have hh : (trim (Item.media query rows last trailing).text).head? = some '@' := by
          rw [Item.text, trim_selector, List.append_assoc, head_trimL hne]
          obtain ⟨q, hq⟩ := h2
          rw [← hq]; rfl
        have hp : "@media".toList.isPrefixOf (trim (Item.media query rows last trailing).text) = true := by
          rw [List.isPrefixOf_iff_prefix, Item.text, trim_selector, List.append_assoc]
          exact (h2.trans (trim_prefix query)).trans (List.prefix_append _ _)
        rw [if_neg (by rw [hh]; simp), if_pos hp, Item.text, transformMedia_row hcls h1 h3 h4 (ascii_join _ (by
          intro d hd
          rcases List.mem_append.mp hd with hd | hd
          · obtain ⟨i, hi, rfl⟩ := List.mem_map.mp hd
            exact mediaItem_ascii (h3 i hi).1
          · exact fun c hc => (h4 d (by simpa using hd) c hc).2))]
        dsimp only
        rw [ih]
        rfl

/-- **C34, rules.** A css text written from declarations, animations, pseudo selectors and media queries — each ended by
a semicolon, the last one possibly not, with any white space around them — gives exactly the rules of these items: the further rules
in order, then the class with its declarations. (What is written inside brackets must be ASCII, see below.) -/
theorem C34_rules_partial (items : List Item) (h : ∀ i ∈ items, i.Ok ∧ Shallow i.text) (w css : Text)
    (hw : ∀ c ∈ w, isWs c = true ∧ c.toNat < 128)
    (hcss : css = [';'].intercalate (items.map Item.text) ∨ css = [';'].intercalate (items.map Item.text ++ [w])) (n : Nat) :
    let cls := ".autocss_".toList ++ (Nat.repr (n + 1)).toList
    let (declarations, rules) := expected cls items (n + 1)
    transformCss css n =
      some (n + 1, rules ++ [(cls, "; ".toList.intercalate declarations)], n + 1 + animations items) := by
  have hp : ∀ d ∈ items.map Item.text, Piece d ∧ Marked d ∧ trim d ≠ [] := by
    intro d hd
    obtain ⟨i, hi, rfl⟩ := List.mem_map.mp hd
    exact item_piece (h i hi).1 (h i hi).2
  have hr : splitRows css = some ((items.map Item.text).map trim) := by
    rcases hcss with rfl | rfl
    · exact joined_rows hp
    · exact terminated_rows hp hw
  have hcls : '.' :: getSelector (n + 1) = ".autocss_".toList ++ (Nat.repr (n + 1)).toList := rfl
  have ht := transformRows_items (cls := ".autocss_".toList ++ (Nat.repr (n + 1)).toList) (by simp) items (n + 1) fun i hi => (h i hi).1
  have e : items.map (fun i => trim i.text) = (items.map Item.text).map trim := by simp
  rw [e] at ht
  dsimp only
  unfold transformCss
  dsimp only
  rw [hr, hcls]
  dsimp only
  rw [ht]

/-- **C34 is violated** for text that is not ASCII: positions are counted in characters but used as
byte offsets. Here the closing quote is lost ... -/
theorem C34_nonascii_violated :
    transformCss ":hover { content: 'é'}".toList 0 =
      some (1, [(".autocss_1:hover".toList, "content: 'é".toList), (".autocss_1".toList, [])], 1) := by decide +kernel

/-- ... and here the program panics. -/
theorem C34_nonascii_panics_violated : transformCss ":hover { content: →}".toList 0 = none := by decide +kernel

/-- A css text with everything. -/
def exampleItems : List Item := [
  .decl "\n color".toList " red".toList,
  .animation " animation".toList " 1s ".toList " from { top: 0; } to { top: 1px } ".toList " linear".toList,
  .pseudo " :hover ".toList " color: blue; top: 0 ".toList [],
  .media " @media (min-width: 600px) ".toList [.rule " color".toList " green".toList, .pseudo " :hover".toList " top: 1px; ".toList []]
    (some "\n".toList) []]

theorem shallow_of_length {t : Text} (h : t.length < 65536) : Shallow t := by
  have hl : ∀ (p : Text) n k, level n p = some k → k ≤ n + p.length := by
    intro p
    induction p with
    | nil => intro n k h; cases h; simp
    | cons c p ih =>
      intro n k h
      simp only [level] at h
      simp only [List.length_cons]
      split at h
      · have := ih _ _ h; omega
      · split at h
        · split at h
          · cases h
          · have := ih _ _ h; omega
        · have := ih _ _ h; omega
  intro p q n e hn
  have := hl p 0 n hn
  rw [e, List.length_append] at h
  omega

theorem exampleItems_ok : ∀ i ∈ exampleItems, i.Ok ∧ Shallow i.text := by
  intro i hi
  simp only [exampleItems, List.mem_cons, List.not_mem_nil, or_false] at hi
  rcases hi with rfl | rfl | rfl | rfl
  · exact ⟨⟨⟨by decide +kernel, by decide +kernel⟩, by unfold Plain; decide +kernel⟩, shallow_of_length (by decide +kernel)⟩
  · refine ⟨?_, shallow_of_length (by decide +kernel)⟩
    unfold Item.Ok Plain Ascii
    decide +kernel
  · exact ⟨⟨⟨by unfold Plain; decide +kernel, by unfold Ascii; decide +kernel, by unfold Ascii; decide +kernel, by decide +kernel, by decide +kernel⟩,
      by decide +kernel⟩, shallow_of_length (by decide +kernel)⟩
  · refine ⟨⟨⟨by unfold Plain; decide +kernel, by unfold Ascii; decide +kernel, by unfold Ascii; decide +kernel, by decide +kernel, by decide +kernel⟩,
      by decide +kernel, by decide +kernel, ?_, by decide +kernel⟩, shallow_of_length (by decide +kernel)⟩
    intro i hi
    simp only [List.mem_cons, List.not_mem_nil, or_false] at hi
    rcases hi with rfl | rfl
    · exact ⟨⟨⟨by decide +kernel, by decide +kernel⟩, by unfold Plain; decide +kernel, by unfold Ascii; decide +kernel, by unfold Ascii; decide +kernel⟩, shallow_of_length (by decide +kernel)⟩
    · exact ⟨⟨⟨by unfold Plain; decide +kernel, by unfold Ascii; decide +kernel, by unfold Ascii; decide +kernel, by decide +kernel, by decide +kernel⟩,
        by decide +kernel⟩, shallow_of_length (by decide +kernel)⟩

example : expected ".autocss_1".toList exampleItems 1 =
    (["color: red".toList, "animation: 1s autocss_2 linear".toList],
     [("@keyframes autocss_2".toList, "from { top: 0; } to { top: 1px }".toList),
      (".autocss_1:hover".toList, "color: blue; top: 0".toList),
      ("@media (min-width: 600px)".toList, ".autocss_1 { color: green }\n.autocss_1:hover { top: 1px; }".toList)]) := by
  decide +kernel

end Verif.Css

import Mathlib.Data.List.TakeWhile
/-!
# C34: splitting css

Model of crates/vertigo/src/css/transform_css/splits.rs and mod.rs.  Texts are lists of characters; a
result `none` is a panic.
-/
namespace Verif.Css

abbrev Text := List Char

/-! ## Model: splits.rs -/

/-- `char::is_whitespace` (the Unicode property White_Space), as used by `str::trim`. -/
def isWs (c : Char) : Bool :=
  (9 ≤ c.toNat && c.toNat ≤ 13) || c.toNat == 32 || c.toNat == 0x85 || c.toNat == 0xA0 || c.toNat == 0x1680 ||
  (0x2000 ≤ c.toNat && c.toNat ≤ 0x200A) || c.toNat == 0x2028 || c.toNat == 0x2029 || c.toNat == 0x202F ||
  c.toNat == 0x205F || c.toNat == 0x3000

/-- `str::trim`. -/
def trim (t : Text) : Text := ((t.dropWhile isWs).reverse.dropWhile isWs).reverse

/-- splits.rs:1-6. -/
inductive Side where
  | left
  | right
  | opened (counter : Nat)
  deriving DecidableEq

/-- splits.rs:23-54: what a character does to the state. The counter is a `u16`; it wraps, as in a release build
(a debug build panics). -/
def Side.after (s : Side) (c : Char) : Option Side :=
  if c = '{' then
    match s with
    | .right => some (.opened 1)
    | .opened n => some (.opened ((n + 1) % 65536))
    | .left => none
  else if c = '}' then
    match s with
    | .opened n => if n > 1 then some (.opened (n - 1)) else some .right
    | _ => none
  else if (c = ':' ∨ c = '.') ∧ s = .left then some .right
  else some s

/-- splits.rs:19-63: the loop.  `row` is `css[start..index]`. -/
def scan : Side → Text → Text → Option (List Text)
  | _, row, [] => some [row]
  | side, row, c :: css =>
      match side.after c with
      | none => none
      | some side =>
          if c = ';' ∧ side = .right then
            match scan .left [] css with
            | none => none
            | some out => some (row :: out)
          else scan side (row ++ [c]) css

/-- splits.rs:16-66 (the filter trims what has already been trimmed). -/
def splitRows (css : Text) : Option (List Text) :=
  match scan .left [] css with
  | none => none
  | some out => some ((out.map trim).filter fun item => trim item ≠ [])

/-- splits.rs:69-80. -/
def rowSplitToPair (row : Text) : Option (Text × Text) :=
  match row.splitOn ':' with
  | key :: attr :: attrs => some (trim key, trim ([':'].intercalate (attr :: attrs)))
  | _ => none

/-- A split of a `str` at a byte offset; `none` if the offset is not at a character boundary. -/
def splitBytes : Nat → Text → Option (Text × Text)
  | 0, t => some ([], t)
  | _ + 1, [] => none
  | n + 1, c :: t =>
      if c.utf8Size ≤ n + 1 then
        match splitBytes (n + 1 - c.utf8Size) t with
        | none => none
        | some (a, b) => some (c :: a, b)
      else none
termination_by structural _ t => t

/-- `&line[from..to]`. -/
def slice (line : Text) (start stop : Nat) : Option Text :=
  if start ≤ stop then
    match splitBytes stop line with
    | none => none
    | some (a, _) => (splitBytes start a).map (·.2)
  else none

/-- splits.rs:82-110. The positions of the brackets are counted in characters (line 86), and then used as byte offsets. -/
def findBrackets (line : Text) : Option (Option (Text × Text × Text)) :=
  let start := line.findIdx? (· = '{')
  let stop := (line.reverse.findIdx? (· = '}')).map fun i => line.length - 1 - i
  match start, stop with
  | some start, some stop =>
      match slice line 0 start, slice line (start + 1) stop, splitBytes (stop + 1) line with
      | some startWord, some centralWord, some (_, endWord) =>
          some (some (trim startWord, trim centralWord, trim endWord))
      | _, _, _ => none
  | _, _ => some none

/-! ## Model: mod.rs -/

/-- get_selector.rs:1-3. -/
def getSelector (id : Nat) : Text := "autocss_".toList ++ (Nat.repr id).toList

/-- mod.rs:9-28: the value, an extra rule, and the counter (next_id.rs:14-18). -/
def transformAnimation (css : Text) (nextId : Nat) : Option (Text × Option (Text × Text) × Nat) :=
  match findBrackets css with
  | none => none
  | some (some (startWord, centralWord, endWord)) =>
      let selector := getSelector (nextId + 1)
      some (startWord ++ [' '] ++ selector ++ [' '] ++ endWord,
        some ("@keyframes ".toList ++ selector, centralWord), nextId + 1)
  | some none => some (css, none, nextId)

/-- mod.rs:30-42 (the log message for trailing text is left out). -/
def transformSelector (row parent : Text) : Option (Option (Text × Text)) :=
  match findBrackets row with
  | none => none
  | some (some (pseudo, rules, _)) => some (some (parent ++ pseudo, rules))
  | some none => some none

/-- mod.rs:61-74: regular rules, and rules in pseudo selectors. -/
def mediaRows (parent : Text) : List Text → Option (List Text × List Text)
  | [] => some ([], [])
  | row :: rows =>
      if row.head? = some ':' then
        match transformSelector row parent with
        | none => none
        | some extra =>
            match mediaRows parent rows with
            | none => none
            | some (regular, pseudo) =>
                match extra with
                | some (sel, rules) => some (regular, (sel ++ " { ".toList ++ rules ++ " }".toList) :: pseudo)
                | none => some (regular, pseudo)
      else
        match mediaRows parent rows with
        | none => none
        | some (regular, pseudo) => some (row :: regular, pseudo)

/-- mod.rs:87-92. -/
def addSets (content : Text) : List Text → Text
  | [] => content
  | set :: sets => addSets ((if content ≠ [] then content ++ ['\n'] else content) ++ set) sets

/-- mod.rs:44-96: what is pushed to `css_documents`. -/
def transformMedia (row parent : Text) : Option (List (Text × Text)) :=
  match findBrackets row with
  | none => none
  | some none => some []
  | some (some (query, rulesInput, _)) =>
      match splitRows rulesInput with
      | none => none
      | some rows =>
          match mediaRows parent rows with
          | none => none
          | some (regular, pseudo) =>
              if regular ≠ [] ∨ pseudo ≠ [] then
                let content : Text :=
                  if regular ≠ [] then parent ++ " { ".toList ++ [';'].intercalate regular ++ " }".toList else []
                some [(query, addSets content pseudo)]
              else some []

/-- The loop mod.rs:105-142: `css_out`, `css_documents` and the counter. -/
def transformRows (selector : Text) : List Text → Nat → Option (List Text × List (Text × Text) × Nat)
  | [], nextId => some ([], [], nextId)
  | row :: rows, nextId =>
      if row.head? = some ':' ∨ row.head? = some '[' then
        match transformSelector row selector with
        | none => none
        | some extra =>
            match transformRows selector rows nextId with
            | none => none
            | some (out, docs, n) => some (out, extra.toList ++ docs, n)
      else if "@media".toList.isPrefixOf row then
        match transformMedia row selector with
        | none => none
        | some extra =>
            match transformRows selector rows nextId with
            | none => none
            | some (out, docs, n) => some (out, extra ++ docs, n)
      else
        match rowSplitToPair row with
        | some (name, value) =>
            if trim name = "animation".toList then
              match transformAnimation value nextId with
              | none => none
              | some (value, extra, nextId) =>
                  match transformRows selector rows nextId with
                  | none => none
                  | some (out, docs, n) => some ((name ++ ": ".toList ++ value) :: out, extra.toList ++ docs, n)
            else
              match transformRows selector rows nextId with
              | none => none
              | some (out, docs, n) => some ((name ++ ": ".toList ++ value) :: out, docs, n)
        | none =>
            match transformRows selector rows nextId with
            | none => none
            | some (out, docs, n) => some (row :: out, docs, n)

/-- mod.rs:98-149: the class id, the rules, and the counter. -/
def transformCss (css : Text) (nextId : Nat) : Option (Nat × List (Text × Text) × Nat) :=
  let classId := nextId + 1
  let selector := '.' :: getSelector classId
  match splitRows css with
  | none => none
  | some rows =>
      match transformRows selector rows classId with
      | none => none
      | some (out, docs, n) => some (classId, docs ++ [(selector, "; ".toList.intercalate out)], n)

/-! ## Specification -/

/-- How many brackets are open after the text, when `n` are open before it; `none` if one is closed that is not
open. -/
def level : Nat → Text → Option Nat
  | n, [] => some n
  | n, c :: t =>
      if c = '{' then level (n + 1) t
      else if c = '}' then (if n = 0 then none else level (n - 1) t)
      else level n t

/-- Brackets are nested less than 65536 deep. -/
def Shallow (t : Text) : Prop := ∀ p q n, t = p ++ q → level 0 p = some n → n < 65536

/-- A text that contains a declaration or a selector: what makes `;` a separator. -/
def Marked (t : Text) : Prop := ':' ∈ t ∨ '.' ∈ t

/-! ## Proofs -/

theorem level_append (a b : Text) : ∀ n, level n (a ++ b) = (level n a).bind fun m => level m b := by
  induction a with
  | nil => intro n; rfl
  | cons c a ih =>
    intro n
    simp only [List.cons_append, level]
    split
    · exact ih _
    · split
      · split
        · rfl
        · exact ih _
      · exact ih _

theorem dropWhile_head (t : Text) (c : Char) (h : (t.dropWhile isWs).head? = some c) : isWs c = false := by
  induction t with
  | nil => simp at h
  | cons d t ih =>
    rw [List.dropWhile_cons] at h
    split at h
    · exact ih h
    · rename_i hd; simp at h; subst h; simpa using hd

theorem dropWhile_of_head {t : Text} (h : ∀ c, t.head? = some c → isWs c = false) : t.dropWhile isWs = t := by
  cases t with
  | nil => rfl
  | cons c t => rw [List.dropWhile_cons, if_neg]; simp [h c rfl]

/-- There is no white space at the ends. -/
def Trimmed (t : Text) : Prop := (∀ c, t.head? = some c → isWs c = false) ∧ (∀ c, t.getLast? = some c → isWs c = false)

theorem trim_of_trimmed {t : Text} (h : Trimmed t) : trim t = t := by
  unfold trim
  rw [dropWhile_of_head h.1, dropWhile_of_head (t := t.reverse), List.reverse_reverse]
  intro c hc
  rw [List.head?_reverse] at hc
  exact h.2 c hc

theorem trim_trimmed (t : Text) : Trimmed (trim t) := by
  unfold trim
  generalize ha : t.dropWhile isWs = a
  have h1 : ∀ c, a.head? = some c → isWs c = false := fun c hc => dropWhile_head t c (by rw [ha]; exact hc)
  constructor
  · intro c hc
    rw [List.head?_reverse] at hc
    apply h1
    have hs : (a.reverse.dropWhile isWs) <:+ a.reverse := List.dropWhile_suffix _
    obtain ⟨w, hw⟩ := hs
    have : a.reverse.getLast? = some c := by
      rw [← hw, List.getLast?_append, hc]; rfl
    rw [List.getLast?_reverse] at this
    exact this
  · intro c hc
    rw [List.getLast?_reverse] at hc
    exact dropWhile_head _ c hc

theorem trim_trim (t : Text) : trim (trim t) = trim t := trim_of_trimmed (trim_trimmed t)

theorem dropWhile_ws {w t : Text} (h : ∀ c ∈ w, isWs c = true) : (w ++ t).dropWhile isWs = t.dropWhile isWs := by
  induction w with
  | nil => rfl
  | cons c w ih =>
    rw [List.cons_append, List.dropWhile_cons, if_pos (h c (by simp)), ih fun d hd => h d (by simp [hd])]

/-- White space around a text is trimmed. -/
theorem trim_pad {w w' t : Text} (h : ∀ c ∈ w, isWs c = true) (h' : ∀ c ∈ w', isWs c = true) :
    trim (w ++ t ++ w') = trim t := by
  unfold trim
  rw [List.append_assoc, dropWhile_ws h]
  by_cases ht : t.dropWhile isWs = []
  · have hall : ∀ c ∈ t, isWs c = true := List.dropWhile_eq_nil_iff.mp ht
    have : (t ++ w').dropWhile isWs = [] := List.dropWhile_eq_nil_iff.mpr (by
      intro c hc; rcases List.mem_append.mp hc with hc | hc
      · exact hall c hc
      · exact h' c hc)
    rw [this, ht]
  · rw [List.dropWhile_append, if_neg (by simpa using ht), List.reverse_append, dropWhile_ws (by simpa using h')]

/-- What the state says about the text of the current row. -/
def Side.Says (s : Side) (row : Text) : Prop :=
  match s with
  | .left => level 0 row = some 0 ∧ ¬ Marked row
  | .right => level 0 row = some 0 ∧ Marked row
  | .opened n => level 0 row = some n ∧ 0 < n ∧ Marked row

/-- Separators outside of brackets inside a row come before anything that is a declaration. -/
def RowOk (row : Text) : Prop := ∀ p q, row = p ++ ';' :: q → level 0 p = some 0 → ¬ Marked p

theorem marked_snoc {row : Text} {c : Char} : Marked (row ++ [c]) ↔ Marked row ∨ c = ':' ∨ c = '.' := by
  simp only [Marked, List.mem_append, List.mem_singleton]
  constructor
  · rintro ((h | h) | (h | h))
    · exact Or.inl (Or.inl h)
    · exact Or.inr (Or.inl h.symm)
    · exact Or.inl (Or.inr h)
    · exact Or.inr (Or.inr h.symm)
  · rintro ((h | h) | h | h)
    · exact Or.inl (Or.inl h)
    · exact Or.inr (Or.inl h)
    · exact Or.inl (Or.inr h.symm)
    · exact Or.inr (Or.inr h.symm)

theorem after_says {s s' : Side} {row : Text} {c : Char} (h : s.Says row) (hs : s.after c = some s')
    (hsh : ∀ n, level 0 (row ++ [c]) = some n → n < 65536) : s'.Says (row ++ [c]) := by
  have hl : ∀ n, level 0 row = some n → level 0 (row ++ [c]) = level n [c] := by
    intro n hn; rw [level_append, hn]; rfl
  unfold Side.after at hs
  split at hs
  · rename_i hc
    subst hc
    cases s with
    | left => cases hs
    | right =>
      cases hs
      obtain ⟨h1, h2⟩ := h
      exact ⟨by rw [hl _ h1]; rfl, by decide, marked_snoc.mpr (Or.inl h2)⟩
    | opened n =>
      cases hs
      obtain ⟨h1, h2, h3⟩ := h
      have e : level 0 (row ++ ['{']) = some (n + 1) := by rw [hl _ h1]; rfl
      have := hsh _ e
      rw [Nat.mod_eq_of_lt this]
      exact ⟨e, by omega, marked_snoc.mpr (Or.inl h3)⟩
  · rename_i hc
    split at hs
    · rename_i hc
      subst hc
      cases s with
      | left => cases hs
      | right => cases hs
      | opened n =>
        obtain ⟨h1, h2, h3⟩ := h
        have e : level 0 (row ++ ['}']) = some (n - 1) := by
          rw [hl _ h1]
          simp [level]; omega
        dsimp only at hs
        split at hs
        · cases hs
          exact ⟨e, by omega, marked_snoc.mpr (Or.inl h3)⟩
        · cases hs
          have : n = 1 := by omega
          subst this
          exact ⟨e, marked_snoc.mpr (Or.inl h3)⟩
    · rename_i hc'
      have hl' : ∀ n, level 0 row = some n → level 0 (row ++ [c]) = some n := by
        intro n hn; rw [hl n hn]; simp [level, hc, hc']
      split at hs
      · rename_i h'
        cases hs
        obtain ⟨hch, rfl⟩ := h'
        exact ⟨hl' _ h.1, marked_snoc.mpr (Or.inr hch)⟩
      · rename_i h'
        cases hs
        cases s with
        | left =>
          refine ⟨hl' _ h.1, fun hm => ?_⟩
          rcases marked_snoc.mp hm with hm | hm
          · exact h.2 hm
          · exact h' ⟨hm, rfl⟩
        | right => exact ⟨hl' _ h.1, marked_snoc.mpr (Or.inl h.2)⟩
        | opened n => exact ⟨hl' _ h.1, h.2.1, marked_snoc.mpr (Or.inl h.2.2)⟩

theorem after_semicolon (s : Side) : s.after ';' = some s := by
  unfold Side.after
  simp

theorem rowOk_snoc {row : Text} {c : Char} {s s' : Side} (h : RowOk row) (hsays : s.Says row) (hs : s.after c = some s')
    (hc : ¬ (c = ';' ∧ s' = .right)) : RowOk (row ++ [c]) := by
  intro p q e hp
  rcases List.eq_nil_or_concat q with rfl | ⟨q', d, rfl⟩
  · have e' : row ++ [c] = p ++ [';'] := e
    obtain ⟨rfl, hcc⟩ := List.append_inj' e' rfl
    simp at hcc
    subst hcc
    rw [after_semicolon] at hs
    cases hs
    cases s with
    | left => exact hsays.2
    | right => exact absurd ⟨rfl, rfl⟩ hc
    | opened n =>
      obtain ⟨h1, h2, _⟩ := hsays
      rw [hp] at h1
      cases h1
      omega
  · have e' : row ++ [c] = (p ++ ';' :: q') ++ [d] := by rw [e]; simp
    obtain ⟨rfl, _⟩ := List.append_inj' e' rfl
    exact h p q' rfl hp

/-- What the scan finds. -/
theorem scan_spec : ∀ (css row : Text) (side : Side) (out : List Text), side.Says row → RowOk row → Shallow (row ++ css) →
    scan side row css = some out →
    [';'].intercalate out = row ++ css ∧ out ≠ [] ∧
    (∀ c ∈ out.dropLast, level 0 c = some 0 ∧ Marked c) ∧ (∀ c ∈ out, RowOk c)
  | [], row, side, out, hs, hr, _, h => by
      cases h
      exact ⟨by simp [List.intercalate], by simp, by simp, by simpa using hr⟩
  | c :: css, row, side, out, hs, hr, hsh, h => by
      rw [scan] at h
      cases ha : side.after c with
      | none => rw [ha] at h; cases h
      | some side' =>
        rw [ha] at h
        dsimp only at h
        have hsays := after_says hs ha (fun n hn => hsh (row ++ [c]) css n (by simp) hn)
        split at h
        · rename_i hc
          obtain ⟨rfl, rfl⟩ := hc
          rw [after_semicolon] at ha
          cases ha
          cases hsc : scan .left [] css with
          | none => rw [hsc] at h; cases h
          | some o =>
            rw [hsc] at h
            cases h
            have hlev : level 0 (row ++ [';']) = some 0 := hsays.1
            have ih := scan_spec css [] .left o ⟨rfl, by simp [Marked]⟩ (by intro p q e; simp at e)
              (by
                intro p q n e hp
                refine hsh (row ++ ';' :: p) q n (by simp at e; simp [e]) ?_
                have : row ++ ';' :: p = (row ++ [';']) ++ p := by simp
                rw [this, level_append, hlev]
                exact hp) hsc
            obtain ⟨i1, i2, i3, i4⟩ := ih
            refine ⟨?_, by simp, ?_, ?_⟩
            · cases o with
              | nil => exact absurd rfl i2
              | cons x xs =>
                rw [List.intercalate_cons_cons, i1]; simp
            · intro c hc
              rw [List.dropLast_cons_of_ne_nil i2] at hc
              rcases List.mem_cons.mp hc with rfl | hc
              · exact hs
              · exact i3 c hc
            · intro c hc
              rcases List.mem_cons.mp hc with rfl | hc
              · exact hr
              · exact i4 c hc
        · rename_i hc
          have ih := scan_spec css (row ++ [c]) side' out hsays (rowOk_snoc hr hs ha hc) (by simpa using hsh) h
          simpa using ih

/-- **C34.** Whenever a css text is split, the rows are, up to white space and rows that are empty, the pieces of
the text between some of its semicolons: joined they are the text.  A row never ends inside brackets, so separators
inside brackets do not split; and every semicolon outside of brackets splits, except one that has nothing in its row before it that
is a declaration or a selector (there is neither `:` nor `.`). -/
theorem C34_rows (css : Text) (rows : List Text) (hsh : Shallow css) (h : splitRows css = some rows) :
    ∃ pieces : List Text, css = [';'].intercalate pieces ∧ rows = (pieces.map trim).filter (· ≠ []) ∧
      (∀ c ∈ pieces.dropLast, level 0 c = some 0) ∧
      (∀ c ∈ pieces, ∀ p q, c = p ++ ';' :: q → level 0 p = some 0 → ':' ∉ p ∧ '.' ∉ p) := by
  unfold splitRows at h
  cases hsc : scan .left [] css with
  | none => rw [hsc] at h; cases h
  | some out =>
    rw [hsc] at h
    cases h
    obtain ⟨h1, h2, h3, h4⟩ := scan_spec css [] .left out ⟨rfl, by simp [Marked]⟩ (by intro p q e; simp at e) hsh hsc
    refine ⟨out, by simpa using h1.symm, ?_, fun c hc => (h3 c hc).1, ?_⟩
    · apply List.filter_congr
      intro x hx
      obtain ⟨y, _, rfl⟩ := List.mem_map.mp hx
      rw [trim_trim]
    · intro c hc p q e hp
      have := h4 c hc p q e hp
      simpa [Marked, not_or] using this

/-- A piece of css: brackets match, what is before a bracket has a `:` or a `.`, separators are inside brackets. -/
structure Piece (d : Text) : Prop where
  balanced : level 0 d = some 0
  opens : ∀ p q, d = p ++ '{' :: q → ':' ∈ p ∨ '.' ∈ p
  inside : ∀ p q, d = p ++ ';' :: q → level 0 p ≠ some 0
  shallow : Shallow d

theorem after_some {d row t : Text} {c : Char} (hd : Piece d) (e : d = row ++ c :: t) {side : Side} (hs : side.Says row) :
    ∃ side', side.after c = some side' ∧ side'.Says (row ++ [c]) ∧ ¬ (c = ';' ∧ side' = .right) := by
  have hlev : ∃ n, level 0 row = some n ∧ level n (c :: t) = some 0 := by
    have := hd.balanced
    rw [e, level_append] at this
    cases h : level 0 row with
    | none => rw [h] at this; cases this
    | some n => rw [h] at this; exact ⟨n, rfl, this⟩
  obtain ⟨n, hn, hn'⟩ := hlev
  have hsome : ∃ side', side.after c = some side' := by
    unfold Side.after
    split
    · rename_i hc
      subst hc
      cases side with
      | left => exact absurd (hd.opens row t e) hs.2
      | right => exact ⟨_, rfl⟩
      | opened n => exact ⟨_, rfl⟩
    · split
      · rename_i hc
        subst hc
        have hz : n ≠ 0 := by rintro rfl; simp [level] at hn'
        cases side with
        | left => rw [hs.1] at hn; cases hn; exact absurd rfl hz
        | right => rw [hs.1] at hn; cases hn; exact absurd rfl hz
        | opened n => dsimp only; split <;> exact ⟨_, rfl⟩
      · split <;> exact ⟨_, rfl⟩
  obtain ⟨side', hside'⟩ := hsome
  refine ⟨side', hside', after_says hs hside' fun n hn => hd.shallow (row ++ [c]) t n (by simp [e]) hn, ?_⟩
  rintro ⟨rfl, rfl⟩
  rw [after_semicolon] at hside'
  cases hside'
  exact hd.inside row t e hs.1

theorem scan_last {d : Text} (hd : Piece d) : ∀ (t row : Text) (side : Side), d = row ++ t → side.Says row →
    scan side row t = some [d]
  | [], row, side, e, _ => by simp at e; rw [scan, e]
  | c :: t, row, side, e, hs => by
      obtain ⟨side', h1, h2, h3⟩ := after_some hd e hs
      rw [scan, h1]
      simp only [h3, if_false]
      exact scan_last hd t _ _ (by simp [e]) h2

theorem scan_piece {d : Text} (hd : Piece d) (hm : Marked d) (css : Text) : ∀ (t row : Text) (side : Side), d = row ++ t →
    side.Says row → scan side row (t ++ ';' :: css) = (scan .left [] css).map (d :: ·)
  | [], row, side, e, hs => by
      simp at e
      subst e
      have hr : side = .right := by
        cases side with
        | left => exact absurd hm hs.2
        | right => rfl
        | opened n => obtain ⟨h1, h2, _⟩ := hs; rw [hd.balanced] at h1; cases h1; omega
      subst hr
      rw [List.nil_append, scan, after_semicolon]
      simp only [and_self, if_true]
      cases scan .left [] css <;> rfl
  | c :: t, row, side, e, hs => by
      obtain ⟨side', h1, h2, h3⟩ := after_some hd e hs
      rw [List.cons_append, scan, h1]
      simp only [h3, if_false]
      exact scan_piece hd hm css t _ _ (by simp [e]) h2

theorem scan_pieces : ∀ (l : List Text) (last : Text), (∀ d ∈ l, Piece d ∧ Marked d) → Piece last →
    scan .left [] ([';'].intercalate (l ++ [last])) = some (l ++ [last])
  | [], last, _, h => by
      have : [';'].intercalate ([] ++ [last]) = last := by simp [List.intercalate]
      rw [this]
      exact scan_last h last [] .left rfl ⟨rfl, by simp [Marked]⟩
  | d :: l, last, hl, h => by
      have e : [';'].intercalate (d :: l ++ [last]) = d ++ ';' :: [';'].intercalate (l ++ [last]) := by
        cases l <;> simp [List.intercalate_cons_cons]
      rw [e, scan_piece (hl d (by simp)).1 (hl d (by simp)).2 _ d [] .left rfl ⟨rfl, by simp [Marked]⟩,
        scan_pieces l last (fun d hd => hl d (by simp [hd])) h]
      rfl

/-- **C34, the other direction.** Pieces of css, joined by semicolons, are found again: none is lost, split, merged or changed,
except that white space around them and empty ones are dropped. -/
theorem C34_split_join_partial (l : List Text) (last : Text) (hl : ∀ d ∈ l, Piece d ∧ (':' ∈ d ∨ '.' ∈ d)) (hlast : Piece last) :
    splitRows ([';'].intercalate (l ++ [last])) = some (((l ++ [last]).map trim).filter (· ≠ [])) := by
  unfold splitRows
  rw [scan_pieces l last hl hlast]
  dsimp only
  congr 1
  apply List.filter_congr
  intro x hx
  obtain ⟨y, _, rfl⟩ := List.mem_map.mp hx
  rw [trim_trim]

/-- **C34 is violated**: css that is fine but has no `:` or `.` before a bracket is not split, it panics. -/
theorem C34_media_print_violated : splitRows "@media print { color: red }".toList = none := by decide +kernel

end Verif.Css

import Verif.Css.MacroProof
/-!
# C60: from css! to the rules in the document
-/
namespace Verif.Css.Macro

/-! ## Specification -/

/-- A declaration in the vocabulary of C34. -/
def Entry.item (eval ref : Text → Text) : Entry → MediaItem
  | .decl d => .rule d.name (' ' :: d.value.value eval)
  | .sub s => .pseudo (s.selector ref) (s.rules eval) []

/-- The parts of a block in the vocabulary of C34. -/
def Part.item (eval ref : Text → Text) : Part → Item
  | .entry (.decl d) => .decl d.name (d.value.value eval)
  | .entry (.sub s) => .pseudo (s.selector ref) (s.rules eval) []
  | .animation a =>
      match a.frames with
      | none => .decl "animation".toList a.params
      | some (_, fs) => .animation "animation".toList a.params (framesOut eval fs) []
  | .media m => .media ("@media ".toList ++ m.query) (m.body.items.map (Entry.item eval ref)) none []

/-- Selectors begin with `:` (see the violations), and media queries contain a `:` (or a `.`). -/
def Sub.Styled (s : Sub) : Prop := ∃ p, s.first = .pseudo p

def Entry.Styled : Entry → Prop
  | .decl _ => True
  | .sub s => s.Styled

def Part.Styled : Part → Prop
  | .entry e => e.Styled
  | .animation _ => True
  | .media m => (':' ∈ m.query ∨ '.' ∈ m.query) ∧ ∀ e ∈ m.body.items, e.Styled

/-! ## Nesting -/

/-- Brackets are nested at most `d` deep. -/
inductive Nest : Nat → Text → Prop where
  | nil {d} : Nest d []
  | char {d c t} : c ≠ '{' → c ≠ '}' → Nest d t → Nest d (c :: t)
  | block {d t u} : Nest d t → Nest (d + 1) u → Nest (d + 1) ('{' :: (t ++ '}' :: u))

theorem Nest.append {d : Nat} {t u : Text} (h : Nest d t) (h' : Nest d u) : Nest d (t ++ u) := by
  induction h with
  | nil => exact h'
  | char h1 h2 _ ih => exact .char h1 h2 (ih h')
  | block h1 _ _ ih =>
    simp only [List.cons_append, List.append_assoc]
    exact .block h1 (ih h')

theorem Nest.plain {d : Nat} {t : Text} (h : ∀ c ∈ t, c ≠ '{' ∧ c ≠ '}') : Nest d t := by
  induction t with
  | nil => exact .nil
  | cons c t ih => exact .char (h c (by simp)).1 (h c (by simp)).2 (ih fun d hd => h d (by simp [hd]))

theorem Nest.join {d : Nat} {sep : Text} {l : List Text} (hs : Nest d sep) (h : ∀ t ∈ l, Nest d t) : Nest d (sep.intercalate l) := by
  induction l with
  | nil => exact .nil
  | cons a l ih =>
    have ih := ih fun b hb => h b (by simp [hb])
    cases l with
    | nil => simpa using h a (by simp)
    | cons b l =>
      rw [List.intercalate_cons_cons]
      exact ((h a (by simp)).append hs).append ih

theorem Nest.level {d : Nat} {t : Text} (h : Nest d t) : ∀ m, level m t = some m := by
  induction h with
  | nil => intro m; rfl
  | char h1 h2 _ ih => intro m; rw [Css.level, if_neg h1, if_neg h2]; exact ih m
  | block _ _ ih1 ih2 =>
    intro m
    rw [Css.level, if_pos rfl, level_append, ih1, Option.bind_some, Css.level, if_neg (by decide), if_pos rfl, if_neg (by omega)]
    exact ih2 m

theorem Nest.bound {d : Nat} {t : Text} (h : Nest d t) : ∀ p q m n, t = p ++ q → Css.level m p = some n → n ≤ m + d := by
  induction h with
  | nil =>
    intro p q m n e hl
    cases p with
    | nil => cases hl; omega
    | cons c p => cases e
  | @char d c t h1 h2 _ ih =>
    intro p q m n e hl
    cases p with
    | nil => cases hl; omega
    | cons x p =>
      cases e
      rw [Css.level, if_neg h1, if_neg h2] at hl
      exact ih p q m n rfl hl
  | @block d t u h1 _ ih1 ih2 =>
    intro p q m n e hl
    cases p with
    | nil => cases hl; omega
    | cons x p =>
      simp only [List.cons_append, List.cons.injEq] at e
      obtain ⟨rfl, e⟩ := e
      rw [Css.level, if_pos rfl] at hl
      rcases List.append_eq_append_iff.mp e with ⟨w, rfl, hw⟩ | ⟨w, rfl, hw⟩
      · rw [level_append, h1.level, Option.bind_some] at hl
        cases w with
        | nil => cases hl; omega
        | cons y w =>
          simp only [List.cons_append, List.cons.injEq] at hw
          obtain ⟨rfl, rfl⟩ := hw
          rw [Css.level, if_neg (by decide), if_pos rfl, if_neg (by omega), Nat.add_sub_cancel] at hl
          exact ih2 w q m n rfl hl
      · have := ih1 p w (m + 1) n rfl hl
        omega

theorem Nest.shallow {d : Nat} {t : Text} (h : Nest d t) (hd : d < 65536) : Shallow t := by
  intro p q n e hl
  have := h.bound p q 0 n e hl
  omega

/-! ## The texts -/

theorem mem_join {sep t : Text} {l : List Text} {c : Char} (ht : t ∈ l) (hc : c ∈ t) : c ∈ sep.intercalate l := by
  induction l with
  | nil => cases ht
  | cons a l ih =>
    cases l with
    | nil =>
      simp only [List.mem_singleton] at ht
      subst ht
      simpa using hc
    | cons b l =>
      rw [List.intercalate_cons_cons]
      rcases List.mem_cons.1 ht with rfl | ht
      · simp [hc]
      · exact List.mem_append_right _ (ih ht)

instance (t : Text) : Decidable (Plain t) := by unfold Plain; infer_instance

theorem plain_append {a b : Text} (h : Plain a) (h' : Plain b) : Plain (a ++ b) := by
  intro c hc
  rcases List.mem_append.1 hc with hc | hc
  · exact h c hc
  · exact h' c hc

theorem plain_blank {w : Text} (h : Blank w) : Plain w := by
  intro c hc
  rcases h c hc with rfl | rfl | rfl | rfl <;> decide

theorem plain_hex {c : Char} (h : HexDigit c) : c ≠ '{' ∧ c ≠ '}' ∧ c ≠ ';' := by
  refine ⟨?_, ?_, ?_⟩ <;> rintro rfl <;> revert h <;> decide

theorem value_plain {eval : Text → Text} {v : Value} (h : v.Ok) (he : ∀ e ∈ v.exprs, Plain (eval e)) : Plain (v.value eval) := by
  cases v with
  | words heads t =>
    obtain ⟨h1, h2⟩ := h
    induction heads with
    | nil =>
      rw [value_nil]
      exact (h2 (Or.inl rfl)).plain
    | cons hw heads ih =>
      obtain ⟨hd, w⟩ := hw
      have hh := headsOk_tail h1
      have e1 : Plain (hd.value eval) := by
        cases hd with
        | expr b e a => exact he e (by simp [Value.exprs, Head.exprs])
        | color d =>
          intro c hc
          rcases List.mem_cons.1 hc with rfl | hc
          · decide
          · exact plain_hex (hh.1.2 c hc)
        | small t' => exact small_plain hh.1
      rw [value_cons]
      by_cases hend : heads = [] ∧ t = []
      · obtain ⟨rfl, rfl⟩ := hend
        simpa [value_nil] using e1
      · refine plain_append (plain_append e1 ?_) (ih ?_ hh.2.2 ?_)
        · split
          · intro c hc; cases hc
          · intro c hc; simp at hc; subst hc; decide
        · intro e hm
          exact he e (by simp only [Value.exprs, List.flatMap_cons, List.mem_append] at hm ⊢; exact Or.inr hm)
        · rintro (e | e)
          · exact h2 (Or.inr fun e' => hend ⟨e, e'⟩)
          · exact h2 (Or.inr e)
  | url w before e after w' =>
    simp only [Value.value]
    refine plain_append (plain_append (by decide) (he e (by simp [Value.exprs]))) (by decide)
  | quoted w q s w' =>
    obtain ⟨h1, h2, h3, h4, h5, h6⟩ := h
    simp only [Value.value, Value.written]
    have hq : Plain [q] := by
      intro c hc
      simp at hc
      subst hc
      rcases h2 with rfl | rfl <;> decide
    refine plain_append (plain_append (plain_append (plain_append (by decide) (plain_blank h1)) ?_) (plain_blank h6)) (by decide)
    exact plain_append (a := [q]) hq (plain_append h4 hq)

theorem name_plain {d : Declaration} (h : d.Ok) : Plain d.name := by
  intro c hc
  refine ⟨?_, ?_, ?_⟩ <;> rintro rfl <;> exact absurd (h.name _ hc) (by decide)

theorem lower_alnum {c : Char} (h : ('a' ≤ c ∧ c ≤ 'z') ∨ c = '-') : c.isAlphanum = true ∨ c = '-' := by
  rcases h with ⟨h1, h2⟩ | h
  · left
    have e1 : 'a'.toNat ≤ c.toNat := h1
    have e2 : c.toNat ≤ 'z'.toNat := h2
    simp only [Char.isAlphanum, Char.isAlpha, Char.isLower, Bool.or_eq_true]
    left; right
    simp only [ge_iff_le, Bool.and_eq_true, decide_eq_true_eq]
    exact ⟨h1, h2⟩
  · exact Or.inr h

theorem name_solid {d : Declaration} (h : d.Ok) {c : Char} (hc : c ∈ d.name) : isWs c = false := by
  have := h.name c hc
  rcases this with ⟨h1, h2⟩ | rfl
  · have e1 : 97 ≤ c.toNat := h1
    have e2 : c.toNat ≤ 122 := h2
    unfold isWs
    simp only [Bool.or_eq_false_iff, Bool.and_eq_false_iff, decide_eq_false_iff_not, beq_eq_false_iff_ne]
    omega
  · decide

theorem trim_name {d : Declaration} (h : d.Ok) : trim d.name = d.name := by
  have e1 : d.name.dropWhile isWs = d.name := by
    cases hn : d.name with
    | nil => rfl
    | cons c n => rw [List.dropWhile_cons, if_neg]; simp [name_solid h (c := c) (by simp [hn])]
  have e2 : d.name.reverse.dropWhile isWs = d.name.reverse := by
    cases hn : d.name.reverse with
    | nil => rfl
    | cons c n => rw [List.dropWhile_cons, if_neg]; simp [name_solid h (c := c) (by rw [← List.mem_reverse, hn]; simp)]
  unfold trim
  rw [e1, e2, List.reverse_reverse]

theorem name_ok {d : Declaration} (h : d.Ok) {w : Text} (hw : ∀ c ∈ w, isWs c = true) : NameOk (w ++ d.name) where
  chars c hc := by
    rcases List.mem_append.1 hc with hc | hc
    · exact Or.inl (hw c hc)
    · rcases lower_alnum (h.name c hc) with h' | h'
      · exact Or.inr (Or.inl h')
      · exact Or.inr (Or.inr (Or.inl h'))
  some := by
    have := trim_pad (w := w) (w' := []) (t := d.name) hw (by simp)
    rw [List.append_nil] at this
    rw [this, trim_name h]
    intro e
    have := h.two
    rw [e] at this
    simp at this

theorem mem_out_value {eval : Text → Text} {d : Declaration} {c : Char} (h : c ∈ d.value.value eval) : c ∈ d.out eval := by
  simp only [Declaration.out, List.mem_append]
  exact Or.inl (Or.inr h)

theorem selector_plain {ref : Text → Text} {s : Sub} (h : s.Ok) (hs : s.Styled) (hr : ∀ n ∈ s.names, Plain (ref n)) : Plain (s.selector ref) := by
  obtain ⟨p, hp⟩ := hs
  have hok := h.first
  rw [hp] at hok
  refine plain_append ?_ ?_
  · rw [hp]
    intro c hc
    simp only [Selector.out, Pseudo.written, List.cons_append, List.mem_cons, List.mem_append, List.mem_flatten, List.mem_map] at hc
    rcases hc with rfl | hc | ⟨_, ⟨t, ht, rfl⟩, hc⟩
    · decide
    · exact hok.first.2.1 c hc
    · rcases List.mem_append.1 hc with hc | hc
      · simp at hc
        subst hc
        decide
      · exact (hok.more t ht).2.1 c hc
  · intro c hc
    simp only [List.mem_flatten, List.mem_map] at hc
    obtain ⟨_, ⟨r, hr', rfl⟩, hc⟩ := hc
    rcases List.mem_cons.1 hc with rfl | hc
    · decide
    · exact hr r.2 (List.mem_append_right _ (List.mem_map.2 ⟨r, hr', rfl⟩)) c hc

theorem decl_nest {eval : Text → Text} {d : Declaration} (h : d.Ok) (he : ∀ e ∈ d.value.exprs, Plain (eval e)) {k : Nat} :
    Nest k (d.out eval) := by
  refine ((Nest.plain (plain_txt (name_plain h))).append (Nest.plain (by decide))).append (Nest.plain (plain_txt (value_plain h.value he))) |>.append
    (Nest.plain (by decide))

theorem rules_nest {eval : Text → Text} {s : Sub} (h : s.Ok) (he : ∀ e ∈ s.exprs, Plain (eval e)) {k : Nat} : Nest k (s.rules eval) := by
  refine Nest.join (Nest.plain (by decide)) ?_
  intro t ht
  obtain ⟨d, hd, rfl⟩ := List.mem_map.1 ht
  exact decl_nest (body_ok h.body d hd) fun e hm => he e (List.mem_flatMap.2 ⟨d, hd, hm⟩)

theorem frame_nest {eval : Text → Text} {f : Frame} (h : f.Ok) (he : ∀ e ∈ f.decls.flatMap (fun (d, _) => d.value.exprs), Plain (eval e)) :
    Nest 1 (f.out eval) := by
  have e : f.out eval = f.step ++ "% ".toList ++ '{' :: (([' '] ++ ['\n'].intercalate (f.decls.map fun (d, _) => d.out eval) ++ [' ']) ++ '}' :: []) := by
    simp [Frame.out]
  rw [e]
  refine (Nest.append (Nest.plain ?_) (Nest.plain (by decide))).append (.block ?_ .nil)
  · intro c hc
    have := h.step.2 c hc
    constructor <;> rintro rfl <;> revert this <;> decide
  · refine ((Nest.plain (by decide)).append (Nest.join (Nest.plain (by decide)) ?_)).append (Nest.plain (by decide))
    intro t ht
    obtain ⟨d, hd, rfl⟩ := List.mem_map.1 ht
    exact decl_nest (h.decls d hd).1 fun e hm => he e (List.mem_flatMap.2 ⟨d, hd, hm⟩)

/-! ## The items as they are generated -/

def Entry.raw (eval ref : Text → Text) (w : Text) : Entry → MediaItem
  | .decl d => .rule (w ++ d.name) (' ' :: d.value.value eval)
  | .sub s => .pseudo (w ++ s.selector ref ++ [' ']) (' ' :: s.rules eval ++ [' ']) []

def Part.raw (eval ref : Text → Text) (w : Text) : Part → Item
  | .entry (.decl d) => .decl (w ++ d.name) (' ' :: d.value.value eval)
  | .entry (.sub s) => .pseudo (w ++ s.selector ref ++ [' ']) (' ' :: s.rules eval ++ [' ']) []
  | .animation a =>
      match a.frames with
      | none => .decl (w ++ "animation".toList) (' ' :: a.params)
      | some (_, fs) => .animation (w ++ "animation".toList) (' ' :: a.params ++ [' ']) (' ' :: framesOut eval fs ++ [' ']) []
  | .media m => .media (w ++ ("@media ".toList ++ m.query) ++ [' ']) (m.body.items.map (Entry.raw eval ref [' ']))
      (some (if m.body.items = [] then [' ', ' '] else [' '])) []

theorem entry_raw_text (eval ref : Text → Text) (w : Text) (e : Entry) : (e.raw eval ref w).text ++ [';'] = w ++ e.out eval ref := by
  cases e with
  | decl d => simp [Entry.raw, MediaItem.text, Entry.out, Declaration.out]
  | sub s => simp [Entry.raw, MediaItem.text, Entry.out, Sub.out]

/-- Texts that end with a separator. -/
theorem join_end (c : Char) (post x : Text) (xs : List Text) :
    [c].intercalate ((x :: xs).map (· ++ [';'])) ++ post = [';'].intercalate (x :: xs.map (c :: ·) ++ [post]) := by
  induction xs generalizing x with
  | nil => simp
  | cons y xs ih =>
    have := ih (c :: y)
    have ih := ih y
    simp only [List.map_cons, List.intercalate_cons_cons, List.cons_append, List.append_assoc] at ih this ⊢
    rw [ih]
    cases xs with
    | nil => simp
    | cons z xs => simp

theorem media_inner (eval ref : Text → Text) (l : List Entry) :
    ' ' :: [' '].intercalate (l.map (Entry.out eval ref)) ++ [' '] =
      [';'].intercalate ((l.map (Entry.raw eval ref [' '])).map MediaItem.text ++ [if l = [] then [' ', ' '] else [' ']]) := by
  cases l with
  | nil => rfl
  | cons e l =>
    have h1 : ∀ e, Entry.out eval ref e = (Entry.raw eval ref [] e).text ++ [';'] := fun e => by rw [entry_raw_text]; rfl
    have h2 : ∀ e : Entry, (Entry.raw eval ref [' '] e).text = ' ' :: (Entry.raw eval ref [] e).text := by
      intro e
      cases e <;> simp [Entry.raw, MediaItem.text]
    have h3 := join_end ' ' [' '] (Entry.raw eval ref [] e).text (l.map fun e => (Entry.raw eval ref [] e).text)
    have e1 : (e :: l).map (Entry.out eval ref) = ((Entry.raw eval ref [] e).text :: l.map fun e => (Entry.raw eval ref [] e).text).map (· ++ [';']) := by
      simp only [List.map_cons, List.map_map, h1]
      congr 1
      exact List.map_congr_left fun e _ => h1 e
    rw [e1, List.cons_append, h3, if_neg (by simp)]
    simp only [List.map_cons, List.map_map, h2, Function.comp_def]
    cases l with
    | nil => simp
    | cons e' l => simp

theorem raw_text (eval ref : Text → Text) (w : Text) (p : Part) : (p.raw eval ref w).text ++ [';'] = w ++ p.out eval ref := by
  cases p with
  | entry e =>
    cases e with
    | decl d => simp [Part.raw, Item.text, Part.out, Entry.out, Declaration.out]
    | sub s => simp [Part.raw, Item.text, Part.out, Entry.out, Sub.out]
  | animation a =>
    obtain ⟨w1, w2, params, w3, frames, w4⟩ := a
    have ep : "animation: ".toList = "animation".toList ++ [':', ' '] := rfl
    cases frames with
    | none =>
      show w ++ "animation".toList ++ ':' :: ' ' :: params ++ [';'] = w ++ ("animation: ".toList ++ params ++ [] ++ [';'])
      rw [ep]
      generalize "animation".toList = q
      simp
    | some lf =>
      obtain ⟨lead, fs⟩ := lf
      show w ++ "animation".toList ++ ':' :: (' ' :: params ++ [' ']) ++ '{' :: (' ' :: framesOut eval fs ++ [' ']) ++ '}' :: [] ++ [';'] =
        w ++ ("animation: ".toList ++ params ++ (" { ".toList ++ framesOut eval fs ++ " }".toList) ++ [';'])
      rw [ep]
      generalize "animation".toList = q
      simp
  | media m =>
    show w ++ ("@media ".toList ++ m.query) ++ [' '] ++ '{' :: [';'].intercalate ((m.body.items.map (Entry.raw eval ref [' '])).map MediaItem.text ++
        [if m.body.items = [] then [' ', ' '] else [' ']]) ++ '}' :: [] ++ [';'] =
      w ++ ("@media ".toList ++ m.query ++ " { ".toList ++ [' '].intercalate (m.body.items.map (Entry.out eval ref)) ++ " };".toList)
    rw [← media_inner]
    generalize "@media ".toList = q
    simp

/-- The css of a block. -/
theorem block_raw (eval ref : Text → Text) (b : Block) : ∃ items : List Item,
    b.out eval ref = [';'].intercalate (items.map Item.text ++ [[]]) ∧
    List.Forall₂ (fun i p => ∃ w, (w = [] ∨ w = ['\n']) ∧ i = Part.raw eval ref w p) items b.items := by
  unfold Block.out
  cases hb : b.items with
  | nil => exact ⟨[], rfl, .nil⟩
  | cons p l =>
    refine ⟨Part.raw eval ref [] p :: l.map (Part.raw eval ref ['\n']), ?_, ?_⟩
    · have h1 : ∀ p, Part.out eval ref p = (Part.raw eval ref [] p).text ++ [';'] := fun p => by rw [raw_text]; rfl
      have h2 : ∀ p : Part, (Part.raw eval ref ['\n'] p).text = '\n' :: (Part.raw eval ref [] p).text := by
        intro p
        have e1 := raw_text eval ref ['\n'] p
        have e2 := raw_text eval ref [] p
        rw [List.nil_append] at e2
        rw [← e2, ← List.append_assoc] at e1
        exact List.append_cancel_right e1
      have h3 := join_end '\n' [] (Part.raw eval ref [] p).text (l.map fun e => (Part.raw eval ref [] e).text)
      have e1 : (p :: l).map (Part.out eval ref) = ((Part.raw eval ref [] p).text :: l.map fun e => (Part.raw eval ref [] e).text).map (· ++ [';']) := by
        simp only [List.map_cons, List.map_map, h1]
        congr 1
        exact List.map_congr_left fun e _ => h1 e
      rw [List.append_nil] at h3
      rw [e1, h3]
      simp only [List.map_cons, List.map_map, h2, Function.comp_def]
    · refine .cons ⟨[], Or.inl rfl, rfl⟩ ?_
      clear hb
      induction l with
      | nil => exact .nil
      | cons q l ih => exact .cons ⟨['\n'], Or.inr rfl, rfl⟩ ih

/-! ## The same items up to white space -/

def SameM (i j : MediaItem) : Prop :=
  match i, j with
  | .rule a b, .rule c d => trim (a ++ ':' :: b) = trim (c ++ ':' :: d)
  | .pseudo s r _, .pseudo s' r' _ => trim s = trim s' ∧ trim r = trim r'
  | _, _ => False

def Same (i j : Item) : Prop :=
  match i, j with
  | .decl a b, .decl c d => trim a = trim c ∧ trim b = trim d
  | .animation a b c d, .animation a' b' c' d' => trim a = trim a' ∧ trim b = trim b' ∧ trim c = trim c' ∧ trim d = trim d'
  | .pseudo s r _, .pseudo s' r' _ => trim s = trim s' ∧ trim r = trim r'
  | .media q items _ _, .media q' items' _ _ => trim q = trim q' ∧ List.Forall₂ SameM items items'
  | _, _ => False

theorem media_same (cls : Text) {l l' : List MediaItem} (h : List.Forall₂ SameM l l') : mediaContent cls l = mediaContent cls l' := by
  have key : ∀ (f : MediaItem → Option Text), (∀ i j, SameM i j → f i = f j) → l.filterMap f = l'.filterMap f := by
    intro f hf
    induction h with
    | nil => rfl
    | cons h _ ih => rw [List.filterMap_cons, List.filterMap_cons, hf _ _ h, ih]
  unfold mediaContent
  dsimp only
  rw [key _ ?_, key _ ?_]
  · intro i j h
    cases i <;> cases j <;> simp only [SameM] at h ⊢
    simp only [h.1, h.2]
  · intro i j h
    cases i <;> cases j <;> simp only [SameM] at h ⊢
    simp only [MediaItem.text, h]

theorem expected_same (cls : Text) {l l' : List Item} (h : List.Forall₂ Same l l') :
    animations l = animations l' ∧ ∀ n, expected cls l n = expected cls l' n := by
  induction h with
  | nil => exact ⟨rfl, fun _ => rfl⟩
  | @cons i j l l' h _ ih =>
    obtain ⟨ih1, ih2⟩ := ih
    cases i <;> cases j <;> simp only [Same] at h
    · exact ⟨by simp only [animations, ih1], fun n => by simp only [expected, ih2, h.1, h.2]⟩
    · exact ⟨by simp only [animations, ih1], fun n => by simp only [expected, ih2, h.1, h.2.1, h.2.2.1, h.2.2.2]⟩
    · exact ⟨by simp only [animations, ih1], fun n => by simp only [expected, ih2, h.1, h.2]⟩
    · refine ⟨by simp only [animations, ih1], fun n => ?_⟩
      have e : ∀ {a b : List MediaItem}, List.Forall₂ SameM a b → (a = [] ↔ b = []) := by
        intro a b h
        cases h <;> simp
      simp only [expected, ih2, h.1, media_same cls h.2, e h.2]

theorem trim_space (w t w' : Text) (h : ∀ c ∈ w, isWs c = true) (h' : ∀ c ∈ w', isWs c = true) : trim (w ++ t ++ w') = trim t := trim_pad h h'

theorem raw_same {eval ref : Text → Text} {w : Text} (hw : ∀ c ∈ w, isWs c = true) (p : Part) : Same (p.raw eval ref w) (p.item eval ref) := by
  have left : ∀ t, trim (w ++ t) = trim t := fun t => by have := trim_pad (w := w) (w' := []) (t := t) hw (by simp); rwa [List.append_nil] at this
  have lead : ∀ t, trim (' ' :: t) = trim t := fun t => by
    have := trim_pad (w := [' ']) (w' := []) (t := t) (by decide) (by simp); rwa [List.append_nil] at this
  have both : ∀ t, trim (' ' :: t ++ [' ']) = trim t := fun t => trim_pad (w := [' ']) (w' := [' ']) (t := t) (by decide) (by decide)
  have wboth : ∀ t, trim (w ++ t ++ [' ']) = trim t := fun t => trim_pad (w := w) (w' := [' ']) (t := t) hw (by decide)
  have sboth : ∀ t, trim ([' '] ++ t ++ [' ']) = trim t := both
  cases p with
  | entry e =>
    cases e with
    | decl d => exact ⟨left _, lead _⟩
    | sub s => exact ⟨wboth _, both _⟩
  | animation a =>
    obtain ⟨w1, w2, params, w3, frames, w4⟩ := a
    cases frames with
    | none => exact ⟨left _, lead _⟩
    | some lf => exact ⟨left _, both _, both _, rfl⟩
  | media m =>
    refine ⟨wboth _, ?_⟩
    generalize m.body.items = l
    induction l with
    | nil => exact .nil
    | cons e l ih =>
      refine .cons ?_ ih
      cases e with
      | decl d =>
        show trim ([' '] ++ d.name ++ ':' :: _) = _
        rw [List.append_assoc]
        exact lead _
      | sub s => exact ⟨sboth _, both _⟩

/-! ## They are written as C34 asks -/

theorem ascii_sub {a b : Text} (h : Ascii b) (hs : ∀ c ∈ a, c ∈ b) : Ascii a := fun c hc => h c (hs c hc)

theorem head_selector {ref : Text → Text} {s : Sub} (hs : s.Styled) : ∃ r, s.selector ref = ':' :: r := by
  obtain ⟨p, hp⟩ := hs
  unfold Sub.selector
  rw [hp]
  simp only [Selector.out, Pseudo.written, List.cons_append]
  exact ⟨_, rfl⟩

theorem trim_head {w r w' : Text} (hw : ∀ c ∈ w, isWs c = true) (hw' : ∀ c ∈ w', isWs c = true) {x : Char} (hx : isWs x = false) :
    (trim (w ++ x :: r ++ w')).head? = some x := by
  rw [trim_pad hw hw', ← trimL_head]
  unfold trimL
  rw [List.dropWhile_cons, if_neg (by simp [hx])]
  rfl

theorem sub_selectorOk {eval ref : Text → Text} {s : Sub} (h : s.Ok) (hs : s.Styled) {w : Text} (hw : w = [] ∨ w = ['\n'] ∨ w = [' '])
    (hr : ∀ n ∈ s.names, Plain (ref n)) (he : ∀ e ∈ s.exprs, Plain (eval e)) (ha : Ascii (s.out eval ref)) :
    SelectorOk (w ++ s.selector ref ++ [' ']) (' ' :: s.rules eval ++ [' ']) [] where
  plain := by
    refine plain_append (plain_append ?_ (selector_plain h hs hr)) (by decide)
    rcases hw with rfl | rfl | rfl <;> decide
  ascii := by
    intro c hc
    rcases List.mem_append.1 hc with hc | hc
    · rcases List.mem_append.1 hc with hc | hc
      · rcases hw with rfl | rfl | rfl <;> simp at hc <;> subst hc <;> decide
      · exact ha c (by simp [Sub.out, hc])
    · simp at hc; subst hc; decide
  rulesAscii := by
    intro c hc
    rcases List.mem_append.1 hc with hc | hc
    · rcases List.mem_cons.1 hc with rfl | hc
      · decide
      · exact ha c (by simp [Sub.out, hc])
    · simp at hc; subst hc; decide
  balanced := by
    have : Nest 0 ([' '] ++ s.rules eval ++ [' ']) := ((Nest.plain (by decide)).append (rules_nest h he)).append (Nest.plain (by decide))
    exact this.level 0
  trailing := by simp

theorem sub_nest {eval ref : Text → Text} {s : Sub} (h : s.Ok) (hs : s.Styled) {w : Text} (hw : w = [] ∨ w = ['\n'] ∨ w = [' '])
    (hr : ∀ n ∈ s.names, Plain (ref n)) (he : ∀ e ∈ s.exprs, Plain (eval e)) :
    Nest 1 (w ++ s.selector ref ++ [' '] ++ '{' :: (' ' :: s.rules eval ++ [' ']) ++ '}' :: []) := by
  have e : w ++ s.selector ref ++ [' '] ++ '{' :: (' ' :: s.rules eval ++ [' ']) ++ '}' :: [] =
      (w ++ s.selector ref ++ [' ']) ++ '{' :: (([' '] ++ s.rules eval ++ [' ']) ++ '}' :: []) := by simp
  rw [e]
  refine (Nest.plain (plain_txt ?_)).append (.block (((Nest.plain (by decide)).append (rules_nest h he)).append (Nest.plain (by decide))) .nil)
  refine plain_append (plain_append ?_ (selector_plain h hs hr)) (by decide)
  rcases hw with rfl | rfl | rfl <;> decide

theorem space_plain {t : Text} (h : Plain t) : Plain (' ' :: t) := plain_append (a := [' ']) (by decide) h

theorem pad_ws {w : Text} (hw : w = [] ∨ w = ['\n'] ∨ w = [' ']) : ∀ c ∈ w, isWs c = true := by
  rcases hw with rfl | rfl | rfl <;> decide

theorem pad_plain {w : Text} (hw : w = [] ∨ w = ['\n'] ∨ w = [' ']) : Plain w := by
  rcases hw with rfl | rfl | rfl <;> decide

theorem pad_ascii {w : Text} (hw : w = [] ∨ w = ['\n'] ∨ w = [' ']) : Ascii w := by
  rcases hw with rfl | rfl | rfl
  · intro c hc; cases hc
  · intro c hc; simp at hc; subst hc; decide
  · intro c hc; simp at hc; subst hc; decide

theorem entry_ok {eval ref : Text → Text} {e : Entry} (h : e.Ok) (hs : e.Styled)
    (hr : ∀ n ∈ e.names, Plain (ref n)) (he : ∀ x ∈ e.exprs, Plain (eval x)) (ha : Ascii (e.out eval ref)) :
    (e.raw eval ref [' ']).Ok ∧ Nest 1 (e.raw eval ref [' ']).text := by
  cases e with
  | decl d =>
    have hv := space_plain (value_plain h.value he)
    refine ⟨⟨name_ok h (by decide), hv, ?_, ?_⟩, ?_⟩
    · intro c hc
      rcases List.mem_append.1 hc with hc | hc
      · simp at hc; subst hc; decide
      · exact ha c (by simp [Entry.out, Declaration.out, hc])
    · intro c hc
      rcases List.mem_cons.1 hc with rfl | hc
      · decide
      · exact ha c (mem_out_value hc)
    · exact ((Nest.plain (by decide)).append (Nest.plain (plain_txt (name_plain h)))).append
        (.char (by decide) (by decide) (Nest.plain (plain_txt hv)))
  | sub s =>
    refine ⟨⟨sub_selectorOk h hs (Or.inr (Or.inr rfl)) hr he ha, ?_⟩, sub_nest h hs (Or.inr (Or.inr rfl)) hr he⟩
    obtain ⟨r, er⟩ := head_selector (ref := ref) hs
    rw [er]
    exact trim_head (by decide) (by decide) (by decide)

theorem raw_ok {eval ref : Text → Text} {w : Text} (hw : w = [] ∨ w = ['\n']) {p : Part} (h : p.Ok) (hs : p.Styled)
    (hr : ∀ n ∈ p.names, Plain (ref n)) (he : ∀ x ∈ p.exprs, Plain (eval x)) (ha : Ascii (p.out eval ref)) :
    (p.raw eval ref w).Ok ∧ Nest 2 (p.raw eval ref w).text := by
  replace hw : w = [] ∨ w = ['\n'] ∨ w = [' '] := by tauto
  have mono : ∀ {t}, Nest 1 t → Nest 2 t := by
    intro t h
    suffices ∀ {d t}, Nest d t → Nest (d + 1) t from this h
    intro d t h
    induction h with
    | nil => exact .nil
    | char h1 h2 _ ih => exact .char h1 h2 ih
    | block _ _ ih1 ih2 => exact .block ih1 ih2
  cases p with
  | entry e =>
    cases e with
    | decl d =>
      have hv := space_plain (value_plain h.value he)
      refine ⟨⟨name_ok h (pad_ws hw), hv⟩, ?_⟩
      exact (Nest.plain (plain_txt (plain_append (pad_plain hw) (name_plain h)))).append
        (.char (by decide) (by decide) (Nest.plain (plain_txt hv)))
    | sub s =>
      refine ⟨⟨sub_selectorOk h hs hw hr he ha, Or.inl ?_⟩, mono (sub_nest h hs hw hr he)⟩
      obtain ⟨r, er⟩ := head_selector (ref := ref) hs
      rw [er]
      exact trim_head (pad_ws hw) (by decide) (by decide)
  | animation a =>
    obtain ⟨w1, w2, params, w3, frames, w4⟩ := a
    have hp : Plain params := h.params.2.1
    have ht : trim (w ++ "animation".toList) = "animation".toList := by
      have := trim_pad (w := w) (w' := []) (t := "animation".toList) (pad_ws hw) (by simp)
      rw [List.append_nil] at this
      rw [this]
      decide
    have hn : Plain (w ++ "animation".toList) := plain_append (pad_plain hw) (by decide)
    cases frames with
    | none =>
      refine ⟨⟨⟨?_, ?_⟩, space_plain hp⟩, ?_⟩
      · intro c hc
        rcases List.mem_append.1 hc with hc | hc
        · exact Or.inl (pad_ws hw c hc)
        · right; left
          have : ∀ c ∈ "animation".toList, c.isAlphanum = true := by decide
          exact this c hc
      · rw [ht]; decide
      · exact (Nest.plain (plain_txt hn)).append (.char (by decide) (by decide) (Nest.plain (plain_txt (space_plain hp))))
    | some lf =>
      obtain ⟨lead, fs⟩ := lf
      have ha : Ascii ("animation: ".toList ++ params ++ (" { ".toList ++ framesOut eval fs ++ " }".toList) ++ [';']) := ha
      have hf : Nest 1 (' ' :: framesOut eval fs ++ [' ']) := by
        refine ((Nest.plain (t := [' ']) (by decide)).append (Nest.join (Nest.plain (by decide)) ?_)).append (Nest.plain (by decide))
        intro t ht
        obtain ⟨f, hf, rfl⟩ := List.mem_map.1 ht
        refine frame_nest ((h.frames (lead, fs) rfl).2.2 f hf).1 fun e hm => he e ?_
        exact List.mem_flatMap.2 ⟨f, hf, hm⟩
      refine ⟨⟨ht, plain_append (space_plain hp) (by decide), by decide, ?_, ?_, ?_, hf.level 0⟩, ?_⟩
      · intro c hc
        rcases List.mem_append.1 hc with hc | hc
        · rcases List.mem_cons.1 hc with rfl | hc
          · decide
          · exact ha c (List.mem_append_left _ (List.mem_append_left _ (List.mem_append_right _ hc)))
        · simp at hc; subst hc; decide
      · intro c hc
        rcases List.mem_append.1 hc with hc | hc
        · rcases List.mem_cons.1 hc with rfl | hc
          · decide
          · exact ha c (List.mem_append_left _ (List.mem_append_right _ (List.mem_append_left _ (List.mem_append_right _ hc))))
        · simp at hc; subst hc; decide
      · intro c hc; cases hc
      · have e : (Part.raw eval ref w (.animation ⟨w1, w2, params, w3, some (lead, fs), w4⟩)).text =
            ((w ++ "animation".toList) ++ ':' :: (' ' :: params ++ [' '])) ++ '{' :: ((' ' :: framesOut eval fs ++ [' ']) ++ '}' :: []) := by
          show w ++ "animation".toList ++ ':' :: (' ' :: params ++ [' ']) ++ '{' :: (' ' :: framesOut eval fs ++ [' ']) ++ '}' :: [] = _
          generalize "animation".toList = q
          simp
        rw [e]
        exact ((Nest.plain (plain_txt hn)).append (.char (by decide) (by decide)
          (Nest.plain (plain_txt (plain_append (space_plain hp) (by decide)))))).append (.block hf .nil)
  | media m =>
    have hq : Plain (w ++ ("@media ".toList ++ m.query) ++ [' ']) :=
      plain_append (plain_append (pad_plain hw) (plain_append (by decide) h.query.2)) (by decide)
    have ha : Ascii ("@media ".toList ++ m.query ++ " { ".toList ++ [' '].intercalate (m.body.items.map (Entry.out eval ref)) ++ " };".toList) := ha
    have hitems : ∀ e ∈ m.body.items, (e.raw eval ref [' ']).Ok ∧ Nest 1 (e.raw eval ref [' ']).text := by
      intro e hm
      refine entry_ok (body_ok h.body e hm) (hs.2 e hm) (fun n hn => hr n (List.mem_flatMap.2 ⟨e, hm, hn⟩))
        (fun n hn => he n (List.mem_flatMap.2 ⟨e, hm, hn⟩)) ?_
      intro c hc
      exact ha c (List.mem_append_left _ (List.mem_append_right _ (mem_join (List.mem_map.2 ⟨e, hm, rfl⟩) hc)))
    have hlast : ∀ c ∈ (if m.body.items = [] then [' ', ' '] else [' ']), isWs c = true ∧ c.toNat < 128 := by
      split <;> decide
    refine ⟨⟨⟨hq, ?_, ?_, rfl, by simp⟩, ?_, ?_, ?_, ?_⟩, ?_⟩
    · intro c hc
      rcases List.mem_append.1 hc with hc | hc
      · rcases List.mem_append.1 hc with hc | hc
        · exact pad_ascii hw c hc
        · exact ha c (List.mem_append_left _ (List.mem_append_left _ (List.mem_append_left _ hc)))
      · simp at hc; subst hc; decide
    · intro c hc; cases hc
    · rw [trim_pad (pad_ws hw) (by decide)]
      have e : "@media ".toList ++ m.query = "@medi".toList ++ 'a' :: (' ' :: m.query) := by
        generalize m.query = q
        rfl
      have e2 : trimL "@medi".toList = "@medi".toList := by decide
      rw [e, trim_mid (by decide), e2]
      exact ⟨trimR (' ' :: m.query), rfl⟩
    · rcases hs.1 with h' | h'
      · left
        simp [h']
      · right
        simp [h']
    · intro i hi
      obtain ⟨e, hm, rfl⟩ := List.mem_map.1 hi
      exact ⟨(hitems e hm).1, (hitems e hm).2.shallow (by decide)⟩
    · intro w hw'
      cases hw'
      exact hlast
    · have hin : Nest 1 ([';'].intercalate ((m.body.items.map (Entry.raw eval ref [' '])).map MediaItem.text ++ [if m.body.items = [] then [' ', ' '] else [' ']])) := by
        refine Nest.join (Nest.plain (by decide)) ?_
        intro t ht
        rcases List.mem_append.1 ht with ht | ht
        · simp only [List.mem_map] at ht
          obtain ⟨_, ⟨e, hm, rfl⟩, rfl⟩ := ht
          exact (hitems e hm).2
        · rw [List.mem_singleton] at ht
          subst ht
          refine Nest.plain ?_
          split <;> decide
      have e : (Part.raw eval ref w (.media m)).text = (w ++ ("@media ".toList ++ m.query) ++ [' ']) ++
          '{' :: ([';'].intercalate ((m.body.items.map (Entry.raw eval ref [' '])).map MediaItem.text ++ [if m.body.items = [] then [' ', ' '] else [' ']]) ++ '}' :: []) := by
        show w ++ ("@media ".toList ++ m.query) ++ [' '] ++ '{' :: [';'].intercalate ((m.body.items.map (Entry.raw eval ref [' '])).map MediaItem.text ++
          [if m.body.items = [] then [' ', ' '] else [' ']]) ++ '}' :: [] = _
        generalize [';'].intercalate _ = q
        generalize "@media ".toList = q'
        simp
      rw [e]
      exact (Nest.plain (plain_txt hq)).append (.block hin .nil)

theorem transform_block {b : Block} (h : b.Ok Part.Ok) (hs : ∀ p ∈ b.items, p.Styled) (eval ref : Text → Text)
    (hr : ∀ n ∈ b.names, Plain (ref n)) (he : ∀ e ∈ b.exprs, Plain (eval e)) (ha : Ascii (b.out eval ref)) (n : Nat) :
    let items := b.items.map (Part.item eval ref)
    let cls := ".autocss_".toList ++ (Nat.repr (n + 1)).toList
    let (declarations, rules) := expected cls items (n + 1)
    transformCss (b.out eval ref) n =
      some (n + 1, rules ++ [(cls, "; ".toList.intercalate declarations)], n + 1 + animations items) := by
  obtain ⟨items, e, hf⟩ := block_raw eval ref b
  have hok : ∀ i ∈ items, i.Ok ∧ Shallow i.text := by
    have : ∀ p ∈ b.items, p.Ok ∧ p.Styled ∧ (∀ n ∈ p.names, Plain (ref n)) ∧ (∀ x ∈ p.exprs, Plain (eval x)) ∧ Ascii (p.out eval ref) := by
      intro p hp
      refine ⟨body_ok h p hp, hs p hp, fun n hn => hr n (List.mem_flatMap.2 ⟨p, hp, hn⟩), fun n hn => he n (List.mem_flatMap.2 ⟨p, hp, hn⟩), ?_⟩
      intro c hc
      exact ha c (mem_join (List.mem_map.2 ⟨p, hp, rfl⟩) hc)
    clear e
    generalize b.items = l at hf this
    induction hf with
    | nil => intro i hi; cases hi
    | @cons i p items l h1 _ ih =>
      intro j hj
      rcases List.mem_cons.1 hj with rfl | hj
      · obtain ⟨w, hw, rfl⟩ := h1
        obtain ⟨a1, a2, a3, a4, a5⟩ := this p (by simp)
        have := raw_ok hw a1 a2 a3 a4 a5
        exact ⟨this.1, this.2.shallow (by decide)⟩
      · exact ih (fun q hq => this q (by simp [hq])) j hj
  have hsame : List.Forall₂ Same items (b.items.map (Part.item eval ref)) := by
    generalize b.items = l at hf
    clear e hok
    induction hf with
    | nil => exact .nil
    | @cons i p items l h1 _ ih =>
      refine .cons ?_ ih
      obtain ⟨w, hw, rfl⟩ := h1
      exact raw_same (by rcases hw with rfl | rfl <;> decide) p
  have ht := C34_rules_partial items hok [] (b.out eval ref) (by simp) (Or.inr e) n
  have hx := expected_same (".autocss_".toList ++ (Nat.repr (n + 1)).toList) hsame
  dsimp only at ht ⊢
  rw [← hx.1, ← hx.2]
  exact ht

end Verif.Css.Macro

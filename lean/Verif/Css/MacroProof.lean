import Verif.Css.MacroParse
import Mathlib.Data.List.Forall2
/-!
# C60: what css! generates
-/
namespace Verif.Css.Macro

/-! ### Texts with escapes and arguments -/

/-- The format text on the left stands for the text on the right. -/
inductive Txt (look : Text → Option Text) : Text → Text → Prop where
  | nil : Txt look [] []
  | char {c s v} : c ≠ '{' → c ≠ '}' → Txt look s v → Txt look (c :: s) (c :: v)
  | opn {s v} : Txt look s v → Txt look ('{' :: '{' :: s) ('{' :: v)
  | cls {s v} : Txt look s v → Txt look ('}' :: '}' :: s) ('}' :: v)
  | arg {k x s v} : k ≠ [] → (∀ c ∈ k, c ≠ '{' ∧ c ≠ '}') → look k = some x → Txt look s v → Txt look ('{' :: (k ++ '}' :: s)) (x ++ v)

theorem Txt.append {look} {s v s' v' : Text} (h : Txt look s v) (h' : Txt look s' v') : Txt look (s ++ s') (v ++ v') := by
  induction h with
  | nil => exact h'
  | char h1 h2 _ ih => exact .char h1 h2 ih
  | opn _ ih => exact .opn ih
  | cls _ ih => exact .cls ih
  | arg h1 h2 h3 _ ih =>
    simp only [List.cons_append, List.append_assoc]
    exact .arg h1 h2 h3 ih

theorem Txt.plain {look} {t : Text} (h : ∀ c ∈ t, c ≠ '{' ∧ c ≠ '}') : Txt look t t := by
  induction t with
  | nil => exact .nil
  | cons c t ih => exact .char (h c (by simp)).1 (h c (by simp)).2 (ih fun d hd => h d (by simp [hd]))

theorem fmt_arg {look} (k s : Text) (hk : ∀ c ∈ k, c ≠ '{' ∧ c ≠ '}') : ∀ name : Text,
    fmt look (some name) (k ++ '}' :: s) = match look (name ++ k) with | none => none | some v => (fmt look none s).map (v ++ ·) := by
  induction k with
  | nil =>
    intro name
    simp only [List.nil_append, List.append_nil]
    rw [fmt, if_pos rfl]
    rfl
  | cons c k ih =>
    intro name
    have := hk c (by simp)
    rw [List.cons_append, fmt, if_neg this.2, if_neg this.1, ih (fun d hd => hk d (by simp [hd]))]
    simp

theorem Txt.fmt {look} {s v : Text} (h : Txt look s v) : fmt look none s = some v := by
  induction h with
  | nil => rfl
  | @char c s v h1 h2 _ ih => rw [fmt.eq_def]; simp only [if_neg h1, if_neg h2, ih, Option.map_some]
  | opn _ ih => rw [fmt.eq_def]; simp [ih]
  | cls _ ih => rw [fmt.eq_def]; simp [ih]
  | @arg k x s v h1 h2 h3 _ ih =>
    cases k with
    | nil => exact absurd rfl h1
    | cons c k =>
      have hc := h2 c (by simp)
      rw [fmt.eq_def]
      simp only [List.cons_append, if_true, if_neg hc.1]
      rw [← List.cons_append, fmt_arg _ _ h2, List.nil_append, h3]
      dsimp only
      rw [ih]
      rfl

/-! ### `str::replace` -/

theorem replace_skip {c : Char} {p r u s : Text} (h : c ∉ u) : replaceAll (c :: p) r (u ++ s) = u ++ replaceAll (c :: p) r s := by
  induction u with
  | nil => rfl
  | cons d u ih =>
    have hd : ¬ (c :: p).isPrefixOf (d :: (u ++ s)) := by
      simp only [List.isPrefixOf, Bool.and_eq_true, beq_iff_eq]
      rintro ⟨e, _⟩
      exact h (by simp [e])
    rw [List.cons_append]
    unfold replaceAll at *
    rw [replaceFrom, if_neg hd, ih fun hc => h (by simp [hc])]
    rfl

theorem replace_none {c : Char} {p r u : Text} (h : c ∉ u) : replaceAll (c :: p) r u = u := by
  have := replace_skip (p := p) (r := r) (s := []) h
  simpa [replaceAll, replaceFrom] using this

theorem replaceFrom_drop (p r : Text) : ∀ (u s : Text), replaceFrom p r u.length (u ++ s) = replaceFrom p r 0 s := by
  intro u s
  induction u with
  | nil => rfl
  | cons d u ih =>
    rw [List.cons_append, List.length_cons, replaceFrom, ih]

theorem replace_hit {c : Char} {p r s : Text} : replaceAll (c :: p) r (c :: p ++ s) = r ++ replaceAll (c :: p) r s := by
  unfold replaceAll
  rw [List.cons_append, replaceFrom, if_pos (by simp)]
  simp only [List.length_cons, Nat.add_sub_cancel]
  rw [replaceFrom_drop]

theorem replace_miss {c : Char} {p r s : Text} (h : ¬ p <+: s) : replaceAll (c :: p) r (c :: s) = c :: replaceAll (c :: p) r s := by
  unfold replaceAll
  rw [replaceFrom, if_neg]
  simp only [List.isPrefixOf, Bool.and_eq_true, beq_iff_eq]
  rintro ⟨_, h'⟩
  exact h (List.isPrefixOf_iff_prefix.1 h')

/-! ### Texts without arguments -/

/-- Only the brackets that close are doubled. -/
inductive Half : Text → Text → Prop where
  | nil : Half [] []
  | char {c s v} : c ≠ '}' → Half s v → Half (c :: s) (c :: v)
  | cls {s v} : Half s v → Half ('}' :: '}' :: s) ('}' :: v)

theorem Txt.half {s v : Text} (h : Txt (fun _ => none) s v) : Half (replaceAll "{{".toList "{".toList s) v := by
  induction h with
  | nil => exact .nil
  | @char c s v h1 h2 _ ih =>
    have := replace_skip (c := '{') (p := ['{']) (r := ['{']) (u := [c]) (s := s) (by simpa using h1.symm)
    show Half (replaceAll ('{' :: ['{']) ['{'] ([c] ++ s)) _
    rw [this]
    exact .char h2 ih
  | @opn s v _ ih =>
    have := replace_hit (c := '{') (p := ['{']) (r := ['{']) (s := s)
    show Half (replaceAll ('{' :: ['{']) ['{'] ('{' :: ['{'] ++ s)) _
    rw [this]
    exact .char (by decide) ih
  | @cls s v _ ih =>
    have := replace_skip (c := '{') (p := ['{']) (r := ['{']) (u := "}}".toList) (s := s) (by decide)
    show Half (replaceAll ('{' :: ['{']) ['{'] ("}}".toList ++ s)) _
    rw [this]
    exact .cls ih
  | arg _ _ h => cases h

theorem Half.eq {s v : Text} (h : Half s v) : replaceAll "}}".toList "}".toList s = v := by
  induction h with
  | nil => rfl
  | @char c s v h _ ih =>
    have := replace_skip (c := '}') (p := ['}']) (r := ['}']) (u := [c]) (s := s) (by simpa using h.symm)
    show replaceAll ('}' :: ['}']) ['}'] ([c] ++ s) = _
    rw [this, show replaceAll ('}' :: ['}']) ['}'] s = v from ih]
    rfl
  | @cls s v _ ih =>
    have := replace_hit (c := '}') (p := ['}']) (r := ['}']) (s := s)
    show replaceAll ('}' :: ['}']) ['}'] ('}' :: ['}'] ++ s) = _
    rw [this, show replaceAll ('}' :: ['}']) ['}'] s = v from ih]
    rfl

/-! ### The names of the parameters -/

theorem key_inj {i j : Nat} (hi : i < 676) (hj : j < 676) (h : key i = key j) : i = j := by
  simp only [key, List.cons.injEq, and_true] at h
  obtain ⟨h1, h2⟩ := h
  have v : ∀ n, n < 26 → (Char.ofNat (97 + n)).toNat = 97 + n := by
    intro n hn
    have : ∀ n : Fin 26, (Char.ofNat (97 + n.val)).toNat = 97 + n.val := by decide
    exact this ⟨n, hn⟩
  have a1 := v (i / 26) (by omega)
  have a2 := v (j / 26) (by omega)
  have a3 := v (i % 26) (by omega)
  have a4 := v (j % 26) (by omega)
  rw [h1] at a1
  rw [h2] at a3
  omega

theorem key_ok {i : Nat} (hi : i < 676) : key i ≠ [] ∧ ∀ c ∈ key i, c ≠ '{' ∧ c ≠ '}' := by
  refine ⟨by simp [key], ?_⟩
  have v : ∀ n : Fin 26, Char.ofNat (97 + n.val) ≠ '{' ∧ Char.ofNat (97 + n.val) ≠ '}' := by decide
  intro c hc
  simp only [key, List.mem_cons, List.not_mem_nil, or_false] at hc
  rcases hc with rfl | rfl
  · exact v ⟨i / 26, by omega⟩
  · exact v ⟨i % 26, by omega⟩

/-- The names are given in order. -/
structure Params (ps : List (Text × Text)) : Prop where
  size : ps.length ≤ 676
  keys : ∀ i p, ps[i]? = some p → p.2 = key i

theorem params_find {ps : List (Text × Text)} (h : Params ps) {p : Text × Text} (hp : p ∈ ps) (eval : Text → Text) :
    argument eval ps p.2 = some (eval p.1) := by
  obtain ⟨i, hi⟩ := List.getElem?_of_mem hp
  obtain ⟨q, hq⟩ : ∃ q, ps.find? (·.2 = p.2) = some q := by
    rw [← Option.isSome_iff_exists, List.find?_isSome]
    exact ⟨p, hp, by simp⟩
  have h1 : q ∈ ps := List.mem_of_find?_eq_some hq
  have h2 : q.2 = p.2 := by simpa using List.find?_some hq
  obtain ⟨j, hj⟩ := List.getElem?_of_mem h1
  have li : i < ps.length := by
    rcases Nat.lt_or_ge i ps.length with h' | h'
    · exact h'
    · rw [List.getElem?_eq_none h'] at hi; cases hi
  have lj : j < ps.length := by
    rcases Nat.lt_or_ge j ps.length with h' | h'
    · exact h'
    · rw [List.getElem?_eq_none h'] at hj; cases hj
  have e : i = j := by
    have := h.size
    apply key_inj (by omega) (by omega)
    rw [← h.keys i p hi, ← h.keys j q hj, h2]
  subst e
  rw [hi] at hj
  cases hj
  unfold argument
  rw [hq]

/-! ### Generators -/

/-- What a generator does: it may add parameters and it adds the references `ns`. What it gives is what `R` says when every parameter
has its value. -/
def Gen (eval : Text → Text) (f : St → Option (β × St)) (R : (Text → Option Text) → β → Prop) (es ns : List Text) : Prop :=
  ∀ st : St, Params st.params → st.params.length + es.length ≤ 676 →
    ∃ b st', f st = some (b, st') ∧ Params st'.params ∧ st'.params.length ≤ st.params.length + es.length ∧
      st.params <+: st'.params ∧ (es ≠ [] → st'.params ≠ []) ∧ (es = [] → st'.params = st.params) ∧ st'.refs = st.refs ++ ns ∧
      ∀ look, (∀ p ∈ st'.params, look p.2 = some (eval p.1)) → R look b

theorem gen_pure {eval} {b : β} {R : (Text → Option Text) → β → Prop} (h : ∀ look, R look b) :
    Gen eval (fun st => some (b, st)) R [] [] :=
  fun st h1 _ => ⟨b, st, rfl, h1, by simp, List.prefix_rfl, by simp, fun _ => rfl, by simp, fun look _ => h look⟩

theorem gen_map {eval} {f : St → Option (α × St)} (g : α → β) {R : (Text → Option Text) → α → Prop}
    {R' : (Text → Option Text) → β → Prop} {es ns : List Text} {F : St → Option (β × St)}
    (hF : ∀ st a st', f st = some (a, st') → F st = some (g a, st')) (h : Gen eval f R es ns) (hr : ∀ look a, R look a → R' look (g a)) :
    Gen eval F R' es ns := by
  intro st h1 h2
  obtain ⟨b, st', e, h3, h4, h5, h6, h7, h8, h9⟩ := h st h1 h2
  exact ⟨g b, st', hF _ _ _ e, h3, h4, h5, h6, h7, h8, fun look hl => hr look b (h9 look hl)⟩

theorem gen_seq {eval} {f : St → Option (α × St)} {g : St → Option (β × St)} {R : (Text → Option Text) → α → Prop}
    {R' : (Text → Option Text) → β → Prop} {R'' : (Text → Option Text) → γ → Prop} {k : α → β → γ} {es es' ns ns' : List Text}
    {F : St → Option (γ × St)} (hF : ∀ st a st1 b st2, f st = some (a, st1) → g st1 = some (b, st2) → F st = some (k a b, st2))
    (h : Gen eval f R es ns) (h' : Gen eval g R' es' ns') (hr : ∀ look a b, R look a → R' look b → R'' look (k a b)) :
    Gen eval F R'' (es ++ es') (ns ++ ns') := by
  intro st h1 h2
  simp only [List.length_append] at h2
  obtain ⟨a, st1, e, h3, h4, h5, h6, h7, h8, h9⟩ := h st h1 (by omega)
  obtain ⟨b, st2, e', h3', h4', h5', h6', h7', h8', h9'⟩ := h' st1 h3 (by omega)
  refine ⟨k a b, st2, hF _ _ _ _ _ e e', h3', by simp only [List.length_append]; omega, h5.trans h5', ?_, ?_, ?_, ?_⟩
  · intro hne e0
    rw [e0, List.prefix_nil] at h5'
    cases es with
    | nil => exact h6' (by simpa using hne) e0
    | cons x l => exact h6 (by simp) h5'
  · intro e0
    rw [List.append_eq_nil_iff] at e0
    rw [h7' e0.2, h7 e0.1]
  · rw [h8', h8, List.append_assoc]
  · intro look hl
    exact hr look a b (h9 look fun p hp => hl p (h5'.subset hp)) (h9' look hl)

theorem gen_each {eval} {f : α → St → Option (β × St)} {R : (Text → Option Text) → β → α → Prop} {es ns : α → List Text} (l : List α)
    (h : ∀ a ∈ l, Gen eval (f a) (fun look t => R look t a) (es a) (ns a)) :
    Gen eval (each f l) (fun look ts => List.Forall₂ (R look) ts l) (l.flatMap es) (l.flatMap ns) := by
  induction l with
  | nil => exact gen_pure fun look => .nil
  | cons a l ih =>
    rw [List.flatMap_cons, List.flatMap_cons]
    refine gen_seq (k := List.cons) ?_ (h a (by simp)) (ih fun b hb => h b (by simp [hb])) fun look t ts h1 h2 => List.Forall₂.cons h1 h2
    intro st a' st1 b st2 e1 e2
    simp only [each, e1, e2]

theorem each_append {f : α → St → Option (β × St)} {l l' : List α} : ∀ {st st1 st2 : St} {as bs : List β},
    each f l st = some (as, st1) → each f l' st1 = some (bs, st2) → each f (l ++ l') st = some (as ++ bs, st2) := by
  induction l with
  | nil =>
    intro st st1 st2 as bs h1 h2
    simp only [each, Option.some.injEq, Prod.mk.injEq] at h1
    obtain ⟨rfl, rfl⟩ := h1
    exact h2
  | cons a l ih =>
    intro st st1 st2 as bs h1 h2
    simp only [each] at h1
    split at h1
    · cases h1
    · rename_i b st' e
      split at h1
      · cases h1
      · rename_i bs' st'' e'
        cases h1
        have := ih e' h2
        simp only [List.cons_append, each, e, this]

theorem each_map {g : γ → α} {f : α → St → Option (β × St)} (l : List γ) : each f (l.map g) = each (fun c => f (g c)) l := by
  induction l with
  | nil => rfl
  | cons a l ih =>
    funext st
    simp only [List.map_cons, each, ih]

theorem txt_join {look} {v : α → Text} {sep : Text} (hs : ∀ c ∈ sep, c ≠ '{' ∧ c ≠ '}') {ts : List Text} {l : List α}
    (h : List.Forall₂ (fun t a => Txt look t (v a)) ts l) : Txt look (join sep ts) (sep.intercalate (l.map v)) := by
  unfold join
  induction h with
  | nil => exact .nil
  | @cons t a ts l h1 h2 ih =>
    cases h2 with
    | nil => simpa using h1
    | @cons t' a' ts l h2 h3 =>
      simp only [List.map_cons, List.intercalate_cons_cons] at ih ⊢
      exact (h1.append (Txt.plain hs)).append ih

/-- A parameter. -/
theorem insert_gen (eval : Text → Text) (e : Text) :
    Gen eval (insert e) (fun look t => ∃ k : Text, k ≠ [] ∧ (∀ c ∈ k, c ≠ '{' ∧ c ≠ '}') ∧ look k = some (eval e) ∧ t = '{' :: k ++ ['}'])
      [e] [] := by
  intro st h1 h2
  simp only [List.length_cons, List.length_nil] at h2
  unfold insert
  cases hl : st.params.lookup e with
  | some k =>
    obtain ⟨p, hp, he⟩ : ∃ p ∈ st.params, p = (e, k) := by
      refine ⟨(e, k), ?_, rfl⟩
      rw [List.lookup_eq_some_iff] at hl
      obtain ⟨l1, l2, e1, _⟩ := hl
      simp [e1]
    subst he
    obtain ⟨i, hi⟩ := List.getElem?_of_mem hp
    have hk := h1.keys i _ hi
    dsimp only at hk
    have li : i < 676 := by
      rcases Nat.lt_or_ge i st.params.length with h' | h'
      · omega
      · rw [List.getElem?_eq_none h'] at hi; cases hi
    refine ⟨_, st, rfl, h1, by omega, List.prefix_rfl, ?_, by simp, by simp, ?_⟩
    · intro _ e0; rw [e0] at hp; cases hp
    · intro look hlook
      refine ⟨k, ?_, ?_, hlook _ hp, rfl⟩
      · rw [hk]; exact (key_ok li).1
      · rw [hk]; exact (key_ok li).2
  | none =>
    dsimp only
    rw [if_pos (by omega)]
    refine ⟨_, _, rfl, ⟨by simp; omega, ?_⟩, by simp, List.prefix_append _ _, by simp, by simp, by simp, ?_⟩
    · intro i p hp
      rcases Nat.lt_or_ge i st.params.length with h' | h'
      · rw [List.getElem?_append_left h'] at hp
        exact h1.keys i p hp
      · rw [List.getElem?_append_right h'] at hp
        cases hj : i - st.params.length with
        | zero =>
          rw [hj] at hp
          cases hp
          dsimp only
          congr 1
          omega
        | succ j => rw [hj] at hp; cases hp
    · intro look hlook
      have hk := key_ok (i := st.params.length) (by omega)
      exact ⟨key st.params.length, hk.1, hk.2, hlook (e, key st.params.length) (by simp), rfl⟩

/-! ### Values -/

abbrev glue (s : Text) : Text := replaceAll "} px".toList "}px".toList s

theorem glue_skip {u s : Text} (h : '}' ∉ u) : glue (u ++ s) = u ++ glue s :=
  replace_skip (p := " px".toList) h

theorem glue_hit {s : Text} : glue ('}' :: ' ' :: 'p' :: 'x' :: s) = '}' :: 'p' :: 'x' :: glue s :=
  replace_hit (c := '}') (p := " px".toList) (r := "}px".toList)

theorem glue_miss {s : Text} (h : ¬ " px".toList <+: s) : glue ('}' :: s) = '}' :: glue s :=
  replace_miss h

theorem glue_none {u : Text} (h : '}' ∉ u) : glue u = u := by
  have := glue_skip (s := []) h
  rwa [List.append_nil, show glue [] = [] from rfl, List.append_nil] at this

/-- The text that stands for a value: a head is followed by other heads or by text. -/
def HeadTxt (eval : Text → Text) (look : Text → Option Text) (s : Text) : Head → Prop
  | .expr _ e _ => ∃ k : Text, k ≠ [] ∧ (∀ c ∈ k, c ≠ '{' ∧ c ≠ '}') ∧ look k = some (eval e) ∧ s = '{' :: k ++ ['}']
  | .color d => s = '#' :: d
  | .small t => s = t

theorem head_gen (eval : Text → Text) (h : Head) : Gen eval (genVal h.val) (fun look s => HeadTxt eval look s h) h.exprs [] := by
  cases h with
  | expr before e after => exact insert_gen eval e
  | color d => exact gen_pure fun look => rfl
  | small t => exact gen_pure fun look => rfl

theorem small_plain {t : Text} (h : SmallColor t) : Plain t := by
  intro c hc
  have := small_mem h c hc
  refine ⟨?_, ?_, ?_⟩ <;> rintro rfl <;> revert this <;> decide

theorem hex_plain {c : Char} (h : HexDigit c) : c ≠ '{' ∧ c ≠ '}' := by
  constructor <;> rintro rfl <;> revert h <;> decide

theorem plain_txt {t : Text} (h : Plain t) : ∀ c ∈ t, c ≠ '{' ∧ c ≠ '}' := fun c hc => ⟨(h c hc).1, (h c hc).2.1⟩

theorem plain_close {t : Text} (h : ∀ c ∈ t, c ≠ '{' ∧ c ≠ '}') : '}' ∉ t := fun hc => (h _ hc).2 rfl

theorem value_nil (eval : Text → Text) (t : Text) : Value.value eval (.words [] t) = t := rfl

theorem value_cons (eval : Text → Text) (h : Head) (w t : Text) (heads : List (Spaced Head)) :
    Value.value eval (.words ((h, w) :: heads) t) =
      h.value eval ++ (if (heads = [] ∧ t = []) ∨ w = [] then [] else [' ']) ++ Value.value eval (.words heads t) := rfl

theorem value_cons_nil {eval} {h : Head} {w t : Text} (ht : t = []) : Value.value eval (.words [(h, w)] t) = h.value eval := by
  subst ht
  simp [value_cons, value_nil]

/-- The values of the heads and the text, separated by spaces and glued. -/
theorem words_txt {eval : Text → Text} {look : Text → Option Text} : ∀ {heads : List (Spaced Head)} {t : Text} {ss : List Text},
    HeadsOk heads t → (heads = [] ∨ t ≠ [] → TextOk t) → List.Forall₂ (fun s (h : Spaced Head) => HeadTxt eval look s h.1) ss heads →
    Txt look (glue (join [' '] (ss ++ (if t = [] then [] else [t])))) (Value.value eval (.words heads t)) := by
  intro heads
  induction heads with
  | nil =>
    intro t ss _ ht h
    cases h
    have ht := ht (Or.inl rfl)
    rw [if_neg ht.solid.some]
    simp only [join, List.nil_append, List.intercalate_singleton]
    rw [glue_none (plain_close (plain_txt ht.plain))]
    rw [value_nil]
    exact Txt.plain (plain_txt ht.plain)
  | cons hw heads ih =>
    obtain ⟨h, w⟩ := hw
    intro t ss hh ht hs
    obtain ⟨hOk, hblank, hh'⟩ := headsOk_tail hh
    cases hs with
    | @cons s _ ss _ hs hss =>
    dsimp only at hs
    by_cases hend : heads = [] ∧ t = []
    · obtain ⟨rfl, rfl⟩ := hend
      cases hss
      rw [value_cons_nil rfl]
      simp only [if_true, join, List.append_nil, List.intercalate_singleton]
      cases h with
      | expr before e after =>
        obtain ⟨k, h1, h2, h3, rfl⟩ := hs
        rw [show '{' :: k ++ ['}'] = ('{' :: k) ++ ['}'] from rfl, glue_skip (by simpa using plain_close h2), glue_miss (by decide), show glue [] = [] from rfl]
        have := Txt.arg h1 h2 h3 .nil
        simpa [Head.value] using this
      | color d =>
        cases hs
        have hp : ∀ c ∈ '#' :: d, c ≠ '{' ∧ c ≠ '}' := by
          intro c hc
          rcases List.mem_cons.1 hc with rfl | hc
          · decide
          · exact hex_plain (hOk.2 c hc)
        rw [glue_none (plain_close hp)]
        exact Txt.plain hp
      | small t' =>
        cases hs
        have hp := plain_txt (small_plain hOk)
        rw [glue_none (plain_close hp)]
        exact Txt.plain hp
    · -- something follows
      have ht' : heads = [] ∨ t ≠ [] → TextOk t := by
        rintro (e | e)
        · exact ht (Or.inr fun e' => hend ⟨e, e'⟩)
        · exact ht (Or.inr e)
      have ih := ih hh' ht' hss
      have hne : ss ++ (if t = [] then [] else [t]) ≠ [] := by
        intro e
        rw [List.append_eq_nil_iff] at e
        apply hend
        constructor
        · rw [e.1] at hss; cases hss; rfl
        · by_contra hc
          rw [if_neg hc] at e
          cases e.2
      have ej : join [' '] (s :: ss ++ (if t = [] then [] else [t])) = s ++ ' ' :: join [' '] (ss ++ (if t = [] then [] else [t])) := by
        unfold join
        rw [List.cons_append]
        cases hl : ss ++ (if t = [] then [] else [t]) with
        | nil => exact absurd hl hne
        | cons a l => simp
      rw [ej, value_cons]
      generalize hJ : join [' '] (ss ++ (if t = [] then [] else [t])) = J at ih
      have hfirst : heads ≠ [] → ∃ c J', J = c :: J' ∧ c ≠ 'p' := by
        intro hc
        cases hss with
        | nil => exact absurd rfl hc
        | @cons s' h' ss' heads' hs' hss' =>
          have : ∃ c s'', s' = c :: s'' ∧ c ≠ 'p' := by
            obtain ⟨h', w'⟩ := h'
            cases h' with
            | expr b e a =>
              obtain ⟨k, _, _, _, rfl⟩ := hs'
              exact ⟨'{', _, rfl, by decide⟩
            | color d => cases hs'; exact ⟨'#', _, rfl, by decide⟩
            | small t' =>
              cases hs'
              obtain ⟨r, rfl | rfl⟩ := small_first (headsOk_tail hh').1
              · exact ⟨'r', _, rfl, by decide⟩
              · exact ⟨'h', _, rfl, by decide⟩
          obtain ⟨c, s'', rfl, hc⟩ := this
          have : ∃ r, J = c :: s'' ++ r := by
            rw [← hJ, List.cons_append]
            unfold join
            generalize ss' ++ (if t = [] then [] else [t]) = l
            cases l with
            | nil => exact ⟨[], by simp⟩
            | cons a l => exact ⟨' ' :: [' '].intercalate (a :: l), by simp⟩
          obtain ⟨r, e⟩ := this
          exact ⟨c, s'' ++ r, e, hc⟩
      have hlast : heads = [] → J = t := by
        rintro rfl
        cases hss
        rw [← hJ, if_neg (fun e => hend ⟨rfl, e⟩)]
        simp [join]
      cases h with
      | color d =>
        cases hs
        have hp : ∀ c ∈ '#' :: (d ++ [' ']), c ≠ '{' ∧ c ≠ '}' := by
          intro c hc
          rcases List.mem_cons.1 hc with rfl | hc
          · decide
          · rcases List.mem_append.1 hc with hc | hc
            · exact hex_plain (hOk.2 c hc)
            · simp at hc; subst hc; decide
        have hw : ¬ ((heads = [] ∧ t = []) ∨ w = []) := by
          rintro (e | e)
          · exact hend e
          · cases heads with
            | nil => exact ((hh.2.2 (fun e' => hend ⟨rfl, e'⟩)).1 e)
            | cons a l => exact hh.2.2.1 e
        rw [if_neg hw, show '#' :: d ++ ' ' :: J = '#' :: (d ++ [' ']) ++ J by simp, glue_skip (plain_close hp)]
        exact (Txt.plain hp).append ih
      | small t' =>
        cases hs
        have hp : ∀ c ∈ s ++ [' '], c ≠ '{' ∧ c ≠ '}' := by
          intro c hc
          rcases List.mem_append.1 hc with hc | hc
          · exact plain_txt (small_plain hOk) c hc
          · simp at hc; subst hc; decide
        have hw : ¬ ((heads = [] ∧ t = []) ∨ w = []) := by
          rintro (e | e)
          · exact hend e
          · cases heads with
            | nil => exact hh.2.2 (fun e' => hend ⟨rfl, e'⟩) e
            | cons a l => exact hh.2.2.1 e
        rw [if_neg hw, show s ++ ' ' :: J = s ++ [' '] ++ J by simp, glue_skip (plain_close hp)]
        exact (Txt.plain hp).append ih
      | expr before e after =>
        obtain ⟨k, h1, h2, h3, rfl⟩ := hs
        rw [show '{' :: k ++ ['}'] ++ ' ' :: J = ('{' :: k) ++ '}' :: ' ' :: J by simp, glue_skip (by simpa using plain_close h2)]
        by_cases hpx : ∃ t', heads = [] ∧ t = 'p' :: 'x' :: t'
        · obtain ⟨t', rfl, rfl⟩ := hpx
          have hw : w = [] := (hh.2.2 (by simp)).2 ⟨t', rfl⟩
          have hp := plain_txt (ht (Or.inr (by simp))).plain
          rw [hlast rfl, glue_hit, glue_none (plain_close fun c hc => hp c (by simp [hc])), if_pos (Or.inr hw)]
          rw [value_nil]
          have := Txt.arg h1 h2 h3 (Txt.plain hp)
          simpa [Head.value] using this
        · have hmiss : ¬ " px".toList <+: ' ' :: J := by
            rintro ⟨r, e⟩
            have e : J = 'p' :: 'x' :: r := by
              have : ' ' :: J = ' ' :: 'p' :: 'x' :: r := e.symm
              cases this; rfl
            by_cases hc : heads = []
            · exact hpx ⟨r, hc, by rw [← hlast hc, e]⟩
            · obtain ⟨c, J', e', hc'⟩ := hfirst hc
              rw [e] at e'
              cases e'
              exact hc' rfl
          have hw : ¬ ((heads = [] ∧ t = []) ∨ w = []) := by
            rintro (e | e)
            · exact hend e
            · cases heads with
              | nil =>
                obtain ⟨r, er⟩ := ((hh.2.2 (fun e' => hend ⟨rfl, e'⟩)).1 e)
                exact hpx ⟨r, rfl, er.symm⟩
              | cons a l => exact hh.2.2.1 e
          rw [glue_miss hmiss, if_neg hw, show ' ' :: J = [' '] ++ J from rfl, glue_skip (by decide)]
          have := Txt.arg h1 h2 h3 ((Txt.plain (look := look) (t := [' ']) (by decide)).append ih)
          simpa [Head.value] using this

theorem textVals_gen (eval : Text → Text) (t : Text) :
    Gen eval (each genVal (textVals t)) (fun _ ts => ts = if t = [] then [] else [t]) [] [] := by
  unfold textVals
  by_cases h : t = []
  · rw [if_pos h, if_pos h]
    exact gen_pure fun _ => rfl
  · rw [if_neg h, if_neg h]
    exact gen_pure fun _ => rfl

theorem flatMap_nil_right {α β : Type} (l : List α) : l.flatMap (fun _ => ([] : List β)) = [] := by
  induction l with
  | nil => rfl
  | cons a l ih => simp

theorem value_gen {eval : Text → Text} {v : Value} (h : v.Ok) :
    Gen eval (fun st => (each genVal v.vals st).map fun (vs, st) => (glue (join [' '] vs), st))
      (fun look t => Txt look t (v.value eval)) v.exprs [] := by
  cases v with
  | words heads t =>
    have h1 : Gen eval (each genVal (heads.map fun h => h.1.val))
        (fun look ss => List.Forall₂ (fun s (h : Spaced Head) => HeadTxt eval look s h.1) ss heads) (heads.flatMap fun (h, _) => h.exprs) [] := by
      rw [each_map]
      have := gen_each (f := fun c : Spaced Head => genVal c.1.val) (R := fun look s (h : Spaced Head) => HeadTxt eval look s h.1)
        (es := fun h => h.1.exprs) (ns := fun _ => []) heads (fun h _ => head_gen eval h.1)
      rw [flatMap_nil_right] at this
      exact this
    have h2 := gen_seq (k := fun a b => a ++ b) (R'' := fun look ss => Txt look (glue (join [' '] ss)) (Value.value eval (.words heads t)))
      (fun st a st1 b st2 e1 e2 => each_append e1 e2) h1 (textVals_gen eval t) (by
        intro look a b ha hb
        rw [hb]
        exact words_txt h.1 h.2 ha)
    rw [List.append_nil, List.append_nil] at h2
    refine gen_map (fun vs => glue (join [' '] vs)) ?_ h2 fun look a ha => ha
    intro st a st' e
    have e : each genVal (Value.words heads t).vals st = some (a, st') := e
    simp only [e, Option.map_some]
  | url w before e0 after w' =>
    obtain ⟨e, he⟩ : ∃ e, e = e0 := ⟨_, rfl⟩
    subst he
    have h1 : Gen eval (each genVal [.url e]) (fun look ts => ∃ k : Text, k ≠ [] ∧ (∀ c ∈ k, c ≠ '{' ∧ c ≠ '}') ∧ look k = some (eval e) ∧
        ts = ["url('".toList ++ ('{' :: k ++ ['}']) ++ "')".toList]) [e] [] := by
      have := gen_each (f := genVal) (R := fun look t _ => ∃ k : Text, k ≠ [] ∧ (∀ c ∈ k, c ≠ '{' ∧ c ≠ '}') ∧ look k = some (eval e) ∧
        t = "url('".toList ++ ('{' :: k ++ ['}']) ++ "')".toList) (es := fun _ => [e]) (ns := fun _ => []) [.url e] (by
          intro v hv
          simp only [List.mem_singleton] at hv
          subst hv
          refine gen_map (fun k => "url('".toList ++ k ++ "')".toList) ?_ (insert_gen eval e) ?_
          · intro st a st' e
            simp only [genVal, e, Option.map_some]
          · rintro look a ⟨k, h1, h2, h3, rfl⟩
            exact ⟨k, h1, h2, h3, rfl⟩)
      intro st hp hl
      obtain ⟨b, st', h1, h2, h3, h4, h5, h6, h7, h8⟩ := this st hp hl
      refine ⟨b, st', h1, h2, h3, h4, h5, h6, h7, fun look hl => ?_⟩
      have := h8 look hl
      cases this with
      | cons h h' =>
        cases h'
        obtain ⟨k, g1, g2, g3, rfl⟩ := h
        exact ⟨k, g1, g2, g3, rfl⟩
    refine gen_map (fun vs => glue (join [' '] vs)) (fun st a st' e => by
      have e : each genVal (Value.url w before _ after w').vals st = some (a, st') := e
      simp only [e, Option.map_some]) h1 ?_
    rintro look _ ⟨k, h1, h2, h3, rfl⟩
    have e1 : glue (join [' '] ["url('".toList ++ ('{' :: k ++ ['}']) ++ "')".toList]) = "url('".toList ++ '{' :: (k ++ '}' :: "')".toList) := by
      unfold join
      rw [List.intercalate_singleton, List.append_assoc, glue_skip (by decide), show '{' :: k ++ ['}'] ++ "')".toList = ('{' :: k) ++ '}' :: "')".toList by simp,
        glue_skip (by simpa using plain_close h2), glue_miss (by decide), glue_none (by decide)]
      rfl
    rw [show Value.value eval (.url w before e after w') = "url('".toList ++ eval e ++ "')".toList by simp only [Value.value]]
    rw [e1, List.append_assoc]
    exact (Txt.plain (by decide)).append (Txt.arg h1 h2 h3 (Txt.plain (by decide)))
  | quoted w q s w' =>
    obtain ⟨h1, h2, h3, h4, h5, h6⟩ := h
    have hp : ∀ c ∈ (Value.quoted w q s w').written, c ≠ '{' ∧ c ≠ '}' := by
      have hw : ∀ w : Text, Blank w → ∀ c ∈ w, c ≠ '{' ∧ c ≠ '}' := by
        intro w hw c hc
        rcases hw c hc with rfl | rfl | rfl | rfl <;> decide
      intro c hc
      simp only [Value.written, List.mem_append, List.mem_cons, List.not_mem_nil, or_false] at hc
      rcases hc with (((hc | hc) | (rfl | hc) | rfl) | hc) | rfl
      · revert c; decide
      · exact hw w h1 c hc
      · rcases h2 with rfl | rfl <;> decide
      · exact plain_txt h4 c hc
      · rcases h2 with rfl | rfl <;> decide
      · exact hw w' h6 c hc
      · decide
    have e : (fun st : St => (each genVal (Value.quoted w q s w').vals st).map fun (vs, st) => (glue (join [' '] vs), st)) =
        fun st => some (glue (join [' '] [(Value.quoted w q s w').written]), st) := by
      funext st; rfl
    rw [e]
    refine gen_pure fun look => ?_
    unfold join
    rw [List.intercalate_singleton, glue_none (plain_close hp), show Value.value eval (.quoted w q s w') = (Value.quoted w q s w').written by
      simp only [Value.value]]
    exact Txt.plain hp

/-! ### Rules -/

theorem decl_gen {eval : Text → Text} {d : Declaration} (h : d.Ok) :
    Gen eval (genDecl d.decl) (fun look t => Txt look t (d.out eval)) d.value.exprs [] := by
  refine gen_map (fun t => d.name ++ ": ".toList ++ t ++ [';']) ?_ (value_gen h.value) fun look t ht => ?_
  · intro st a st' e
    rw [Option.map_eq_some_iff] at e
    obtain ⟨⟨vs, st1⟩, e1, e2⟩ := e
    cases e2
    unfold genDecl Declaration.decl
    simp only [e1, Option.map_some]
  refine (((Txt.plain ?_).append (Txt.plain (by decide))).append ht).append (Txt.plain (by decide))
  intro c hc
  constructor <;> rintro rfl <;> exact absurd (h.name _ hc) (by decide)

theorem txt_open {look} : Txt look " {{ ".toList " { ".toList :=
  .char (by decide) (by decide) (.opn (.char (by decide) (by decide) .nil))

theorem txt_close {look} : Txt look " }}".toList " }".toList := .char (by decide) (by decide) (.cls .nil)

theorem txt_end {look} : Txt look " }};".toList " };".toList :=
  .char (by decide) (by decide) (.cls (.char (by decide) (by decide) .nil))

theorem frame_gen {eval : Text → Text} {f : Frame} (h : f.Ok) :
    Gen eval (genFrame f.frame) (fun look t => Txt look t (f.out eval)) (f.decls.flatMap fun (d, _) => d.value.exprs) [] := by
  have h1 := gen_each (f := fun d : Spaced Declaration => genDecl d.1.decl) (R := fun look t (d : Spaced Declaration) => Txt look t (d.1.out eval))
    (es := fun d => d.1.value.exprs) (ns := fun _ => []) f.decls (fun d hd => decl_gen (h.decls d hd).1)
  rw [flatMap_nil_right, ← each_map] at h1
  refine gen_map (fun rules => f.frame.1 ++ " {{ ".toList ++ join ['\n'] rules ++ " }}".toList) (fun st a st' e => by
    have e : each genDecl f.frame.2 st = some (a, st') := e
    simp only [genFrame, e, Option.map_some]) h1 fun look ts hts => ?_
  have e : f.out eval = f.step ++ ['%'] ++ " { ".toList ++ ['\n'].intercalate (f.decls.map fun d => d.1.out eval) ++ " }".toList := by
    simp [Frame.out]
  rw [e]
  refine (((Txt.plain ?_).append txt_open).append (txt_join (by decide) hts)).append txt_close
  intro c hc
  rcases List.mem_append.1 hc with hc | hc
  · have := h.step.2 c hc
    constructor <;> rintro rfl <;> revert this <;> decide
  · simp at hc; subst hc; decide

theorem animation_gen {eval : Text → Text} {a : Animation} (h : a.Ok) :
    Gen eval (genRule a.rule) (fun look t => Txt look t (a.out eval)) a.exprs [] := by
  obtain ⟨w1, w2, params, w3, frames, w4⟩ := a
  have hp := plain_txt h.params.2.1
  dsimp only at hp
  cases frames with
  | none =>
    have e : genRule (Animation.rule ⟨w1, w2, params, w3, none, w4⟩) = fun st => some ("animation: ".toList ++ params ++ [';'], st) := by
      funext st
      simp only [Animation.rule, Option.map_none, genRule, genAnimation]
    rw [e]
    refine gen_pure fun look => ?_
    have e : Animation.out eval ⟨w1, w2, params, w3, none, w4⟩ = "animation: ".toList ++ params ++ [';'] := by
      unfold Animation.out
      dsimp only
      rw [List.append_nil]
    rw [e]
    exact ((Txt.plain (by decide)).append (Txt.plain hp)).append (Txt.plain (by decide))
  | some lf =>
    obtain ⟨lead, fs⟩ := lf
    have hf := (h.frames (lead, fs) rfl).2.2
    dsimp only at hf
    have h1 := gen_each (f := fun f : Spaced Frame => genFrame f.1.frame) (R := fun look t (f : Spaced Frame) => Txt look t (f.1.out eval))
      (es := fun f => f.1.decls.flatMap fun (d, _) => d.value.exprs) (ns := fun _ => []) fs (fun f hf' => frame_gen (hf f hf').1)
    rw [flatMap_nil_right, ← each_map] at h1
    refine gen_map (fun fs => "animation: ".toList ++ join [' '] [params, "{{ ".toList ++ join ['\n'] fs ++ " }}".toList] ++ [';'])
      (fun st a st' e => by
        simp only [Animation.rule, Option.map_some, genRule, genAnimation, e]) h1 fun look ts hts => ?_
    have e : Animation.out eval ⟨w1, w2, params, w3, some (lead, fs), w4⟩ =
        "animation: ".toList ++ (params ++ (" { ".toList ++ ['\n'].intercalate (fs.map fun f => f.1.out eval) ++ " }".toList)) ++ [';'] := by
      unfold Animation.out framesOut
      dsimp only
      generalize "animation: ".toList = p
      simp
    have e2 : join [' '] [params, "{{ ".toList ++ join ['\n'] ts ++ " }}".toList] = params ++ (" {{ ".toList ++ join ['\n'] ts ++ " }}".toList) := by
      simp [join]
    rw [e, e2]
    exact ((Txt.plain (by decide)).append ((Txt.plain hp).append ((txt_open.append (txt_join (by decide) hts)).append txt_close))).append (Txt.plain (by decide))

theorem genRules_eq (rs : List Rule) : genRules rs = each genRule rs := by
  induction rs with
  | nil => funext st; simp only [genRules, each]
  | cons r rs ih =>
    funext st
    simp only [genRules, each, ih]
    cases genRule r st with
    | none => rfl
    | some x =>
      dsimp only
      cases each genRule rs x.2 with
      | none => rfl
      | some y => rfl

/-- How a reference is written. -/
def mark (name : Text) : Text := '[' :: name ++ [']']

theorem bracket_alnum {c : Char} (h : c.isAlphanum = true ∨ c = '_') : bracket c = false := by
  unfold bracket
  simp only [Bool.or_eq_false_iff, decide_eq_false_iff_not]
  constructor <;> rintro rfl <;> revert h <;> decide

theorem dropBrackets {n s : Text} (h : RefOk n) : (n ++ s).dropWhile bracket = n ++ s := by
  obtain ⟨h1, h2⟩ := h
  cases n with
  | nil => exact absurd rfl h1
  | cons c n => simp [bracket_alnum (h2 c (by simp))]

theorem refName_mark {n : Text} (h : RefOk n) : refName (mark n) = n := by
  have hr : RefOk n.reverse := ⟨by simpa using h.1, by simpa using h.2⟩
  have e1 : (mark n).dropWhile bracket = n ++ [']'] := by
    unfold mark
    rw [List.cons_append, List.dropWhile_cons, if_pos (by decide), dropBrackets h]
  have e2 := dropBrackets (s := []) hr
  rw [List.append_nil] at e2
  unfold refName
  rw [e1]
  simp only [List.reverse_append, List.reverse_cons, List.reverse_nil, List.nil_append, List.singleton_append]
  rw [List.dropWhile_cons, if_pos (by decide), e2, List.reverse_reverse]

theorem genSels_refs (refs : List (Text × Text)) (h : ∀ r ∈ refs, RefOk r.2) : ∀ st,
    genSels (refs.map fun r => .ref ('[' :: r.2 ++ [']'])) st = (refs.map fun r => mark r.2, { st with refs := st.refs ++ refs.map (·.2) }) := by
  induction refs with
  | nil => intro st; simp [genSels]
  | cons r refs ih =>
    intro st
    have e := refName_mark (h r (by simp))
    unfold mark at e
    simp only [List.map_cons, genSels, genSel, e, ih fun r hr => h r (by simp [hr])]
    simp [mark]

theorem pseudo_plain {p : Pseudo} (h : p.Ok) : ∀ c ∈ p.written, c ≠ '{' ∧ c ≠ '}' := by
  intro c hc
  simp only [Pseudo.written, List.cons_append, List.mem_cons, List.mem_append, List.mem_flatten, List.mem_map] at hc
  rcases hc with rfl | hc | ⟨_, ⟨t, ht, rfl⟩, hc⟩
  · decide
  · exact plain_txt h.first.2.1 c hc
  · rcases List.mem_append.1 hc with hc | hc
    · clear h
      simp at hc
      subst hc
      decide
    · exact plain_txt (h.more t ht).2.1 c hc

theorem mark_plain {n : Text} (h : RefOk n) : ∀ c ∈ mark n, c ≠ '{' ∧ c ≠ '}' := by
  intro c hc
  simp only [mark, List.cons_append, List.mem_cons, List.mem_append, List.not_mem_nil, or_false] at hc
  rcases hc with rfl | hc | rfl
  · decide
  · have := h.2 c hc
    constructor <;> rintro rfl <;> revert this <;> decide
  · decide

/-- The texts of the selectors. -/
def Sub.texts (s : Sub) : List Text := s.first.out mark :: s.refs.map fun r => mark r.2

theorem sels_gen {eval : Text → Text} {s : Sub} (h : s.Ok) :
    Gen eval (fun st => some (genSels (s.first.sel :: s.refs.map fun r => .ref ('[' :: r.2 ++ [']'])) st)) (fun _ ts => ts = s.texts)
      [] s.names := by
  intro st h1 h2
  have hr := genSels_refs s.refs fun r hr => (h.refs r hr).2.2
  have e : genSels (s.first.sel :: s.refs.map fun r => .ref ('[' :: r.2 ++ [']'])) st = (s.texts, { st with refs := st.refs ++ s.names }) := by
    unfold Sub.texts Sub.names
    cases hf : s.first with
    | pseudo p => simp only [genSels, genSel, Selector.sel, hr, Selector.out, Selector.names, List.nil_append]
    | ref name =>
      have hn := h.first
      rw [hf] at hn
      have e := refName_mark hn
      unfold mark at e
      simp only [genSels, genSel, Selector.sel, e, hr, Selector.out, Selector.names]
      simp [mark]
  exact ⟨s.texts, { st with refs := st.refs ++ s.names }, by simp only [e], h1, by simp, List.prefix_rfl, by simp, fun _ => rfl, rfl, fun _ _ => rfl⟩

theorem join_texts (s : Sub) : join [' '] s.texts = s.selector mark := by
  unfold join Sub.texts Sub.selector
  generalize s.first.out mark = t
  induction s.refs generalizing t with
  | nil => simp
  | cons r refs ih =>
    have := ih (mark r.2)
    simp only [List.map_cons, List.intercalate_cons_cons, List.flatten_cons] at this ⊢
    rw [this]
    simp

theorem selector_txt {look} {s : Sub} (h : s.Ok) : Txt look (s.selector mark) (s.selector mark) := by
  apply Txt.plain
  intro c hc
  rcases List.mem_append.1 hc with hc | hc
  · have := h.first
    cases hf : s.first with
    | pseudo p => rw [hf] at hc this; exact pseudo_plain this c hc
    | ref n => rw [hf] at hc this; exact mark_plain this c hc
  · simp only [List.mem_flatten, List.mem_map] at hc
    obtain ⟨_, ⟨r, hr, rfl⟩, hc⟩ := hc
    rcases List.mem_cons.1 hc with rfl | hc
    · decide
    · exact mark_plain (h.refs r hr).2.2 c hc

theorem body_ok {ok : α → Prop} {b : Body α} (h : b.Ok ok) : ∀ a ∈ b.items, ok a := by
  intro a ha
  simp only [Body.items, List.mem_flatMap] at ha
  obtain ⟨⟨l, w⟩, hl, ha⟩ := ha
  have := (h.lines _ hl).1
  cases l with
  | comment b => cases ha
  | item a' =>
    simp only [Line.items, List.mem_singleton] at ha
    subst ha
    exact this

theorem sub_gen {eval : Text → Text} {s : Sub} (h : s.Ok) :
    Gen eval (genRule s.rule) (fun look t => Txt look t (s.out eval mark)) s.exprs s.names := by
  have h1 := gen_each (f := fun d : Declaration => genRule (.decl d.decl)) (R := fun look t (d : Declaration) => Txt look t (d.out eval))
    (es := fun d => d.value.exprs) (ns := fun _ => []) s.body.items (fun d hd => by
      have e : genRule (.decl d.decl) = genDecl d.decl := by funext st; simp only [genRule]
      rw [e]
      exact decl_gen (body_ok h.body d hd))
  rw [flatMap_nil_right, ← each_map (g := fun d : Declaration => Rule.decl d.decl) (f := genRule), ← genRules_eq] at h1
  have h2 := gen_seq (k := fun ss ts => if ss = [] then [] else join [' '] ss ++ " {{ ".toList ++ join ['\n'] ts ++ " }};".toList)
    (F := genRule s.rule) (R'' := fun look t => Txt look t (s.out eval mark)) (by
      intro st a st1 b st2 e1 e2
      simp only [Option.some.injEq] at e1
      simp only [Sub.rule, genRule, e1, e2, Option.map_some]) (sels_gen (eval := eval) h) h1 (by
      intro look ss ts hs ht
      rw [hs, if_neg (by simp [Sub.texts]), join_texts]
      exact (((selector_txt h).append txt_open).append (txt_join (by decide) ht)).append txt_end)
  rw [List.nil_append, List.append_nil] at h2
  exact h2

theorem entry_gen {eval : Text → Text} {e : Entry} (h : e.Ok) :
    Gen eval (genRule e.rule) (fun look t => Txt look t (e.out eval mark)) e.exprs e.names := by
  cases e with
  | decl d =>
    have e : genRule (Entry.decl d).rule = genDecl d.decl := by funext st; simp only [Entry.rule, genRule]
    rw [e]
    exact decl_gen h
  | sub s => exact sub_gen h

theorem media_gen {eval : Text → Text} {m : Media} (h : m.Ok) :
    Gen eval (genRule m.rule) (fun look t => Txt look t (m.out eval mark)) (m.body.items.flatMap Entry.exprs) (m.body.items.flatMap Entry.names) := by
  have h1 := gen_each (f := fun e : Entry => genRule e.rule) (R := fun look t (e : Entry) => Txt look t (e.out eval mark))
    (es := Entry.exprs) (ns := Entry.names) m.body.items (fun e he => entry_gen (body_ok h.body e he))
  rw [← each_map (g := Entry.rule) (f := genRule), ← genRules_eq] at h1
  refine gen_map (fun ts => "@media ".toList ++ m.query ++ " {{ ".toList ++ join [' '] ts ++ " }};".toList) (fun st a st' e => by
    simp only [Media.rule, genRule, e, Option.map_some]) h1 fun look ts hts => ?_
  exact ((((Txt.plain (by decide)).append (Txt.plain (plain_txt h.query.2))).append txt_open).append (txt_join (by decide) hts)).append txt_end

theorem part_gen {eval : Text → Text} {p : Part} (h : p.Ok) :
    Gen eval (genRule p.rule) (fun look t => Txt look t (p.out eval mark)) p.exprs p.names := by
  cases p with
  | entry e => exact entry_gen h
  | animation a => exact animation_gen h
  | media m => exact media_gen h

/-! ### References -/

/-- A text with references in it. -/
def Mixed (F : (Text → Text) → Text) (ns : List Text) : Prop :=
  ∃ segs : List (Text ⊕ Text), (∀ ref, F ref = (segs.map (Sum.elim id ref)).flatten) ∧ ∀ n, Sum.inr n ∈ segs → n ∈ ns

theorem mixed_const (t : Text) : Mixed (fun _ => t) [] := ⟨[.inl t], by simp, by simp⟩

theorem mixed_ref (n : Text) : Mixed (fun ref => ref n) [n] := ⟨[.inr n], by simp, by simp⟩

theorem mixed_append {F G : (Text → Text) → Text} {ns ms : List Text} (h : Mixed F ns) (h' : Mixed G ms) :
    Mixed (fun ref => F ref ++ G ref) (ns ++ ms) := by
  obtain ⟨s1, e1, h1⟩ := h
  obtain ⟨s2, e2, h2⟩ := h'
  refine ⟨s1 ++ s2, fun ref => by simp [e1, e2], fun n hn => ?_⟩
  rcases List.mem_append.1 hn with hn | hn
  · exact List.mem_append_left _ (h1 n hn)
  · exact List.mem_append_right _ (h2 n hn)

theorem mixed_join {F : α → (Text → Text) → Text} {ns : α → List Text} (sep : Text) (l : List α) (h : ∀ a ∈ l, Mixed (F a) (ns a)) :
    Mixed (fun ref => sep.intercalate (l.map fun a => F a ref)) (l.flatMap ns) := by
  induction l with
  | nil => exact mixed_const []
  | cons a l ih =>
    have ih := ih fun b hb => h b (by simp [hb])
    cases l with
    | nil => simpa using h a (by simp)
    | cons b l =>
      have := mixed_append (mixed_append (h a (by simp)) (mixed_const sep)) ih
      simpa [List.intercalate_cons_cons] using this

theorem mixed_sub (eval : Text → Text) (s : Sub) : Mixed (fun ref => s.out eval ref) s.names := by
  have h1 : Mixed (fun ref => s.first.out ref) s.first.names := by
    cases s.first with
    | pseudo p => exact mixed_const _
    | ref n => exact mixed_ref n
  have h2 : Mixed (fun ref => (s.refs.map fun (_, name) => ' ' :: ref name).flatten) (s.refs.map (·.2)) := by
    induction s.refs with
    | nil => exact mixed_const []
    | cons r refs ih =>
      have := mixed_append (mixed_append (mixed_const [' ']) (mixed_ref r.2)) ih
      simpa using this
  have := mixed_append (mixed_append h1 h2) (mixed_const (" { ".toList ++ s.rules eval ++ " };".toList))
  rw [List.append_nil] at this
  simpa [Sub.out, Sub.selector, Sub.names] using this

theorem mixed_entry (eval : Text → Text) (e : Entry) : Mixed (fun ref => e.out eval ref) e.names := by
  cases e with
  | decl d => exact mixed_const _
  | sub s => exact mixed_sub eval s

theorem mixed_part (eval : Text → Text) (p : Part) : Mixed (fun ref => p.out eval ref) p.names := by
  cases p with
  | entry e => exact mixed_entry eval e
  | animation a => exact mixed_const _
  | media m =>
    have h := mixed_join [' '] m.body.items fun e _ => mixed_entry eval e
    have := mixed_append (mixed_append (mixed_const ("@media ".toList ++ m.query ++ " { ".toList)) h) (mixed_const " };".toList)
    rw [List.append_nil, List.nil_append] at this
    exact this

theorem mixed_block (eval : Text → Text) (b : Block) : Mixed (fun ref => b.out eval ref) b.names :=
  mixed_join ['\n'] b.items fun p _ => mixed_part eval p

theorem mark_prefix {n m s : Text} (hn : RefOk n) (hm : RefOk m) (h : n ++ [']'] <+: m ++ ']' :: s) : n = m := by
  have close : ∀ {c : Char}, (c.isAlphanum = true ∨ c = '_') → c ≠ ']' := by
    rintro c h rfl
    revert h; decide
  replace hn := hn.2
  replace hm := hm.2
  induction n generalizing m with
  | nil =>
    cases m with
    | nil => rfl
    | cons d m =>
      obtain ⟨r, e⟩ := h
      cases e
      exact absurd rfl (close (hm ']' (by simp)))
  | cons c n ih =>
    cases m with
    | nil =>
      obtain ⟨r, e⟩ := h
      cases e
      exact absurd rfl (close (hn ']' (by simp)))
    | cons d m =>
      rw [List.cons_append, List.cons_append, List.cons_prefix_cons] at h
      obtain ⟨rfl, h⟩ := h
      rw [ih h (fun x hx => hn x (List.mem_cons_of_mem _ hx)) (fun x hx => hm x (List.mem_cons_of_mem _ hx))]

/-- The references in `done` are replaced. -/
def state (cls : Text → Text) (done : List Text) (n : Text) : Text := if n ∈ done then '.' :: cls n else mark n

theorem replace_one {cls : Text → Text} {done : List Text} {n : Text} (hn : RefOk n) (segs : List (Text ⊕ Text))
    (h1 : ∀ t, Sum.inl t ∈ segs → '[' ∉ t) (h2 : ∀ m, Sum.inr m ∈ segs → RefOk m ∧ '[' ∉ cls m) :
    replaceAll ('[' :: n ++ [']']) ('.' :: cls n) (segs.map (Sum.elim id (state cls done))).flatten =
      (segs.map (Sum.elim id (state cls (done ++ [n])))).flatten := by
  induction segs with
  | nil => rfl
  | cons x segs ih =>
    have ih := ih (fun t ht => h1 t (by simp [ht])) (fun t ht => h2 t (by simp [ht]))
    simp only [List.map_cons, List.flatten_cons]
    rw [List.cons_append] at ih ⊢
    cases x with
    | inl t => rw [Sum.elim_inl, Sum.elim_inl, id, replace_skip (h1 t (by simp)), ih]
    | inr m =>
      obtain ⟨hm, hc⟩ := h2 m (by simp)
      rw [Sum.elim_inr, Sum.elim_inr]
      by_cases hd : m ∈ done
      · have e1 : state cls done m = '.' :: cls m := if_pos hd
        have e2 : state cls (done ++ [n]) m = '.' :: cls m := if_pos (by simp [hd])
        rw [e1, e2, replace_skip (by simpa using hc), ih]
      · have e1 : state cls done m = mark m := if_neg hd
        rw [e1]
        by_cases he : m = n
        · subst he
          have e2 : state cls (done ++ [m]) m = '.' :: cls m := if_pos (by simp)
          rw [e2, mark, List.cons_append, replace_hit, ih]
        · have e2 : state cls (done ++ [n]) m = mark m := if_neg (by simp [hd, he])
          have hnb : '[' ∉ m ++ [']'] := by
            intro h
            rcases List.mem_append.1 h with h | h
            · have := hm.2 _ h
              revert this; decide
            · simp at h
          rw [e2, mark, List.cons_append, List.cons_append, replace_miss, replace_skip hnb, ih]
          · rfl
          · intro h
            exact he (mark_prefix hn hm (by simpa using h)).symm

theorem replace_refs {cls : Text → Text} (segs : List (Text ⊕ Text))
    (h1 : ∀ t, Sum.inl t ∈ segs → '[' ∉ t) (h2 : ∀ m, Sum.inr m ∈ segs → RefOk m ∧ '[' ∉ cls m) : ∀ (ns done : List Text), (∀ n ∈ ns, RefOk n) →
    replaceRefs cls ns (segs.map (Sum.elim id (state cls done))).flatten = (segs.map (Sum.elim id (state cls (done ++ ns)))).flatten := by
  intro ns
  induction ns with
  | nil => intro done _; simp [replaceRefs]
  | cons n ns ih =>
    intro done hr
    rw [replaceRefs, replace_one (hr n (by simp)) segs h1 h2, ih (done ++ [n]) fun m hm => hr m (by simp [hm])]
    simp

theorem mixed_replace {F : (Text → Text) → Text} {ns : List Text} (h : Mixed F ns) (hr : ∀ n ∈ ns, RefOk n) {cls : Text → Text}
    (h1 : '[' ∉ F fun _ => []) (h2 : ∀ n ∈ ns, '[' ∉ cls n) : replaceRefs cls ns (F mark) = F fun n => '.' :: cls n := by
  obtain ⟨segs, e, hs⟩ := h
  have hl : ∀ t, Sum.inl t ∈ segs → '[' ∉ t := by
    intro t ht hc
    apply h1
    rw [e]
    exact List.mem_flatten.2 ⟨t, List.mem_map.2 ⟨.inl t, ht, rfl⟩, hc⟩
  have := replace_refs segs hl (fun m hm => ⟨hr m (hs m hm), h2 m (hs m hm)⟩) ns [] hr
  rw [e, e]
  have e1 : state cls [] = mark := by funext n; simp [state]
  rw [e1] at this
  rw [this]
  congr 1
  apply List.map_congr_left
  intro x hx
  cases x with
  | inl t => rfl
  | inr n => simp [state, hs n hx]

/-! ### The macro -/

theorem names_ok {b : Block} (h : b.Ok Part.Ok) : ∀ n ∈ b.names, RefOk n := by
  intro n hn
  have hsub : ∀ s : Sub, s.Ok → n ∈ s.names → RefOk n := by
    intro s hs hn
    rcases List.mem_append.1 hn with hn | hn
    · have := hs.first
      cases hf : s.first with
      | pseudo p => rw [hf] at hn; cases hn
      | ref m =>
        rw [hf] at hn this
        simp only [Selector.names, List.mem_singleton] at hn
        subst hn
        exact this
    · obtain ⟨r, hr, rfl⟩ := List.mem_map.1 hn
      exact (hs.refs r hr).2.2
  have hentry : ∀ e : Entry, e.Ok → n ∈ e.names → RefOk n := by
    intro e he hn
    cases e with
    | decl d => cases hn
    | sub s => exact hsub s he hn
  obtain ⟨p, hp, hn⟩ := List.mem_flatMap.1 hn
  have := body_ok h p hp
  cases p with
  | entry e => exact hentry e this hn
  | animation a => cases hn
  | media m =>
    obtain ⟨e, he, hn⟩ := List.mem_flatMap.1 hn
    exact hentry e (body_ok this.body e he) hn

theorem css_block {b : Block} (h : b.Ok Part.Ok) (hsize : b.exprs.length ≤ 676) (eval cls : Text → Text)
    (hrefs : b.names = [] ∨ '[' ∉ b.out eval (fun _ => []) ∧ ∀ n ∈ b.names, '[' ∉ cls n) :
    css eval cls b.text = some (!b.exprs.isEmpty || !b.names.isEmpty, b.out eval fun n => '.' :: cls n) := by
  have hg := gen_each (f := fun p : Part => genRule p.rule) (R := fun look t (p : Part) => Txt look t (p.out eval mark))
    (es := Part.exprs) (ns := Part.names) b.items (fun p hp => part_gen (body_ok h p hp))
  rw [← each_map (g := Part.rule) (f := genRule), ← genRules_eq] at hg
  obtain ⟨ts, st, e, h1, h2, h3, h4, h5, h6, h7⟩ := hg ⟨[], []⟩ ⟨by simp, by simp⟩ (by simpa [Block.exprs] using hsize)
  have hemp : st.params = [] ↔ b.exprs = [] := ⟨fun e => by by_contra hc; exact h4 hc e, fun e => by simpa using h5 e⟩
  have hfinal : replaceRefs cls st.refs (b.out eval mark) = b.out eval fun n => '.' :: cls n := by
    rw [h6, List.nil_append]
    rcases hrefs with hn | ⟨hr1, hr2⟩
    · have hn' : b.items.flatMap Part.names = [] := hn
      rw [hn', replaceRefs]
      obtain ⟨segs, e, hs⟩ := mixed_block eval b
      dsimp only at e
      rw [e, e]
      congr 1
      apply List.map_congr_left
      intro x hx
      cases x with
      | inl t => rfl
      | inr n => have := hs n hx; rw [hn] at this; cases this
    · exact mixed_replace (mixed_block eval b) (names_ok h) hr1 hr2
  have hflag : (!st.params.isEmpty || !st.refs.isEmpty) = (!b.exprs.isEmpty || !b.names.isEmpty) := by
    rw [h6, List.nil_append]
    congr 2
    rw [Bool.eq_iff_iff, List.isEmpty_iff, List.isEmpty_iff]
    exact hemp
  have hout : (if st.params = [] then some (replaceAll "}}".toList "}".toList (replaceAll "{{".toList "{".toList (join ['\n'] ts)))
      else fmt (argument eval st.params) none (join ['\n'] ts)) = some (b.out eval mark) := by
    by_cases hp : st.params = []
    · rw [if_pos hp]
      have := txt_join (sep := ['\n']) (by decide) (h7 (fun _ => none) (by simp [hp]))
      rw [Half.eq this.half]
      rfl
    · rw [if_neg hp]
      have := txt_join (sep := ['\n']) (by decide) (h7 (argument eval st.params) fun p hp => params_find h1 hp eval)
      rw [this.fmt]
      rfl
  unfold css
  rw [parse_block h]
  dsimp only
  rw [e]
  dsimp only
  rw [hout, Option.map_some, hfinal, hflag]

end Verif.Css.Macro

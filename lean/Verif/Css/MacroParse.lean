import Verif.Css.Macro
import Verif.Css.MacroSpec
/-!
# C60: the macro reads what is written
-/
namespace Verif.Css.Macro

/-! ### White space -/

theorem ws_iff {c : Char} : ws c = true ↔ Space c := by
  simp [ws, Space, or_assoc]

theorem not_ws {c : Char} (h : ¬ Space c) : ws c = false := by
  cases e : ws c with
  | false => rfl
  | true => exact absurd (ws_iff.mp e) h

theorem skip_blank {w : Text} (h : Blank w) (s : Text) : skip (w ++ s) = skip s := by
  induction w with
  | nil => rfl
  | cons c w ih =>
    have hc : ws c = true := ws_iff.mpr (h c (by simp))
    show List.dropWhile ws (c :: (w ++ s)) = _
    rw [List.dropWhile_cons, if_pos hc]
    exact ih fun d hd => h d (by simp [hd])

theorem skip_cons {c : Char} {s : Text} (h : ws c = false) : skip (c :: s) = c :: s := by
  show List.dropWhile ws (c :: s) = _
  rw [List.dropWhile_cons, if_neg (by simp [h])]

theorem skip_nil : skip [] = [] := rfl

theorem skip_skip (s : Text) : skip (skip s) = skip s := by
  induction s with
  | nil => rfl
  | cons c s ih =>
    cases h : ws c with
    | true =>
      have : skip (c :: s) = skip s := by
        show List.dropWhile ws (c :: s) = _
        rw [List.dropWhile_cons, if_pos h]; rfl
      rw [this, ih]
    | false => rw [skip_cons h, skip_cons h]

theorem skip_solid {t : Text} (h : Solid t) (s : Text) : skip (t ++ s) = t ++ s := by
  cases t with
  | nil => exact absurd rfl h.some
  | cons c t => exact skip_cons (not_ws (h.first c rfl))

theorem skip_blank_cons {w : Text} (h : Blank w) {c : Char} (hc : ws c = false) (s : Text) : skip (w ++ c :: s) = c :: s := by
  rw [skip_blank h, skip_cons hc]

theorem tok_blank {w : Text} (h : Blank w) {c : Char} (hc : ws c = false) (s : Text) : tok [c] (w ++ c :: s) = some s := by
  unfold tok
  rw [skip_blank_cons h hc]
  simp [lit]

theorem tok_cons {c : Char} (hc : ws c = false) (s : Text) : tok [c] (c :: s) = some s :=
  tok_blank (w := []) (fun _ h => absurd h (by simp)) hc s

theorem lit_append (p s : Text) : lit p (p ++ s) = some s := by
  induction p with
  | nil => rfl
  | cons c p ih => simp [lit, ih]

theorem lit_iff {p s r : Text} : lit p s = some r ↔ s = p ++ r := by
  induction p generalizing s with
  | nil => simp [lit]
  | cons c p ih =>
    cases s with
    | nil => simp [lit]
    | cons d s =>
      simp only [lit]
      split
      · rename_i h; subst h; simp [ih]
      · rename_i h
        simp only [List.cons_append, List.cons.injEq]
        constructor
        · intro h'; cases h'
        · rintro ⟨h', _⟩; exact absurd h'.symm h

theorem lit_none {p s : Text} (h : ¬ p <+: s) : lit p s = none := by
  cases e : lit p s with
  | none => rfl
  | some r => exact absurd ⟨r, (lit_iff.mp e).symm⟩ h

theorem lit_none_head {c : Char} {p s : Text} (h : s.head? ≠ some c) : lit (c :: p) s = none := by
  apply lit_none
  rintro ⟨r, rfl⟩
  exact h rfl

theorem span_append (a b : Text) : span (a ++ b) b = a := by
  unfold span
  rw [List.length_append, Nat.add_sub_cancel]
  simp

/-! ### Reading up to something -/

theorem cut_blank (stop : Text → Bool) {w rest : Text} (hw : Blank w)
    (hr : ∀ c s, rest = c :: s → ws c = false ∧ stop rest = true) : cut stop (w ++ rest) = ([], w ++ rest) := by
  induction w with
  | nil =>
    cases rest with
    | nil => rfl
    | cons c s =>
      obtain ⟨h1, h2⟩ := hr c s rfl
      rw [List.nil_append, cut, h1, h2]
      simp
  | cons c w ih =>
    rw [List.cons_append, cut, if_pos (ws_iff.mpr (hw c (by simp))), ih fun d hd => hw d (by simp [hd])]
    simp

theorem cut_eq (stop : Text → Bool) {t w rest : Text} (hw : Blank w)
    (hl : ∀ c ∈ t.getLast?, ¬ Space c)
    (ht : ∀ a c b, t = a ++ c :: b → ws c = false → stop (c :: b ++ (w ++ rest)) = false)
    (hr : ∀ c s, rest = c :: s → ws c = false ∧ stop rest = true) : cut stop (t ++ (w ++ rest)) = (t, w ++ rest) := by
  induction t with
  | nil => rw [List.nil_append]; exact cut_blank stop hw hr
  | cons c t ih =>
    have ih' := ih (by
      intro d hd
      apply hl d
      cases t with
      | nil => simp at hd
      | cons e t => simpa [List.getLast?_cons_cons] using hd) (fun a d b e => ht (c :: a) d b (by simp [e]))
    rw [List.cons_append, cut, ih']
    split
    · rename_i hc
      have : t ≠ [] := by
        rintro rfl
        exact hl c (by simp) (ws_iff.mp hc)
      simp [this]
    · rename_i hc
      have := ht [] c t (by simp) (by simpa using hc)
      rw [List.cons_append] at this
      simp [this]

/-- Up to one of some characters. -/
theorem cut_next (p : Char → Bool) {t w rest : Text} (hw : Blank w)
    (hl : ∀ c ∈ t.getLast?, ¬ Space c) (ht : ∀ c ∈ t, ws c = false → p c = false)
    (hr : ∀ c s, rest = c :: s → ws c = false ∧ p c = true) : cut (next p) (t ++ (w ++ rest)) = (t, w ++ rest) := by
  apply cut_eq _ hw hl
  · rintro a c b rfl hc
    exact ht c (by simp) hc
  · rintro c s rfl
    exact hr c s rfl

/-! ### Values -/

theorem expression_eq {before e after : Text} (h : ExprOk before e after) (s : Text) :
    expression ('{' :: before ++ e ++ after ++ '}' :: s) = some (e, s) := by
  obtain ⟨h1, h2, h3, h4⟩ := h
  unfold expression
  have e1 : lit ['{'] ('{' :: before ++ e ++ after ++ '}' :: s) = some (before ++ (e ++ (after ++ '}' :: s))) := by simp [lit]
  rw [e1]
  dsimp only
  rw [skip_blank h1, skip_solid h2, cut_next _ h4 h2.last (fun c hc _ => by
    have : c ≠ '}' := fun e => h3 (e ▸ hc)
    simpa using this) (by rintro c s' e'; cases e'; decide)]
  dsimp only
  rw [tok_blank h4 (by decide)]

theorem expression_none {s : Text} (h : s.head? ≠ some '{') : expression s = none := by
  unfold expression
  rw [lit_none_head h]

theorem hex_iff {c : Char} : hex c = true ↔ HexDigit c := by
  simp [hex, HexDigit, Char.isDigit, or_assoc]
  rfl

theorem hex_ws {c : Char} (h : hex c = true) : ws c = false := by
  cases e : ws c with
  | false => rfl
  | true =>
    rcases ws_iff.mp e with rfl | rfl | rfl | rfl <;> revert h <;> decide

theorem chars_add (p : Char → Bool) (m n : Nat) (s : Text) : chars p (m + n) s = (chars p m s).bind (chars p n) := by
  induction m generalizing s with
  | zero => rw [Nat.zero_add]; rfl
  | succ m ih =>
    rw [Nat.succ_add, chars, chars]
    cases skip s with
    | nil => rfl
    | cons c r =>
      dsimp only
      split
      · exact ih r
      · rfl

theorem chars_hex {d : Text} (h : ∀ c ∈ d, HexDigit c) (s : Text) : chars hex d.length (d ++ s) = some s := by
  induction d with
  | nil => rfl
  | cons c d ih =>
    have hc : hex c = true := hex_iff.mpr (h c (by simp))
    rw [List.length_cons, chars, List.cons_append, skip_cons (hex_ws hc)]
    dsimp only
    rw [if_pos hc, ih fun e he => h e (by simp [he])]

theorem chars_none_head {p : Char → Bool} {n : Nat} {s : Text} (h : ∀ c r, skip s = c :: r → p c = false) :
    chars p (n + 1) s = none := by
  rw [chars]
  cases e : skip s with
  | nil => rfl
  | cons c r => simp [h c r e]

theorem digit_ws {c : Char} (h : c.isDigit = true) : ws c = false := by
  cases e : ws c with
  | false => rfl
  | true =>
    rcases ws_iff.mp e with rfl | rfl | rfl | rfl <;> revert h <;> decide

/-! #### Colors of small numbers -/

theorem blank_nil : Blank [] := fun _ h => absurd h (by simp)

theorem blank_append {v w : Text} (hv : Blank v) (hw : Blank w) : Blank (v ++ w) := fun c hc =>
  (List.mem_append.mp hc).elim (hv c) (hw c)

/-- The parts are read from the input. -/
def Spelled (ps : List Text) (s r : Text) : Prop := ∃ t, Loose ps t ∧ s = t ++ r

theorem reads_nil {s r : Text} : Spelled [] s r ↔ s = r := by
  constructor
  · rintro ⟨t, rfl, rfl⟩; rfl
  · rintro rfl; exact ⟨[], rfl, rfl⟩

theorem reads_cons {p : Text} {ps : List Text} {s r : Text} :
    Spelled (p :: ps) s r ↔ ∃ w m, Blank w ∧ s = w ++ (p ++ m) ∧ Spelled ps m r := by
  constructor
  · rintro ⟨t, ⟨w, t', hw, rfl, ht⟩, rfl⟩
    exact ⟨w, t' ++ r, hw, by simp, t', ht, rfl⟩
  · rintro ⟨w, m, hw, rfl, t, ht, rfl⟩
    exact ⟨w ++ (p ++ t), ⟨w, t, hw, rfl, ht⟩, by simp⟩

theorem reads_append {ps qs : List Text} {s r : Text} : Spelled (ps ++ qs) s r ↔ ∃ m, Spelled ps s m ∧ Spelled qs m r := by
  induction ps generalizing s with
  | nil => simp [reads_nil]
  | cons p ps ih =>
    rw [List.cons_append, reads_cons]
    constructor
    · rintro ⟨w, m, hw, e, h⟩
      obtain ⟨m', h1, h2⟩ := ih.mp h
      exact ⟨m', reads_cons.mpr ⟨w, m, hw, e, h1⟩, h2⟩
    · rintro ⟨m', h1, h2⟩
      obtain ⟨w, m, hw, e, h⟩ := reads_cons.mp h1
      exact ⟨w, m, hw, e, ih.mpr ⟨m', h, h2⟩⟩

theorem skip_split (s : Text) : ∃ w, Blank w ∧ s = w ++ skip s := by
  refine ⟨s.takeWhile ws, ?_, (List.takeWhile_append_dropWhile).symm⟩
  intro c hc
  exact ws_iff.mp (List.mem_takeWhile_imp hc)

theorem tok_reads {c : Char} {p s r : Text} (hc : ws c = false) : tok (c :: p) s = some r ↔ Spelled [c :: p] s r := by
  constructor
  · intro h
    obtain ⟨w, hw, e⟩ := skip_split s
    refine reads_cons.mpr ⟨w, r, hw, ?_, reads_nil.mpr rfl⟩
    rw [e]
    congr 1
    exact lit_iff.mp h
  · intro h
    obtain ⟨w, m, hw, rfl, h0⟩ := reads_cons.mp h
    rw [reads_nil] at h0
    subst h0
    unfold tok
    rw [List.cons_append, skip_blank_cons hw hc, ← List.cons_append]
    exact lit_append ..

theorem digit_reads {s r : Text} : chars Char.isDigit 1 s = some r ↔ ∃ d, d.isDigit = true ∧ Spelled [[d]] s r := by
  constructor
  · intro h
    rw [chars] at h
    cases e : skip s with
    | nil => rw [e] at h; cases h
    | cons d m =>
      rw [e] at h
      dsimp only at h
      split at h
      · rename_i hd
        obtain ⟨w, hw, e'⟩ := skip_split s
        cases h
        refine ⟨d, hd, reads_cons.mpr ⟨w, _, hw, ?_, reads_nil.mpr rfl⟩⟩
        rw [e', e]; rfl
      · cases h
  · rintro ⟨d, hd, h⟩
    obtain ⟨w, m, hw, rfl, h0⟩ := reads_cons.mp h
    rw [reads_nil] at h0
    subst h0
    rw [List.singleton_append, chars, skip_blank_cons hw (digit_ws hd)]
    simp [hd, chars]

theorem tok_nil (p s : Text) : (tok [] s).bind (tok p) = tok p s := by
  unfold tok
  simp [lit, skip_skip]

theorem digitComma_plain (n : Nat) (s : Text) : digitComma [] (n + 1) s =
    (chars Char.isDigit 1 s).bind fun s => (tok [','] s).bind (digitComma [] n) := by
  rw [digitComma]
  congr 1
  funext s
  have := tok_nil [','] s
  rw [← this, Option.bind_assoc]

theorem digitComma_percent (n : Nat) (s : Text) : digitComma ['%'] (n + 1) s =
    (chars Char.isDigit 1 s).bind fun s => (tok ['%'] s).bind fun s => (tok [','] s).bind (digitComma ['%'] n) := by
  rw [digitComma]

theorem digitComma_zero (u s : Text) : digitComma u 0 s = some s := by rw [digitComma]

theorem bind_some {f : Text → Option Text} {o : Option Text} {r : Text} : o.bind f = some r ↔ ∃ m, o = some m ∧ f m = some r :=
  Option.bind_eq_some_iff

theorem cut_append (stop : Text → Bool) (s : Text) : (cut stop s).1 ++ (cut stop s).2 = s := by
  induction s with
  | nil => rfl
  | cons c s ih =>
    rw [cut]
    split
    · dsimp only
      split
      · rfl
      · simp [ih]
    · split
      · rfl
      · simp [ih]

theorem cut_digits {p : Char → Bool} : ∀ (s : Text), (cut (fun s => !next p s) s).1 ≠ [] →
    ∃ ds : Text, ds ≠ [] ∧ (∀ c ∈ ds, p c = true) ∧ Spelled (ds.map fun c => [c]) s (cut (fun s => !next p s) s).2
  | [], h => absurd rfl h
  | c :: s, h => by
      rw [cut] at h ⊢
      split at h
      · rename_i hc
        rw [if_pos hc]
        dsimp only at h ⊢
        split at h
        · exact absurd rfl h
        · rename_i hne
          rw [if_neg hne]
          obtain ⟨ds, h1, h2, h3⟩ := cut_digits s hne
          refine ⟨ds, h1, h2, ?_⟩
          cases ds with
          | nil => exact absurd rfl h1
          | cons d ds =>
            obtain ⟨w, m, hw, e, h4⟩ := reads_cons.mp h3
            refine reads_cons.mpr ⟨c :: w, m, ?_, ?_, h4⟩
            · intro x hx
              rcases List.mem_cons.mp hx with rfl | hx
              · exact ws_iff.mp hc
              · exact hw x hx
            · rw [List.cons_append, ← e]
      · rename_i hc
        rw [if_neg hc]
        by_cases hp : (!next p (c :: s)) = true
        · rw [if_pos hp] at h
          exact absurd rfl h
        · rw [if_neg hp]
          dsimp only
          have hpc : p c = true := by simpa [next] using hp
          by_cases hne : (cut (fun s => !next p s) s).1 = []
          · refine ⟨[c], by simp, by simpa using hpc, reads_cons.mpr ⟨[], s, blank_nil, rfl, reads_nil.mpr ?_⟩⟩
            have := cut_append (fun s => !next p s) s
            rw [hne] at this
            exact this.symm
          · obtain ⟨ds, h1, h2, h3⟩ := cut_digits s hne
            refine ⟨c :: ds, by simp, ?_, reads_cons.mpr ⟨[], s, blank_nil, rfl, h3⟩⟩
            intro x hx
            rcases List.mem_cons.mp hx with rfl | hx
            · exact hpc
            · exact h2 x hx

theorem transparency_reads {s r : Text} (h : transparency s = some r) : ∃ f, Fraction f ∧ Spelled f s r := by
  unfold transparency at h
  rcases Option.or_eq_some_iff.mp h with h | ⟨-, h⟩
  · obtain ⟨m, h1, h2⟩ := bind_some.mp h
    have h1 := (tok_reads (c := '0') (p := ['.']) (by decide)).mp h1
    unfold chars1 at h2
    dsimp only at h2
    split at h2
    · cases h2
    · rename_i hne
      cases h2
      obtain ⟨ds, g1, g2, g3⟩ := cut_digits _ hne
      refine ⟨_, .inr ⟨ds, g1, g2, rfl⟩, ?_⟩
      obtain ⟨w, hw, e⟩ := skip_split m
      have g4 : Spelled (ds.map fun c => [c]) m (cut (fun s => !next Char.isDigit s) (skip m)).2 := by
        cases ds with
        | nil => exact absurd rfl g1
        | cons d ds =>
          obtain ⟨w', m', hw', e', g5⟩ := reads_cons.mp g3
          refine reads_cons.mpr ⟨w ++ w', m', blank_append hw hw', ?_, g5⟩
          rw [List.append_assoc, ← e']
          exact e
      exact (reads_append (ps := [['0', '.']])).mpr ⟨m, h1, g4⟩
  · exact ⟨_, .inl rfl, (tok_reads (c := '1') (p := ['.', '0']) (by decide)).mp h⟩

theorem loose_mem {ps : List Text} : ∀ {t : Text}, Loose ps t → ∀ c ∈ t, Space c ∨ ∃ p ∈ ps, c ∈ p := by
  induction ps with
  | nil => rintro t rfl c hc; cases hc
  | cons p ps ih =>
    rintro t ⟨w, r, hw, rfl, h⟩ c hc
    rcases List.mem_append.mp hc with hc | hc
    · exact .inl (hw c hc)
    · rcases List.mem_append.mp hc with hc | hc
      · exact .inr ⟨p, by simp, hc⟩
      · rcases ih h c hc with h | ⟨q, hq, hc⟩
        · exact .inl h
        · exact .inr ⟨q, by simp [hq], hc⟩

theorem loose_last {ps : List Text} {c : Char} : ∀ {t : Text}, Loose (ps ++ [[c]]) t → ∃ t', t = t' ++ [c] := by
  induction ps with
  | nil =>
    rintro t ⟨w, r, hw, rfl, rfl⟩
    exact ⟨w, by simp⟩
  | cons p ps ih =>
    rintro t ⟨w, r, hw, rfl, h⟩
    obtain ⟨t', rfl⟩ := ih h
    exact ⟨w ++ (p ++ t'), by simp⟩

theorem chars1_reads {ds t w r : Text} (hne : ds ≠ []) (hd : ∀ c ∈ ds, c.isDigit = true) (ht : Loose (ds.map fun c => [c]) t) (hw : Blank w) :
    chars1 Char.isDigit (t ++ (w ++ ')' :: r)) = some (w ++ ')' :: r) := by
  obtain ⟨t', t'', hb, rfl, ht, hs⟩ : ∃ t' t'', Blank t' ∧ t = t' ++ t'' ∧ Loose (ds.map fun c => [c]) t'' ∧
      ∀ m, skip (t'' ++ m) = t'' ++ m := by
    cases ds with
    | nil => exact absurd rfl hne
    | cons d ds =>
      obtain ⟨w', r', hw', rfl, h⟩ := ht
      exact ⟨w', [d] ++ r', hw', rfl, ⟨[], r', blank_nil, rfl, h⟩, fun m => skip_cons (digit_ws (hd d (by simp)))⟩
  have hlast : ∃ t0 d, t'' = t0 ++ [d] ∧ d ∈ ds := by
    obtain ⟨d0, d, rfl⟩ : ∃ d0 d, ds = d0 ++ [d] := ⟨ds.dropLast, ds.getLast hne, (List.dropLast_concat_getLast hne).symm⟩
    rw [List.map_append] at ht
    obtain ⟨t0, e⟩ := loose_last ht
    exact ⟨t0, d, e, by simp⟩
  obtain ⟨t0, d, e, hdm⟩ := hlast
  unfold chars1
  rw [List.append_assoc, skip_blank hb, hs]
  have hcut : cut (fun s => !next Char.isDigit s) (t'' ++ (w ++ ')' :: r)) = (t'', w ++ ')' :: r) := by
    refine cut_eq _ hw ?_ ?_ ?_
    · intro c hc
      rw [e] at hc
      simp at hc
      subst hc
      intro hsp
      have := digit_ws (hd d hdm)
      rw [ws_iff.mpr hsp] at this
      cases this
    · intro a c b e' hcw
      have hc : c ∈ t'' := by rw [e']; simp
      rcases loose_mem ht c hc with h | ⟨p, hp, hcp⟩
      · rw [ws_iff.mpr h] at hcw; cases hcw
      · obtain ⟨x, hx, rfl⟩ := List.mem_map.mp hp
        simp at hcp
        subst hcp
        simp [next, hd c hx]
    · rintro c s e'
      cases e'
      exact ⟨by decide, by simp [next]⟩
  rw [hcut]
  dsimp only
  rw [if_neg (by rw [e]; simp)]

theorem tok_other {w : Text} (hw : Blank w) {c d : Char} (hd : ws d = false) (hne : c ≠ d) (p s : Text) : tok (c :: p) (w ++ d :: s) = none := by
  unfold tok
  rw [skip_blank_cons hw hd]
  simp [lit, hne]

theorem transparency_eq {f : List Text} (hf : Fraction f) {t w r : Text} (ht : Loose f t) (hw : Blank w) :
    transparency (t ++ (w ++ ')' :: r)) = some (w ++ ')' :: r) := by
  unfold transparency
  rcases hf with rfl | ⟨ds, h1, h2, rfl⟩
  · obtain ⟨w', r', hw', rfl, rfl⟩ := ht
    have e1 : tok "0.".toList (w' ++ ("1.0".toList ++ []) ++ (w ++ ')' :: r)) = none := by
      rw [List.append_assoc]
      exact tok_other hw' (by decide) (by decide) ['.'] _
    rw [e1]
    exact (tok_reads (c := '1') (p := ['.', '0']) (by decide)).mpr ⟨_, ⟨w', [], hw', rfl, rfl⟩, rfl⟩
  · obtain ⟨w', r', hw', rfl, h⟩ := ht
    have e1 : tok "0.".toList (w' ++ ("0.".toList ++ r') ++ (w ++ ')' :: r)) = some (r' ++ (w ++ ')' :: r)) :=
      (tok_reads (c := '0') (p := ['.']) (by decide)).mpr (reads_cons.mpr ⟨w', _, hw', by simp, reads_nil.mpr rfl⟩)
    rw [e1]
    simp [chars1_reads h1 h2 h hw]

theorem small_last {t : Text} (h : SmallColor t) : ∃ t', t = t' ++ [')'] := by
  cases h with
  | rgb ha hb hc h => obtain ⟨t', rfl⟩ := loose_last (ps := [_, _, _, _, _]) h; exact ⟨"rgb(".toList ++ t', by simp⟩
  | rgba ha hb hc hf h => obtain ⟨t', rfl⟩ := loose_last h; exact ⟨"rgb(".toList ++ t', by simp⟩
  | hsl ha hb hc h => obtain ⟨t', rfl⟩ := loose_last (ps := [_, _, _, _, _, _, _]) h; exact ⟨"hsl(".toList ++ t', by simp⟩
  | hsla ha hb hc hf h => obtain ⟨t', rfl⟩ := loose_last h; exact ⟨"hsl(".toList ++ t', by simp⟩

theorem fraction_mem {f : List Text} (h : Fraction f) : ∀ p ∈ f, ∀ c ∈ p, c = '.' ∨ c.isDigit = true := by
  rcases h with rfl | ⟨ds, h1, h2, rfl⟩
  · decide
  · intro p hp c hc
    rcases List.mem_cons.mp hp with rfl | hp
    · revert c; decide
    · obtain ⟨x, hx, rfl⟩ := List.mem_map.mp hp
      simp at hc
      subst hc
      exact .inr (h2 c hx)

/-- The characters of such a color. -/
theorem small_mem {t : Text} (h : SmallColor t) : ∀ c ∈ t, Space c ∨ c.isDigit = true ∨ c ∈ "rgbhsl(,.%)".toList := by
  have key : ∀ (n : Text) (ps : List Text) (r : Text), (∀ c ∈ n, c ∈ "rgbhsl(,.%)".toList) →
      (∀ p ∈ ps, ∀ c ∈ p, c.isDigit = true ∨ c ∈ "rgbhsl(,.%)".toList) → Loose ps r →
      ∀ c ∈ n ++ r, Space c ∨ c.isDigit = true ∨ c ∈ "rgbhsl(,.%)".toList := by
    intro n ps r hn hp h c hc
    rcases List.mem_append.mp hc with hc | hc
    · exact .inr (.inr (hn c hc))
    · rcases loose_mem h c hc with h | ⟨p, h1, h2⟩
      · exact .inl h
      · exact .inr (hp p h1 c h2)
  have parts : ∀ ps : List Text, (∀ p ∈ ps, ∀ c ∈ p, c.isDigit = true ∨ c ∈ "rgbhsl(,.%)".toList) →
      ∀ p ∈ ps, ∀ c ∈ p, c.isDigit = true ∨ c ∈ "rgbhsl(,.%)".toList := fun _ h => h
  cases h with
  | rgb ha hb hc h =>
    refine key _ _ _ (by decide) ?_ h
    simp [ha, hb, hc]
  | rgba ha hb hc hf h =>
    refine key _ _ _ (by decide) ?_ h
    intro p hp c hcp
    rcases List.mem_append.mp hp with hp | hp
    · rcases List.mem_append.mp hp with hp | hp
      · exact parts _ (by simp [ha, hb, hc]) p hp c hcp
      · rcases fraction_mem hf p hp c hcp with rfl | h
        · exact .inr (by decide)
        · exact .inl h
    · exact parts _ (by simp) p hp c hcp
  | hsl ha hb hc h =>
    refine key _ _ _ (by decide) ?_ h
    simp [ha, hb, hc]
  | hsla ha hb hc hf h =>
    refine key _ _ _ (by decide) ?_ h
    intro p hp c hcp
    rcases List.mem_append.mp hp with hp | hp
    · rcases List.mem_append.mp hp with hp | hp
      · exact parts _ (by simp [ha, hb, hc]) p hp c hcp
      · rcases fraction_mem hf p hp c hcp with rfl | h
        · exact .inr (by decide)
        · exact .inl h
    · exact parts _ (by simp) p hp c hcp

/-- What such a color is read from begins with one. -/
theorem small_reads {s : Text} {ps : List Text} {n r m : Text} (hs : s = n ++ m) (h : Spelled ps m r)
    (hc : ∀ t, Loose ps t → SmallColor (n ++ t)) : ∃ c, SmallColor c ∧ s = c ++ r := by
  obtain ⟨t, ht, rfl⟩ := h
  exact ⟨n ++ t, hc t ht, by rw [hs, List.append_assoc]⟩

theorem color_none {s : Text} (h : ∀ r, s = '#' :: r → chars hex 6 r = none)
    (h' : ∀ c r, SmallColor c → s ≠ c ++ r) :
    color s = none := by
  have h1 : (lit ['#'] s).bind (chars hex 6) = none := by
    cases e : lit ['#'] s with
    | none => rfl
    | some r => exact h r (lit_iff.mp e)
  have h2 : (lit ['#'] s).bind (chars hex 8) = none := by
    cases e : lit ['#'] s with
    | none => rfl
    | some r =>
      show chars hex (6 + 2) r = none
      rw [chars_add, h r (lit_iff.mp e)]
      rfl
  have hno : ∀ {o : Option Text}, (∀ r, o = some r → ∃ c, SmallColor c ∧ s = c ++ r) → o = none := by
    intro o ho
    cases o with
    | none => rfl
    | some r => obtain ⟨c, hc, e⟩ := ho r rfl; exact absurd e (h' c r hc)
  have comma : ∀ {m r : Text}, tok [','] m = some r → Spelled [[',']] m r := fun h => (tok_reads (by decide)).mp h
  have percent : ∀ {m r : Text}, tok ['%'] m = some r → Spelled [['%']] m r := fun h => (tok_reads (by decide)).mp h
  have close : ∀ {m r : Text}, tok [')'] m = some r → Spelled [[')']] m r := fun h => (tok_reads (by decide)).mp h
  unfold color
  rw [h1, h2]
  simp only [Option.none_or]
  rw [Option.or_eq_none_iff, Option.or_eq_none_iff, Option.or_eq_none_iff]
  refine ⟨hno ?_, hno ?_, hno ?_, hno ?_⟩
  · intro r e
    simp only [digitComma_plain, digitComma_zero, bind_some, Option.some.injEq] at e
    obtain ⟨m, e0, m6, ⟨m1, e1, m2, e2, m3, e3, m4, e4, m5, e5, m6', e6, e7⟩, mf, ef, ec⟩ := e
    subst e7
    obtain ⟨a, ha, ra⟩ := digit_reads.mp e1
    obtain ⟨b, hb, rb⟩ := digit_reads.mp e3
    obtain ⟨c, hc, rc⟩ := digit_reads.mp e5
    obtain ⟨f, hf, rf⟩ := transparency_reads ef
    refine small_reads (lit_iff.mp e0) (ps := [[a], [','], [b], [','], [c], [',']] ++ f ++ [[')']]) ?_ fun t ht => .rgba ha hb hc hf ht
    refine reads_append.mpr ⟨mf, reads_append.mpr ⟨_, ?_, rf⟩, close ec⟩
    exact reads_append (ps := [[a]]) |>.mpr ⟨_, ra, reads_append (ps := [[',']]) |>.mpr ⟨_, comma e2, reads_append (ps := [[b]]) |>.mpr ⟨_, rb,
      reads_append (ps := [[',']]) |>.mpr ⟨_, comma e4, reads_append (ps := [[c]]) |>.mpr ⟨_, rc, comma e6⟩⟩⟩⟩⟩
  · intro r e
    simp only [digitComma_plain, digitComma_zero, bind_some, Option.some.injEq] at e
    obtain ⟨m, e0, m4, ⟨m1, e1, m2, e2, m3, e3, m4', e4, e7⟩, m5, e5, ec⟩ := e
    subst e7
    obtain ⟨a, ha, ra⟩ := digit_reads.mp e1
    obtain ⟨b, hb, rb⟩ := digit_reads.mp e3
    obtain ⟨c, hc, rc⟩ := digit_reads.mp e5
    refine small_reads (lit_iff.mp e0) (ps := [[a], [','], [b], [','], [c], [')']]) ?_ fun t ht => .rgb ha hb hc ht
    exact reads_append (ps := [[a]]) |>.mpr ⟨_, ra, reads_append (ps := [[',']]) |>.mpr ⟨_, comma e2, reads_append (ps := [[b]]) |>.mpr ⟨_, rb,
      reads_append (ps := [[',']]) |>.mpr ⟨_, comma e4, reads_append (ps := [[c]]) |>.mpr ⟨_, rc, close ec⟩⟩⟩⟩⟩
  · intro r e
    simp only [digitComma_plain, digitComma_percent, digitComma_zero, bind_some, Option.some.injEq] at e
    obtain ⟨m, e0, m2, ⟨m1, e1, m2', e2, e9⟩, m8, ⟨m3, e3, m4, e4, m5, e5, m6, e6, m7, e7, m8', e8, e10⟩, mf, ef, ec⟩ := e
    subst e9
    subst e10
    obtain ⟨a, ha, ra⟩ := digit_reads.mp e1
    obtain ⟨b, hb, rb⟩ := digit_reads.mp e3
    obtain ⟨c, hc, rc⟩ := digit_reads.mp e6
    obtain ⟨f, hf, rf⟩ := transparency_reads ef
    refine small_reads (lit_iff.mp e0) (ps := [[a], [','], [b], ['%'], [','], [c], ['%'], [',']] ++ f ++ [[')']]) ?_ fun t ht => .hsla ha hb hc hf ht
    refine reads_append.mpr ⟨mf, reads_append.mpr ⟨_, ?_, rf⟩, close ec⟩
    exact reads_append (ps := [[a]]) |>.mpr ⟨_, ra, reads_append (ps := [[',']]) |>.mpr ⟨_, comma e2, reads_append (ps := [[b]]) |>.mpr ⟨_, rb,
      reads_append (ps := [['%']]) |>.mpr ⟨_, percent e4, reads_append (ps := [[',']]) |>.mpr ⟨_, comma e5,
      reads_append (ps := [[c]]) |>.mpr ⟨_, rc, reads_append (ps := [['%']]) |>.mpr ⟨_, percent e7, comma e8⟩⟩⟩⟩⟩⟩⟩
  · intro r e
    simp only [digitComma_plain, digitComma_percent, digitComma_zero, bind_some, Option.some.injEq] at e
    obtain ⟨m, e0, m2, ⟨m1, e1, m2', e2, e9⟩, m5, ⟨m3, e3, m4, e4, m5', e5, e10⟩, m6, e6, m7, e7, ec⟩ := e
    subst e9
    subst e10
    obtain ⟨a, ha, ra⟩ := digit_reads.mp e1
    obtain ⟨b, hb, rb⟩ := digit_reads.mp e3
    obtain ⟨c, hc, rc⟩ := digit_reads.mp e6
    refine small_reads (lit_iff.mp e0) (ps := [[a], [','], [b], ['%'], [','], [c], ['%'], [')']]) ?_ fun t ht => .hsl ha hb hc ht
    exact reads_append (ps := [[a]]) |>.mpr ⟨_, ra, reads_append (ps := [[',']]) |>.mpr ⟨_, comma e2, reads_append (ps := [[b]]) |>.mpr ⟨_, rb,
      reads_append (ps := [['%']]) |>.mpr ⟨_, percent e4, reads_append (ps := [[',']]) |>.mpr ⟨_, comma e5,
      reads_append (ps := [[c]]) |>.mpr ⟨_, rc, reads_append (ps := [['%']]) |>.mpr ⟨_, percent e7, close ec⟩⟩⟩⟩⟩⟩⟩

theorem ev_digit {w : Text} (hw : Blank w) {d : Char} (hd : d.isDigit = true) (s : Text) : chars Char.isDigit 1 (w ++ d :: s) = some s :=
  digit_reads.mpr ⟨d, hd, reads_cons.mpr ⟨w, s, hw, rfl, reads_nil.mpr rfl⟩⟩

theorem loose_split {c : Char} : ∀ {f : List Text} {t : Text}, Loose (f ++ [[c]]) t → ∃ u w, Loose f u ∧ Blank w ∧ t = u ++ (w ++ [c])
  | [], t, ⟨w, _, hw, e, rfl⟩ => ⟨[], w, rfl, hw, by simpa using e⟩
  | p :: f, t, ⟨w, r, hw, e, h⟩ => by
      obtain ⟨u, w', hu, hw', rfl⟩ := loose_split h
      exact ⟨w ++ (p ++ u), w', ⟨w, u, hw, rfl, hu⟩, hw', by rw [e]; simp⟩

/-- Such a color is read. -/
theorem color_small {t : Text} (h : SmallColor t) (s : Text) : color (t ++ s) = some s := by
  have hr : ∀ r : Text, lit ['#'] ("rgb(".toList ++ r) = none ∧ lit "rgb(".toList ("rgb(".toList ++ r) = some r ∧
      lit "hsl(".toList ("rgb(".toList ++ r) = none := fun r => ⟨rfl, lit_append .., rfl⟩
  have hh : ∀ r : Text, lit ['#'] ("hsl(".toList ++ r) = none ∧ lit "rgb(".toList ("hsl(".toList ++ r) = none ∧
      lit "hsl(".toList ("hsl(".toList ++ r) = some r := fun r => ⟨rfl, rfl, lit_append ..⟩
  have comma : ∀ {w : Text}, Blank w → ∀ s, tok [','] (w ++ ',' :: s) = some s := fun h s => tok_blank h (by decide) s
  have percent : ∀ {w : Text}, Blank w → ∀ s, tok ['%'] (w ++ '%' :: s) = some s := fun h s => tok_blank h (by decide) s
  have close : ∀ {w : Text}, Blank w → ∀ s, tok [')'] (w ++ ')' :: s) = some s := fun h s => tok_blank h (by decide) s
  have noComma : ∀ {w : Text}, Blank w → ∀ s, tok [','] (w ++ ')' :: s) = none := fun h s => tok_other h (by decide) (by decide) [] s
  unfold color
  cases h with
  | rgb ha hb hc h =>
    obtain ⟨w1, _, h1, rfl, w2, _, h2, rfl, w3, _, h3, rfl, w4, _, h4, rfl, w5, _, h5, rfl, w6, _, h6, rfl, rfl⟩ := h
    rw [List.append_assoc, (hr _).1, (hr _).2.1, (hr _).2.2]
    simp only [List.append_assoc, List.cons_append, List.nil_append, Option.bind_some, Option.bind_none, digitComma_plain, digitComma_zero,
      ev_digit h1 ha, ev_digit h3 hb, ev_digit h5 hc, comma h2, comma h4, close h6, noComma h6, Option.none_or, Option.some_or]
  | rgba ha hb hc hf h =>
    obtain ⟨w1, _, h1, rfl, w2, _, h2, rfl, w3, _, h3, rfl, w4, _, h4, rfl, w5, _, h5, rfl, w6, r, h6, rfl, h⟩ := h
    obtain ⟨u, w7, hu, h7, rfl⟩ := loose_split h
    rw [List.append_assoc, (hr _).1, (hr _).2.1, (hr _).2.2]
    simp only [List.append_assoc, List.cons_append, List.nil_append, Option.bind_some, Option.bind_none, digitComma_plain, digitComma_zero,
      ev_digit h1 ha, ev_digit h3 hb, ev_digit h5 hc, comma h2, comma h4, comma h6, transparency_eq hf hu h7, close h7, Option.none_or, Option.some_or]
  | hsl ha hb hc h =>
    obtain ⟨w1, _, h1, rfl, w2, _, h2, rfl, w3, _, h3, rfl, w4, _, h4, rfl, w5, _, h5, rfl, w6, _, h6, rfl, w7, _, h7, rfl, w8, _, h8, rfl, rfl⟩ := h
    rw [List.append_assoc, (hh _).1, (hh _).2.1, (hh _).2.2]
    simp only [List.append_assoc, List.cons_append, List.nil_append, Option.bind_some, Option.bind_none, digitComma_plain, digitComma_percent,
      digitComma_zero, ev_digit h1 ha, ev_digit h3 hb, ev_digit h6 hc, comma h2, percent h4, comma h5, percent h7, close h8, noComma h8,
      Option.none_or]
  | hsla ha hb hc hf h =>
    obtain ⟨w1, _, h1, rfl, w2, _, h2, rfl, w3, _, h3, rfl, w4, _, h4, rfl, w5, _, h5, rfl, w6, _, h6, rfl, w7, _, h7, rfl, w8, r, h8, rfl, h⟩ := h
    obtain ⟨u, w9, hu, h9, rfl⟩ := loose_split h
    rw [List.append_assoc, (hh _).1, (hh _).2.1, (hh _).2.2]
    simp only [List.append_assoc, List.cons_append, List.nil_append, Option.bind_some, Option.bind_none, digitComma_plain, digitComma_percent,
      digitComma_zero, ev_digit h1 ha, ev_digit h3 hb, ev_digit h6 hc, comma h2, percent h4, comma h5, percent h7, comma h8,
      transparency_eq hf hu h9, close h9, Option.none_or, Option.some_or]

/-- A character that is not a digit, with too few characters before it. -/
theorem chars_block {c : Char} (hc : hex c = false) (hs : ws c = false) (v : Text) : ∀ (u : Text) (n : Nat),
    (u.filter fun d => !ws d).length < n → chars hex n (u ++ c :: v) = none
  | [], n, h => by
      cases n with
      | zero => simp at h
      | succ n => exact chars_none_head fun d r e => by rw [List.nil_append, skip_cons hs] at e; cases e; exact hc
  | d :: u, n, h => by
      cases n with
      | zero => simp at h
      | succ n =>
        cases hd : ws d with
        | true =>
          have e : chars hex (n + 1) (d :: u ++ c :: v) = chars hex (n + 1) (u ++ c :: v) := by
            rw [chars, chars]
            have : skip (d :: u ++ c :: v) = skip (u ++ c :: v) :=
              skip_blank (w := [d]) (by simpa [Blank] using ws_iff.mp hd) (u ++ c :: v)
            rw [this]
          rw [e]
          refine chars_block hc hs v u (n + 1) ?_
          simpa [hd] using h
        | false =>
          rw [chars, List.cons_append, skip_cons hd]
          dsimp only
          split
          · refine chars_block hc hs v u n ?_
            simpa [hd] using h
          · rfl

theorem blank_filter {w : Text} (h : Blank w) : (w.filter fun d => !ws d) = [] := by
  apply List.filter_eq_nil_iff.mpr
  intro c hc
  simp [ws_iff.mpr (h c hc)]

theorem chars_bad {c : Char} (hc : ¬ HexDigit c) (hs : ¬ Space c) {n : Nat} {t : Text} (s : Text) (h : c ∈ t.take n) :
    chars hex n (t ++ s) = none := by
  obtain ⟨u, v, e⟩ := List.append_of_mem h
  have ht : t = u ++ c :: (v ++ t.drop n) := by
    have := List.take_append_drop n t
    rw [e] at this
    simpa using this.symm
  have hu : u.length < n := by
    have := congrArg List.length e
    simp at this
    omega
  rw [ht, List.append_assoc, List.cons_append]
  refine chars_block ?_ (not_ws hs) _ u n (Nat.lt_of_le_of_lt (List.length_filter_le ..) hu)
  cases e : hex c with
  | false => rfl
  | true => exact absurd (hex_iff.mp e) hc

/-- Only a few characters are left before one that is not a digit. -/
theorem chars_few {c : Char} (hc : hex c = false) (hs : ws c = false) {n : Nat} {t w : Text} (s : Text) (h : t.length < n) (hw : Blank w) :
    chars hex n (t ++ (w ++ c :: s)) = none := by
  rw [← List.append_assoc]
  refine chars_block hc hs _ _ n ?_
  rw [List.filter_append, blank_filter hw, List.append_nil]
  exact Nat.lt_of_le_of_lt (List.length_filter_le ..) h

theorem append_prefix_head {p t s : Text} (ht : t ≠ []) (h : p <+: t ++ s) {c : Char} (hp : p.head? = some c) : t.head? = some c := by
  cases t with
  | nil => exact absurd rfl ht
  | cons d t =>
    cases p with
    | nil => cases hp
    | cons e p =>
      obtain ⟨r, hr⟩ := h
      cases hp
      simp at hr
      simp [hr.1]

/-- A text that would begin with some ASCII punctuation, were there more of it. -/
theorem prefix_of_append {p t w s : Text} {c : Char} (hw : Blank w) (hc : c ∉ p) (hp : ∀ d ∈ p, ¬ Space d) (h : p <+: t ++ (w ++ c :: s)) :
    p <+: t := by
  rcases Nat.lt_or_ge t.length p.length with hlt | hge
  · exfalso
    obtain ⟨r, hr⟩ := h
    have hsplit : p = t ++ p.drop t.length := by
      have h1 : t <+: p ++ r := ⟨_, hr.symm⟩
      have h2 : t <+: p := List.prefix_of_prefix_length_le h1 (List.prefix_append p r) (Nat.le_of_lt hlt)
      obtain ⟨q, rfl⟩ := h2
      simp
    generalize hq : p.drop t.length = q at hsplit
    subst hsplit
    have hq' : q ≠ [] := by rintro rfl; simp at hlt
    rw [List.append_assoc] at hr
    have hr := List.append_cancel_left hr
    cases q with
    | nil => exact hq' rfl
    | cons x q =>
      cases w with
      | nil => simp at hr; exact hc (by simp [hr.1])
      | cons y w =>
        simp at hr
        exact hp x (by simp) (hr.1 ▸ hw y (by simp))
  · exact List.prefix_of_prefix_length_le h (List.prefix_append t _) hge

theorem color_text {t w : Text} (h : TextOk t) (hw : Blank w) (s : Text) : color (t ++ (w ++ ';' :: s)) = none := by
  apply color_none
  · intro r e
    obtain ⟨x, t', rfl⟩ : ∃ x t', t = x :: t' := by
      cases t with
      | nil => exact absurd rfl h.solid.some
      | cons x t' => exact ⟨x, t', rfl⟩
    rw [List.cons_append, List.cons.injEq] at e
    obtain ⟨rfl, rfl⟩ := e
    rcases h.noHex t' rfl with hl | ⟨c, hc, h1, h2⟩
    · exact chars_few (by decide) (by decide) s hl hw
    · exact chars_bad h1 h2 _ hc
  · intro c r hc e
    refine h.noRgb c hc ?_
    obtain ⟨c', rfl⟩ := small_last hc
    rcases Nat.lt_or_ge t.length (c' ++ [')']).length with hlt | hge
    · exfalso
      have h1 : t <+: c' ++ [')'] ++ r := ⟨_, e⟩
      obtain ⟨q, hq⟩ := List.prefix_of_prefix_length_le h1 (List.prefix_append _ r) (Nat.le_of_lt hlt)
      rw [← hq, List.append_assoc] at e
      replace e := List.append_cancel_left e
      obtain ⟨q', rfl⟩ : ∃ q', q = q' ++ [')'] := by
        rcases List.eq_nil_or_concat q with rfl | ⟨q', x, rfl⟩
        · rw [List.append_nil] at hq; rw [hq] at hlt; omega
        · rw [List.concat_eq_append, ← List.append_assoc] at hq
          have := List.append_inj' hq rfl
          simp at this
          exact ⟨q', by rw [this.2]; simp⟩
      have hsemi : ';' ∉ q' ++ [')'] := by
        intro hm
        have : ';' ∈ c' ++ [')'] := by rw [← hq]; exact List.mem_append_right _ hm
        have := small_mem hc _ this
        revert this; decide
      have hblank : ∀ x ∈ q' ++ [')'], Space x := by
        clear hq hlt h1 hc
        generalize q' ++ [')'] = q at *
        induction w generalizing q with
        | nil =>
          cases q with
          | nil => simp
          | cons x q => simp at e; exact absurd e.1.symm (by rintro rfl; simp at hsemi)
        | cons y w ih =>
          cases q with
          | nil => simp
          | cons x q =>
            simp at e
            intro z hz
            rcases List.mem_cons.mp hz with rfl | hz
            · rw [← e.1]; exact hw y (by simp)
            · exact ih (fun c hc => hw c (by simp [hc])) q e.2 (fun h' => hsemi (List.mem_cons_of_mem _ h')) z hz
      have := hblank ')' (by simp)
      revert this; decide
    · exact List.prefix_of_prefix_length_le ⟨r, e.symm⟩ (List.prefix_append t _) hge

theorem head_append {t s : Text} (h : t ≠ []) : (t ++ s).head? = t.head? := by
  cases t with
  | nil => exact absurd rfl h
  | cons c t => rfl

theorem simple_text {t w : Text} (h : TextOk t) (hw : Blank w) (s : Text) :
    simple (t ++ (w ++ ';' :: s)) = some (.text t, w ++ ';' :: s) := by
  unfold simple
  have h1 : (t ++ (w ++ ';' :: s)).head? ≠ some '{' := by
    rw [head_append h.solid.some]
    intro e
    exact (h.plain _ (head_mem e)).1 rfl
  rw [expression_none h1, color_text h hw]
  dsimp only
  rw [cut_next _ hw h.solid.last (fun c hc _ => by simpa using (h.plain c hc).2.2) (by rintro c s' e; cases e; decide)]
  simp [h.solid.some]

theorem simple_expr {before e after : Text} (h : ExprOk before e after) (s : Text) :
    simple ('{' :: before ++ e ++ after ++ '}' :: s) = some (.expr e, s) := by
  unfold simple
  rw [expression_eq h]

theorem simple_stop (s : Text) : simple (';' :: s) = none := by
  have h : color (';' :: s) = none := color_none (by rintro r e; cases e) (by rintro c r hc e; cases hc <;> cases e)
  unfold simple
  rw [expression_none (by simp), h]
  have hc : cut (next (· = ';')) (';' :: s) = ([], ';' :: s) :=
    cut_blank _ (w := []) (fun _ h => absurd h (by simp)) (by rintro c s' e; cases e; exact ⟨by decide, rfl⟩)
  rw [hc]
  simp [quoted]

theorem simple_color {d : Text} (hd : ∀ c ∈ d, HexDigit c) (s : Text)
    (h : d.length = 8 ∨ d.length = 6 ∧ chars hex 2 s = none) :
    simple ('#' :: d ++ s) = some (.text ('#' :: d), s) := by
  have hc : color ('#' :: d ++ s) = some s := by
    have e1 : lit ['#'] ('#' :: d ++ s) = some (d ++ s) := by simp [lit]
    have e2 := chars_hex hd s
    unfold color
    rw [e1]
    simp only [Option.bind_some]
    rcases h with h | ⟨h, h'⟩
    · rw [h] at e2
      rw [e2]; rfl
    · rw [h] at e2
      have : chars hex 8 (d ++ s) = none := by
        show chars hex (6 + 2) (d ++ s) = none
        rw [chars_add, e2]
        exact h'
      rw [this, e2]; rfl
  unfold simple
  rw [expression_none (by simp), hc]
  dsimp only
  rw [span_append]

theorem simple_small {t : Text} (h : SmallColor t) (s : Text) : simple (t ++ s) = some (.text t, s) := by
  have hb : (t ++ s).head? ≠ some '{' := by cases h <;> simp
  unfold simple
  rw [expression_none hb, color_small h]
  dsimp only
  rw [span_append]

/-- Such a color begins with a letter. -/
theorem small_first {t : Text} (h : SmallColor t) : ∃ r, t = 'r' :: r ∨ t = 'h' :: r := by
  cases h
  · exact ⟨_, .inl rfl⟩
  · exact ⟨_, .inl rfl⟩
  · exact ⟨_, .inr rfl⟩
  · exact ⟨_, .inr rfl⟩

/-! ### Repetitions -/

theorem more_stop {p : Text → Option (α × Text)} {s : Text} (h : p (skip s) = none) (k : Nat) : more p k s = ([], s) := by
  cases k with
  | zero => rfl
  | succ k => rw [more, h]

theorem more_some {p : Text → Option (α × Text)} {s r : Text} {a : α} (h : p (skip s) = some (a, r)) (k : Nat) :
    more p (k + 1) s = (a :: (more p k r).1, (more p k r).2) := by
  rw [more, h]

/-! ### Values -/

def Head.val : Head → Val
  | .expr _ e _ => .expr e
  | .color d => .text ('#' :: d)
  | .small t => .text t

def textVals (t : Text) : List Val := if t = [] then [] else [.text t]

def Value.vals : Value → List Val
  | .words heads t => heads.map (fun h => h.1.val) ++ textVals t
  | .url _ _ e _ _ => [.url e]
  | v@(.quoted ..) => [.text v.written]

theorem headsOk_tail {h : Head} {w t : Text} {heads : List (Spaced Head)} (H : HeadsOk ((h, w) :: heads) t) :
    h.Ok ∧ Blank w ∧ HeadsOk heads t := by
  cases heads with
  | nil => exact ⟨H.1, H.2.1, trivial⟩
  | cons x heads => exact ⟨H.1, H.2.1, H.2.2.2⟩

theorem head_skip {h : Head} (ok : h.Ok) (s : Text) : skip (h.written ++ s) = h.written ++ s := by
  cases h with
  | expr => exact skip_cons (by decide)
  | color => exact skip_cons (by decide)
  | small t =>
    obtain ⟨r, rfl | rfl⟩ := small_first ok
    · exact skip_cons (by decide)
    · exact skip_cons (by decide)

theorem head_simple {h : Head} {w t w3 s : Text} {heads : List (Spaced Head)} (H : HeadsOk ((h, w) :: heads) t)
    (hw : Blank w3) (ht : t = [] ∨ TextOk t) :
    simple (h.written ++ (w ++ (Spaced.all Head.written heads ++ (t ++ (w3 ++ ';' :: s))))) =
      some (h.val, w ++ (Spaced.all Head.written heads ++ (t ++ (w3 ++ ';' :: s)))) := by
  cases h with
  | expr before e after =>
    have := simple_expr (headsOk_tail H).1 (w ++ (Spaced.all Head.written heads ++ (t ++ (w3 ++ ';' :: s))))
    simpa [Head.written, Head.val] using this
  | color d =>
    obtain ⟨hlen, hd⟩ := (headsOk_tail H).1
    refine simple_color hd _ ?_
    rcases hlen with hlen | hlen
    · right
      refine ⟨hlen, ?_⟩
      have hbw := (headsOk_tail H).2.1
      cases heads with
      | cons x heads =>
        obtain ⟨h', w'⟩ := x
        cases h' with
        | expr b e a =>
          have := chars_few (c := '{') (by decide) (by decide) (n := 2) (t := [])
            (b ++ e ++ a ++ ['}'] ++ w' ++ Spaced.all Head.written heads ++ (t ++ (w3 ++ ';' :: s))) (by decide) hbw
          simpa [Spaced.all, Head.written] using this
        | color d' =>
          have := chars_few (c := '#') (by decide) (by decide) (n := 2) (t := [])
            (d' ++ w' ++ Spaced.all Head.written heads ++ (t ++ (w3 ++ ';' :: s))) (by decide) hbw
          simpa [Spaced.all, Head.written] using this
        | small t' =>
          obtain ⟨r, rfl | rfl⟩ := small_first (headsOk_tail (headsOk_tail H).2.2).1
          · have := chars_few (c := 'r') (by decide) (by decide) (n := 2) (t := [])
              (r ++ w' ++ Spaced.all Head.written heads ++ (t ++ (w3 ++ ';' :: s))) (by decide) hbw
            simpa [Spaced.all, Head.written] using this
          · have := chars_few (c := 'h') (by decide) (by decide) (n := 2) (t := [])
              (r ++ w' ++ Spaced.all Head.written heads ++ (t ++ (w3 ++ ';' :: s))) (by decide) hbw
            simpa [Spaced.all, Head.written] using this
      | nil =>
        show chars hex 2 (w ++ (t ++ (w3 ++ ';' :: s))) = none
        cases t with
        | nil =>
          have := chars_few (c := ';') (by decide) (by decide) (n := 2) (t := []) (w := w ++ w3) s (by decide)
            (fun c hc => (List.mem_append.mp hc).elim (hbw c) (hw c))
          simpa using this
        | cons c r =>
          have h6 := (H.2.2 (by simp)).2 hlen c r rfl
          by_cases hc : hex c = true
          · obtain ⟨d', r', rfl, h1, h2⟩ := h6 (hex_iff.mp hc)
            have hd' : hex d' = false := by
              cases e : hex d' with
              | false => rfl
              | true => exact absurd (hex_iff.mp e) h1
            have := chars_block hd' (not_ws h2) (r' ++ (w3 ++ ';' :: s)) (w ++ [c]) 2 (by
              rw [List.filter_append, blank_filter hbw, List.nil_append]
              exact Nat.lt_of_le_of_lt (List.length_filter_le ..) (by simp))
            simpa using this
          · have hcs : ¬ Space c := (ht.resolve_left (by simp)).solid.first c rfl
            have := chars_few (c := c) (by simpa using hc) (not_ws hcs) (n := 2) (t := []) (w := w) (r ++ (w3 ++ ';' :: s)) (by decide) hbw
            simpa using this
    · exact Or.inl hlen
  | small t' => exact simple_small (headsOk_tail H).1 _

theorem values_more {w3 : Text} (hw : Blank w3) (t s : Text) (ht : t = [] ∨ TextOk t) :
    ∀ (heads : List (Spaced Head)) (k : Nat) (x : Text), HeadsOk heads t → heads.length + 1 ≤ k →
      skip x = skip (Spaced.all Head.written heads ++ (t ++ (w3 ++ ';' :: s))) →
      ∃ r, more simple k x = (heads.map (fun h => h.1.val) ++ textVals t, r) ∧ skip r = ';' :: s
  | [], k, x, _, hk, hx => by
      have hsemi : skip (w3 ++ ';' :: s) = ';' :: s := skip_blank_cons hw (by decide) s
      rcases ht with rfl | ht
      · refine ⟨x, ?_, by rw [hx]; exact hsemi⟩
        rw [more_stop]
        · rfl
        · rw [hx]
          show simple (skip (w3 ++ ';' :: s)) = none
          rw [hsemi, simple_stop]
      · obtain ⟨k, rfl⟩ : ∃ k', k = k' + 1 := ⟨k - 1, by simp at hk; omega⟩
        refine ⟨w3 ++ ';' :: s, ?_, hsemi⟩
        have : simple (skip x) = some (.text t, w3 ++ ';' :: s) := by
          rw [hx]
          show simple (skip (t ++ (w3 ++ ';' :: s))) = _
          rw [skip_solid ht.solid, simple_text ht hw]
        rw [more_some this, more_stop (by rw [hsemi, simple_stop])]
        simp [textVals, ht.solid.some]
  | (h, w) :: heads, k, x, H, hk, hx => by
      obtain ⟨k, rfl⟩ : ∃ k', k = k' + 1 := ⟨k - 1, by simp at hk; omega⟩
      have e : Spaced.all Head.written ((h, w) :: heads) ++ (t ++ (w3 ++ ';' :: s)) =
          h.written ++ (w ++ (Spaced.all Head.written heads ++ (t ++ (w3 ++ ';' :: s)))) := by simp [Spaced.all]
      obtain ⟨r, hr, hr'⟩ := values_more hw t s ht heads k (w ++ (Spaced.all Head.written heads ++ (t ++ (w3 ++ ';' :: s))))
        (headsOk_tail H).2.2 (by simp at hk; omega) (skip_blank (headsOk_tail H).2.1 _)
      refine ⟨r, ?_, hr'⟩
      have : simple (skip x) = some (h.val, w ++ (Spaced.all Head.written heads ++ (t ++ (w3 ++ ';' :: s)))) := by
        rw [hx, e, head_skip (headsOk_tail H).1, head_simple H hw ht]
      rw [more_some this, hr]
      rfl

theorem value_first {v : Value} (h : v.Ok) : ∃ c s, v.written = c :: s ∧ ws c = false ∧ c ≠ ':' := by
  cases v with
  | words heads t =>
    cases heads with
    | nil =>
      have ht := h.2 (Or.inl rfl)
      cases t with
      | nil => exact absurd rfl ht.solid.some
      | cons c t =>
        exact ⟨c, t, rfl, not_ws (ht.solid.first c rfl), fun e => ht.noColon (by rw [e]; rfl)⟩
    | cons x heads =>
      obtain ⟨h', w⟩ := x
      cases h' with
      | expr b e a => exact ⟨'{', b ++ e ++ a ++ ['}'] ++ w ++ Spaced.all Head.written heads ++ t, by simp [Value.written, Spaced.all, Head.written], by decide, by decide⟩
      | color d => exact ⟨'#', d ++ w ++ Spaced.all Head.written heads ++ t, by simp [Value.written, Spaced.all, Head.written], by decide, by decide⟩
      | small t' =>
        obtain ⟨r, rfl | rfl⟩ := small_first (headsOk_tail h.1).1
        · exact ⟨'r', r ++ w ++ Spaced.all Head.written heads ++ t, by simp [Value.written, Spaced.all, Head.written], by decide, by decide⟩
        · exact ⟨'h', r ++ w ++ Spaced.all Head.written heads ++ t, by simp [Value.written, Spaced.all, Head.written], by decide, by decide⟩
  | url => exact ⟨'u', _, rfl, by decide, by decide⟩
  | quoted => exact ⟨'u', _, rfl, by decide, by decide⟩

theorem heads_length {t : Text} : ∀ {l : List (Spaced Head)}, HeadsOk l t → l.length ≤ (Spaced.all Head.written l).length
  | [], _ => by simp
  | (h, w) :: l, H => by
      have ih := heads_length (headsOk_tail H).2.2
      have hp : 0 < h.written.length := by
        have ok := (headsOk_tail H).1
        cases h with
        | expr => simp [Head.written]
        | color => simp [Head.written]
        | small t' => obtain ⟨r, rfl | rfl⟩ := small_first ok <;> simp [Head.written]
      have e : Spaced.all Head.written ((h, w) :: l) = h.written ++ w ++ Spaced.all Head.written l := by simp [Spaced.all]
      rw [e]
      simp only [List.length_append, List.length_cons]
      omega

theorem quote_ws {q : Char} (h : q = '\'' ∨ q = '"') : ws q = false ∧ q ≠ '{' := by
  rcases h with rfl | rfl <;> decide

theorem quoted_eq {q : Char} {b : Text} (hq : q = '\'' ∨ q = '"') (hb : Solid b) (h : q ∉ b) (s : Text) :
    quoted (q :: b ++ q :: s) = some s := by
  have hw := (quote_ws hq).1
  have hbl : Blank [] := fun _ h => absurd h (by simp)
  rw [List.cons_append, quoted, if_pos hq]
  have := cut_next (· = q) (t := b) (w := []) (rest := q :: s) hbl hb.last
    (fun c hc _ => by simpa using fun e : c = q => h (e ▸ hc)) (by rintro c s' e; cases e; exact ⟨hw, by simp⟩)
  rw [List.nil_append] at this
  rw [skip_solid hb, this]
  simp [hb.some, tok_cons hw]

theorem value_eq {v : Value} (h : v.Ok) {w3 : Text} (hw : Blank w3) (s : Text) :
    ∃ r, value (v.written ++ (w3 ++ ';' :: s)) = some (v.vals, r) ∧ skip r = ';' :: s := by
  have hsemi : skip (w3 ++ ';' :: s) = ';' :: s := skip_blank_cons hw (by decide) s
  cases v with
  | words heads t =>
    have ht : t = [] ∨ TextOk t := by
      by_cases e : t = []
      · exact Or.inl e
      · exact Or.inr (h.2 (Or.inr e))
    have hu : lit "url(".toList (Spaced.all Head.written heads ++ t ++ (w3 ++ ';' :: s)) = none := by
      cases heads with
      | nil =>
        have ht := h.2 (Or.inl rfl)
        apply lit_none
        intro hp
        rw [show Spaced.all Head.written [] = [] from rfl, List.nil_append] at hp
        exact ht.noUrl (prefix_of_append hw (by decide) (by decide) hp)
      | cons x heads =>
        obtain ⟨h', w⟩ := x
        cases h' with
        | expr b e a => exact lit_none_head (c := 'u') (p := "rl(".toList) (by simp [Spaced.all, Head.written])
        | color d => exact lit_none_head (c := 'u') (p := "rl(".toList) (by simp [Spaced.all, Head.written])
        | small t' =>
          obtain ⟨r, rfl | rfl⟩ := small_first (headsOk_tail h.1).1
          · exact lit_none_head (c := 'u') (p := "rl(".toList) (by simp [Spaced.all, Head.written])
          · exact lit_none_head (c := 'u') (p := "rl(".toList) (by simp [Spaced.all, Head.written])
    have hu' : url (Spaced.all Head.written heads ++ t ++ (w3 ++ ';' :: s)) = none := by
      unfold url
      rw [hu]
    obtain ⟨r, hr, hr'⟩ := values_more hw t s ht heads (Spaced.all Head.written heads ++ t ++ (w3 ++ ';' :: s)).length
      (Spaced.all Head.written heads ++ t ++ (w3 ++ ';' :: s)) h.1 (by
        have := heads_length h.1
        simp only [List.length_append, List.length_cons]
        omega) (by rw [List.append_assoc])
    refine ⟨r, ?_, hr'⟩
    unfold value
    rw [Value.written, hu', hr]
    have hne : heads.map (fun h => h.1.val) ++ textVals t ≠ [] := by
      cases heads with
      | nil => simp [textVals, (h.2 (Or.inl rfl)).solid.some]
      | cons x heads => simp
    simp only [hne, if_false]
    rfl
  | url w b e a w' =>
    obtain ⟨h1, h2, h3⟩ := h
    refine ⟨w3 ++ ';' :: s, ?_, hsemi⟩
    have e1 : (Value.url w b e a w').written ++ (w3 ++ ';' :: s) =
        "url(".toList ++ (w ++ ('{' :: b ++ e ++ a ++ '}' :: (w' ++ ')' :: (w3 ++ ';' :: s)))) := by simp [Value.written]
    have e2 : skip (w ++ ('{' :: b ++ e ++ a ++ '}' :: (w' ++ ')' :: (w3 ++ ';' :: s)))) =
        '{' :: b ++ e ++ a ++ '}' :: (w' ++ ')' :: (w3 ++ ';' :: s)) := by
      rw [skip_blank h1]; exact skip_cons (by decide)
    unfold value url
    rw [e1, lit_append]
    dsimp only
    rw [e2, expression_eq h2]
    dsimp only
    rw [tok_blank h3 (by decide)]
    rfl
  | quoted w q b w' =>
    obtain ⟨h1, h2, h3, h4, h5, h6⟩ := h
    refine ⟨w3 ++ ';' :: s, ?_, hsemi⟩
    have e1 : (Value.quoted w q b w').written ++ (w3 ++ ';' :: s) =
        "url(".toList ++ (w ++ (q :: b ++ q :: (w' ++ ')' :: (w3 ++ ';' :: s)))) := by simp [Value.written]
    have e2 : skip (w ++ (q :: b ++ q :: (w' ++ ')' :: (w3 ++ ';' :: s)))) = q :: b ++ q :: (w' ++ ')' :: (w3 ++ ';' :: s)) := by
      rw [skip_blank h1]; exact skip_cons (quote_ws h2).1
    have e3 : span ((Value.quoted w q b w').written ++ (w3 ++ ';' :: s)) (w3 ++ ';' :: s) = (Value.quoted w q b w').written :=
      span_append _ _
    unfold value url
    rw [e1] at e3
    rw [e1, lit_append]
    dsimp only
    rw [e2, expression_none (by simp [(quote_ws h2).2])]
    dsimp only
    rw [quoted_eq h2 h3 h5]
    simp only [Option.bind_some]
    rw [tok_blank h6 (by decide)]
    simp only [Option.map_some, e3]
    rfl

/-! ### Declarations -/

theorem colonNext_skip (s : Text) : colonNext s = colonNext (skip s) := by
  induction s with
  | nil => rfl
  | cons c s ih =>
    cases h : ws c with
    | true =>
      have : skip (c :: s) = skip s := skip_blank (w := [c]) (by simpa [Blank] using ws_iff.mp h) s
      rw [this, colonNext, if_pos h, ih]
    | false => rw [skip_cons h]

theorem colonNext_false {s : Text} (h : ∀ c r, skip s = c :: r → c ≠ ':') : colonNext s = false := by
  rw [colonNext_skip]
  cases e : skip s with
  | nil => rfl
  | cons c r =>
    have hc := h c r e
    have hw : ws c = false := by
      have := skip_skip s
      rw [e] at this
      cases h' : ws c with
      | false => rfl
      | true =>
        have h2 : skip (c :: r) = skip r := skip_blank (w := [c]) (by simpa [Blank] using ws_iff.mp h') r
        rw [h2] at this
        have hl : (skip r).length ≤ r.length := List.length_dropWhile_le ..
        rw [this] at hl
        simp only [List.length_cons] at hl
        omega
    rw [colonNext, hw]
    simp [hc]

theorem colon_eq {w : Text} (hw : Blank w) {c : Char} {s : Text} (hc : ws c = false) (h : c ≠ ':') :
    colon (':' :: (w ++ c :: s)) = some (w ++ c :: s) := by
  rw [colon, colonNext_false (by
    intro d r e
    rw [skip_blank_cons hw hc] at e
    cases e
    exact h)]
  simp

theorem chars1_eq {p : Char → Bool} {t w rest : Text} (ht : t ≠ []) (hp : ∀ c ∈ t, p c = true) (hps : ∀ c, p c = true → ws c = false)
    (hw : Blank w) (hr : ∀ c s, rest = c :: s → ws c = false ∧ p c = false) :
    chars1 p (t ++ (w ++ rest)) = some (w ++ rest) := by
  have hn : ∀ c ∈ t, ¬ Space c := fun c hc h => by
    have := hps c (hp c hc)
    rw [ws_iff.mpr h] at this
    cases this
  have hs : Solid t := ⟨ht, fun c hc => hn c (List.mem_of_mem_head? hc), fun c hc => hn c (List.mem_of_mem_getLast? hc)⟩
  have hcut : cut (fun s => !next p s) (t ++ (w ++ rest)) = (t, w ++ rest) := by
    apply cut_eq _ hw hs.last
    · rintro a c b rfl _
      simp [next, hp c (by simp)]
    · rintro c s rfl
      exact ⟨(hr c s rfl).1, by simp [next, (hr c s rfl).2]⟩
  unfold chars1
  rw [skip_solid hs, hcut]
  simp [ht]

theorem lowerDash_ws {c : Char} (h : lowerDash c = true) : ws c = false := by
  cases e : ws c with
  | false => rfl
  | true => rcases ws_iff.mp e with rfl | rfl | rfl | rfl <;> revert h <;> decide

theorem lowerDash_iff {c : Char} : lowerDash c = true ↔ ('a' ≤ c ∧ c ≤ 'z') ∨ c = '-' := by simp [lowerDash]

def Declaration.decl (d : Declaration) : Decl := ⟨d.name, d.value.vals⟩

theorem decl_eq {d : Declaration} (h : d.Ok) (s : Text) : decl (d.written ++ s) = some (d.decl, s) := by
  obtain ⟨name, w1, w2, v, w3⟩ := d
  obtain ⟨h1, h2, h3, h4, h5, h6, h7⟩ := h
  dsimp only at h1 h2 h3 h4 h5 h6 h7
  have e1 : (Declaration.mk name w1 w2 v w3).written ++ s = name ++ (w1 ++ ':' :: (w2 ++ (v.written ++ (w3 ++ ';' :: s)))) := by
    simp [Declaration.written]
  have hanim : lit "animation".toList (name ++ (w1 ++ ':' :: (w2 ++ (v.written ++ (w3 ++ ';' :: s))))) = none :=
    lit_none fun hp => h3 (prefix_of_append h4 (by decide) (by decide) hp)
  obtain ⟨c, n, rfl⟩ : ∃ c n, name = c :: n := by
    cases name with
    | nil => simp at h2
    | cons c n => exact ⟨c, n, rfl⟩
  have hn : n ≠ [] := by rintro rfl; simp at h2
  have hid : ruleIdent (c :: n ++ (w1 ++ ':' :: (w2 ++ (v.written ++ (w3 ++ ';' :: s))))) =
      some (c :: n, w1 ++ ':' :: (w2 ++ (v.written ++ (w3 ++ ';' :: s)))) := by
    rw [List.cons_append, ruleIdent, if_pos (by rw [lowerDash_iff.mpr (h1 c (by simp))]; rfl),
      chars1_eq hn (fun d hd => lowerDash_iff.mpr (h1 d (by simp [hd]))) (fun d => lowerDash_ws) h4 (by
        rintro d s' e; cases e; decide)]
    rw [← List.cons_append, Option.map_some, span_append]
  obtain ⟨a, b, hv, ha, hb⟩ := value_first h6
  obtain ⟨r, hr, hr'⟩ := value_eq h6 h7 s
  unfold decl
  rw [e1, hanim, hid]
  simp only [Option.isSome_none, Bool.false_eq_true, if_false]
  rw [skip_blank_cons h4 (by decide)]
  have hcol : colon (':' :: (w2 ++ (v.written ++ (w3 ++ ';' :: s)))) = some (w2 ++ (v.written ++ (w3 ++ ';' :: s))) := by
    rw [hv]; exact colon_eq h5 ha hb
  have hsk : skip (w2 ++ (v.written ++ (w3 ++ ';' :: s))) = v.written ++ (w3 ++ ';' :: s) := by
    rw [hv]; exact skip_blank_cons h5 ha _
  rw [hcol]
  dsimp only
  rw [hsk, hr]
  dsimp only
  unfold tok
  rw [hr']
  simp [lit, Declaration.decl]

/-! ### Lists -/

/-- No semicolon follows. -/
def Good (tail : Text) : Prop := ∀ c r, skip tail = c :: r → c ≠ ';'

/-- What is written for `b` begins with something, and is read. -/
structure Reads (p : Text → Option (α × Text)) (f : β → Text) (g : β → α) (b : β) : Prop where
  first : ∃ c s, f b = c :: s ∧ ws c = false ∧ c ≠ ';'
  reads : ∀ tail, Good tail → ∃ r, p (f b ++ tail) = some (g b, r) ∧ skip r = skip tail

theorem more_list {p : Text → Option (α × Text)} {f : β → Text} {g : β → α} {rest : Text} (hrest : p (skip rest) = none)
    (hgood : Good rest) : ∀ (l : List (Spaced β)) (k : Nat) (x : Text), (∀ y ∈ l, Reads p f g y.1 ∧ Blank y.2) → l.length ≤ k →
      skip x = skip (Spaced.all f l ++ rest) → ∃ r, more p k x = (l.map (fun y => g y.1), r) ∧ skip r = skip rest
  | [], k, x, _, _, hx => ⟨x, more_stop (by rw [hx]; exact hrest) k, hx⟩
  | (b, w) :: l, k, x, h, hk, hx => by
      obtain ⟨k, rfl⟩ : ∃ k', k = k' + 1 := ⟨k - 1, by simp at hk; omega⟩
      obtain ⟨hb, hw⟩ := h (b, w) (by simp)
      have e : Spaced.all f ((b, w) :: l) ++ rest = f b ++ (w ++ (Spaced.all f l ++ rest)) := by simp [Spaced.all]
      have hg : Good (w ++ (Spaced.all f l ++ rest)) := by
        intro c r hc
        rw [skip_blank hw] at hc
        cases l with
        | nil => exact hgood c r hc
        | cons y l =>
          obtain ⟨b', w'⟩ := y
          obtain ⟨c', s', hf, hws, hne⟩ := (h (b', w') (by simp)).1.first
          have e' : Spaced.all f ((b', w') :: l) ++ rest = c' :: (s' ++ (w' ++ (Spaced.all f l ++ rest))) := by
            simp only [Spaced.all, List.map_cons, List.flatten_cons]
            rw [hf]
            simp
          rw [e', skip_cons hws] at hc
          cases hc
          exact hne
      obtain ⟨r, hr, hr'⟩ := hb.reads _ hg
      obtain ⟨r2, hr2, hr2'⟩ := more_list hrest hgood l k r (fun y hy => h y (by simp [hy])) (by simp at hk; omega)
        (by rw [hr', skip_blank hw])
      refine ⟨r2, ?_, hr2'⟩
      have hx' : p (skip x) = some (g b, r) := by
        obtain ⟨c', s', hf, hws, _⟩ := hb.first
        rw [hx, e, ← hr, hf, List.cons_append, skip_cons hws]
      rw [more_some hx', hr2]
      rfl

theorem reads_length {p : Text → Option (α × Text)} {f : β → Text} {g : β → α} : ∀ (l : List (Spaced β)),
    (∀ y ∈ l, Reads p f g y.1 ∧ Blank y.2) → l.length ≤ (Spaced.all f l).length
  | [], _ => by simp
  | (b, w) :: l, h => by
      obtain ⟨c, s, hf, _⟩ := (h (b, w) (by simp)).1.first
      have := reads_length l fun y hy => h y (by simp [hy])
      have e : Spaced.all f ((b, w) :: l) = f b ++ w ++ Spaced.all f l := by simp [Spaced.all]
      rw [e, hf]
      simp only [List.length_append, List.length_cons]
      omega

theorem decl_none {s : Text} (h : ∀ c ∈ s.head?, lowerDash c = false ∧ c ≠ '@') : decl s = none := by
  have hid : ruleIdent s = none := by
    cases s with
    | nil => rfl
    | cons c s =>
      obtain ⟨h1, h2⟩ := h c rfl
      rw [ruleIdent, if_neg (by simp [h1, h2])]
  unfold decl
  rw [hid]
  split <;> rfl

theorem declaration_first {d : Declaration} (h : d.Ok) : ∃ c s, d.written = c :: s ∧ lowerDash c = true := by
  obtain ⟨name, w1, w2, v, w3⟩ := d
  cases name with
  | nil => have := h.two; simp at this
  | cons c n => exact ⟨c, n ++ w1 ++ ':' :: w2 ++ v.written ++ w3 ++ [';'], by simp [Declaration.written], lowerDash_iff.mpr (h.name c (by simp))⟩

theorem lowerDash_ne {c : Char} (h : lowerDash c = true) : c ≠ ';' ∧ c ≠ '/' ∧ c ≠ '@' := by
  refine ⟨?_, ?_, ?_⟩ <;> (rintro rfl; revert h; decide)

theorem declaration_reads {d : Declaration} (h : d.Ok) : Reads decl Declaration.written Declaration.decl d where
  first := by
    obtain ⟨c, s, e, hc⟩ := declaration_first h
    exact ⟨c, s, e, lowerDash_ws hc, (lowerDash_ne hc).1⟩
  reads tail _ := ⟨tail, decl_eq h tail, rfl⟩

theorem good_cons {c : Char} {s : Text} (hc : ws c = false) (h : c ≠ ';') : Good (c :: s) := by
  intro d r e
  rw [skip_cons hc] at e
  cases e
  exact h

/-! ### Animations -/

def Frame.frame (f : Frame) : Text × List Decl := (f.step ++ ['%'], f.decls.map fun d => d.1.decl)

theorem frame_eq {f : Frame} (h : f.Ok) (s : Text) : frame (f.written ++ s) = some (f.frame, s) := by
  obtain ⟨step, w, lead, ds⟩ := f
  obtain ⟨⟨h1, h1'⟩, h2, h3, h4, h5⟩ := h
  dsimp only at h1 h1' h2 h3 h4 h5
  have e1 : (Frame.mk step w lead ds).written ++ s =
      step ++ ([] ++ '%' :: (w ++ '{' :: (lead ++ (Spaced.all Declaration.written ds ++ '}' :: s)))) := by simp [Frame.written]
  have e2 : (Frame.mk step w lead ds).written ++ s =
      (step ++ ['%']) ++ (w ++ '{' :: (lead ++ (Spaced.all Declaration.written ds ++ '}' :: s))) := by simp [Frame.written]
  have hc : (chars1 Char.isDigit ((Frame.mk step w lead ds).written ++ s)).bind (tok ['%']) =
      some (w ++ '{' :: (lead ++ (Spaced.all Declaration.written ds ++ '}' :: s))) := by
    rw [e1, chars1_eq h1 h1' (fun c => digit_ws) blank_nil (by rintro c s' e; cases e; decide)]
    exact tok_cons (by decide) _
  have hd : ∀ y ∈ ds, Reads decl Declaration.written Declaration.decl y.1 ∧ Blank y.2 := fun y hy =>
    ⟨declaration_reads (h5 y hy).1, (h5 y hy).2⟩
  obtain ⟨r, hr, hr'⟩ := more_list (p := decl) (rest := '}' :: s) (by rw [skip_cons (by decide)]; exact decl_none (by simp; decide))
    (good_cons (by decide) (by decide)) ds (lead ++ (Spaced.all Declaration.written ds ++ '}' :: s)).length
    (lead ++ (Spaced.all Declaration.written ds ++ '}' :: s)) hd (by
      have := reads_length ds hd
      simp only [List.length_append, List.length_cons]
      omega) (skip_blank h3 _)
  unfold frame
  rw [hc]
  dsimp only
  rw [tok_blank h2 (by decide)]
  dsimp only
  rw [hr]
  have hne : ds.map (fun y => y.1.decl) ≠ [] := by simpa using h4
  simp only [hne, if_false]
  unfold tok
  rw [hr', skip_cons (by decide), e2, span_append]
  simp [lit, Frame.frame]

theorem frame_none {s : Text} (h : ∀ c ∈ s.head?, c.isDigit = false ∧ ws c = false) : frame s = none := by
  have : chars1 Char.isDigit s = none := by
    have hc : cut (fun s => !next Char.isDigit s) (skip s) = ([], skip s) := by
      cases s with
      | nil => rfl
      | cons c s =>
        obtain ⟨h1, h2⟩ := h c rfl
        rw [skip_cons h2]
        exact cut_blank _ (w := []) blank_nil (by rintro d s' e; cases e; exact ⟨h2, by simp [next, h1]⟩)
    unfold chars1
    rw [hc]
    rfl
  unfold frame
  rw [this]
  rfl

theorem frame_reads {f : Frame} (h : f.Ok) : Reads frame Frame.written Frame.frame f where
  first := by
    obtain ⟨step, w, lead, ds⟩ := f
    cases step with
    | nil => exact absurd rfl h.step.1
    | cons c n =>
      have hc := h.step.2 c (by simp)
      exact ⟨c, n ++ '%' :: w ++ '{' :: lead ++ Spaced.all Declaration.written ds ++ ['}'], by simp [Frame.written], digit_ws hc,
        by rintro rfl; revert hc; decide⟩
  reads tail _ := ⟨tail, frame_eq h tail, rfl⟩

theorem frames_eq {lead : Text} {fs : List (Spaced Frame)} (h1 : Blank lead) (h2 : fs ≠ []) (h3 : ∀ g ∈ fs, g.1.Ok ∧ Blank g.2) (s : Text) :
    frames ('{' :: lead ++ Spaced.all Frame.written fs ++ '}' :: s) = some (fs.map fun f => f.1.frame, s) := by
  have e1 : lit ['{'] ('{' :: lead ++ Spaced.all Frame.written fs ++ '}' :: s) = some (lead ++ (Spaced.all Frame.written fs ++ '}' :: s)) := by
    simp [lit]
  have hd : ∀ y ∈ fs, Reads frame Frame.written Frame.frame y.1 ∧ Blank y.2 := fun y hy => ⟨frame_reads (h3 y hy).1, (h3 y hy).2⟩
  obtain ⟨r, hr, hr'⟩ := more_list (p := frame) (rest := '}' :: s) (by rw [skip_cons (by decide)]; exact frame_none (by simp; decide))
    (good_cons (by decide) (by decide)) fs (lead ++ (Spaced.all Frame.written fs ++ '}' :: s)).length
    (lead ++ (Spaced.all Frame.written fs ++ '}' :: s)) hd (by
      have := reads_length fs hd
      simp only [List.length_append, List.length_cons]
      omega) (skip_blank h1 _)
  unfold frames
  rw [e1]
  dsimp only
  rw [hr]
  have hne : fs.map (fun y => y.1.frame) ≠ [] := by simpa using h2
  simp only [hne, if_false]
  unfold tok
  rw [hr', skip_cons (by decide)]
  simp [lit]

def Animation.rule (a : Animation) : Rule := .animation a.params (a.frames.map fun f => f.2.map fun f => f.1.frame)

theorem animation_eq {a : Animation} (h : a.Ok) (s : Text) : animation (a.written ++ s) = some (a.rule, s) := by
  obtain ⟨w1, w2, params, w3, fs, w4⟩ := a
  obtain ⟨h1, h2, ⟨h3, h3', h3''⟩, h4, h5, h6⟩ := h
  dsimp only at h1 h2 h3 h3' h3'' h4 h5 h6
  have e1 : (Animation.mk w1 w2 params w3 fs w4).written ++ s =
      "animation".toList ++ (w1 ++ ':' :: (w2 ++ (params ++ (w3 ++ (framesWritten fs ++ (w4 ++ ';' :: s)))))) := by
    unfold Animation.written
    generalize "animation".toList = p
    simp
  obtain ⟨c, t, rfl⟩ : ∃ c t, params = c :: t := by
    cases params with
    | nil => exact absurd rfl h3.some
    | cons c t => exact ⟨c, t, rfl⟩
  have hc : ws c = false := not_ws (h3.first c rfl)
  have hcc : c ≠ ':' := fun e => h3'' (by rw [e]; rfl)
  have e2 : (lit "animation".toList ((Animation.mk w1 w2 (c :: t) w3 fs w4).written ++ s)).bind (fun s => colon (skip s)) =
      some (w2 ++ (c :: t ++ (w3 ++ (framesWritten fs ++ (w4 ++ ';' :: s))))) := by
    rw [e1, lit_append, Option.bind_some, skip_blank_cons h1 (by decide)]
    exact colon_eq h2 hc hcc
  have hp : ∀ d ∈ c :: t, ws d = false → ((d = '{' || d = ';') : Bool) = false := by
    intro d hd _
    have := h3' d hd
    simp [this.1, this.2.2]
  unfold animation
  rw [e2]
  dsimp only
  have e3 : skip (w2 ++ (c :: t ++ (w3 ++ (framesWritten fs ++ (w4 ++ ';' :: s))))) = c :: t ++ (w3 ++ (framesWritten fs ++ (w4 ++ ';' :: s))) := by
    rw [skip_blank h2, List.cons_append, skip_cons hc]
  rw [e3]
  cases fs with
  | none =>
    have hw : Blank (w3 ++ w4) := fun c hc => (List.mem_append.mp hc).elim (h4 c) (h6 c)
    have := cut_next (fun d => d = '{' || d = ';') (t := c :: t) (w := w3 ++ w4) (rest := ';' :: s) hw h3.last hp (by
      rintro d s' e; cases e; decide)
    have e4 : c :: t ++ (w3 ++ (framesWritten none ++ (w4 ++ ';' :: s))) = c :: t ++ (w3 ++ w4 ++ ';' :: s) := by
      simp [framesWritten]
    rw [e4, this]
    dsimp only
    have hf : frames (skip (w3 ++ w4 ++ ';' :: s)) = none := by
      rw [skip_blank_cons hw (by decide)]
      unfold frames
      rw [lit_none_head (by simp)]
    rw [hf, tok_blank hw (by decide)]
    rfl
  | some f =>
    obtain ⟨lead, fs⟩ := f
    obtain ⟨h51, h52, h53⟩ := h5 (lead, fs) rfl
    have e4 : framesWritten (some (lead, fs)) ++ (w4 ++ ';' :: s) = '{' :: lead ++ Spaced.all Frame.written fs ++ '}' :: (w4 ++ ';' :: s) := by
      simp [framesWritten]
    rw [e4]
    have := cut_next (fun d => d = '{' || d = ';') (t := c :: t) (w := w3) (rest := '{' :: lead ++ Spaced.all Frame.written fs ++ '}' :: (w4 ++ ';' :: s))
      h4 h3.last hp (by rintro d s' e; cases e; decide)
    rw [this]
    dsimp only
    have hs : skip (w3 ++ ('{' :: lead ++ Spaced.all Frame.written fs ++ '}' :: (w4 ++ ';' :: s))) =
        '{' :: lead ++ Spaced.all Frame.written fs ++ '}' :: (w4 ++ ';' :: s) := by
      rw [skip_blank h4]; exact skip_cons (by decide)
    rw [hs, frames_eq h51 h52 h53]
    dsimp only
    rw [tok_blank h6 (by decide)]
    rfl

/-! ### Comments -/

theorem comment_cut (s : Text) : ∀ body : Text, ¬ "*/".toList <:+: body →
    skip (cut (fun s => (lit "*/".toList s).isSome) (body ++ '*' :: '/' :: s)).2 = '*' :: '/' :: s
  | [], _ => by
      have := cut_blank (fun s => (lit "*/".toList s).isSome) (w := []) (rest := '*' :: '/' :: s) blank_nil
        (by rintro d s' e; cases e; exact ⟨by decide, rfl⟩)
      rw [List.nil_append] at this ⊢
      rw [this]
      exact skip_cons (by decide)
  | c :: body, h => by
      have ih := comment_cut s body fun h' => h (h'.trans (List.suffix_cons c body).isInfix)
      have hap := cut_append (fun s => (lit "*/".toList s).isSome) (body ++ '*' :: '/' :: s)
      rw [List.cons_append, cut]
      split
      · rename_i hc
        dsimp only
        split
        · rename_i ha
          rw [ha, List.nil_append] at hap
          rw [hap] at ih
          show skip ([c] ++ (body ++ '*' :: '/' :: s)) = _
          rw [skip_blank (by simpa [Blank] using ws_iff.mp hc), ih]
        · exact ih
      · have hst : (lit "*/".toList (c :: (body ++ '*' :: '/' :: s))).isSome = false := by
          rw [lit_none]
          · rfl
          · rintro ⟨r, hr⟩
            cases body with
            | nil => cases hr
            | cons d body =>
              rw [show "*/".toList = ['*', '/'] from rfl] at hr h
              simp only [List.cons_append, List.nil_append, List.cons.injEq] at hr
              obtain ⟨rfl, rfl, _⟩ := hr
              exact h ⟨[], body, rfl⟩
        rw [hst]
        simpa using ih

theorem comment_eq {body : Text} (h : ¬ "*/".toList <:+: body) (s : Text) :
    comment ("/*".toList ++ body ++ "*/".toList ++ s) = some s := by
  have e : "/*".toList ++ body ++ "*/".toList ++ s = "/*".toList ++ (body ++ '*' :: '/' :: s) := by
    rw [List.append_assoc, List.append_assoc]; rfl
  have hsk : skip (body ++ '*' :: '/' :: s) = skip body ++ '*' :: '/' :: s := by
    unfold skip
    rw [List.dropWhile_append]
    split
    · rename_i h
      rw [List.isEmpty_iff.mp h]
      rfl
    · rfl
  have hsuf : skip body <:+ body := List.dropWhile_suffix _
  unfold comment
  rw [e, lit_append, Option.bind_some, hsk]
  unfold tok
  rw [comment_cut s (skip body) fun h' => h (h'.trans hsuf.isInfix)]
  exact lit_append _ _

/-! ### Selectors -/

theorem selCut_ws {c : Char} (h : ws c = true) (s : Text) :
    selCut (c :: s) = if (selCut s).1 = [] then ([], c :: s) else (c :: (selCut s).1, (selCut s).2) := by
  rw [selCut.eq_def]; simp [h]

theorem selCut_stop {c : Char} (h : c = '[' ∨ c = '{') (s : Text) : selCut (c :: s) = ([], c :: s) := by
  have : ws c = false := by rcases h with rfl | rfl <;> decide
  rw [selCut.eq_def]; simp [h, this]

theorem selCut_other {c : Char} (h : ws c = false) (h1 : c ≠ ':') (h2 : c ≠ '[') (h3 : c ≠ '{') (s : Text) :
    selCut (c :: s) = (c :: (selCut s).1, (selCut s).2) := by
  rw [selCut.eq_def]; simp [h, h1, h2, h3]

theorem selCut_double {s : Text} (h : colonNext (':' :: s) = true) :
    selCut (':' :: ':' :: s) = (':' :: ':' :: (selCut s).1, (selCut s).2) := by
  rw [selCut.eq_def]
  simp only [h, if_true]
  rfl

theorem selCut_blank {w : Text} (hw : Blank w) {c : Char} (hc : c = '[' ∨ c = '{') (s : Text) : selCut (w ++ c :: s) = ([], w ++ c :: s) := by
  induction w with
  | nil =>
    exact selCut_stop hc s
  | cons d w ih =>
    rw [List.cons_append, selCut_ws (ws_iff.mpr (hw d (by simp))), ih fun e he => hw e (by simp [he])]
    simp

theorem selCut_plain {t : Text} (ht : ∀ c ∈ t, c ≠ ':' ∧ c ≠ '[' ∧ c ≠ '{') (hl : ∀ c ∈ t.getLast?, ¬ Space c) (rest : Text) :
    selCut (t ++ rest) = (t ++ (selCut rest).1, (selCut rest).2) := by
  induction t with
  | nil => rfl
  | cons c t ih =>
    have ih' := ih (fun d hd => ht d (by simp [hd])) (by
      intro d hd
      apply hl d
      cases t with
      | nil => simp at hd
      | cons e t => simpa [List.getLast?_cons_cons] using hd)
    obtain ⟨h1, h2, h3⟩ := ht c (by simp)
    rw [List.cons_append]
    cases hc : ws c with
    | true =>
      have : t ≠ [] := by
        rintro rfl
        exact hl c (by simp) (ws_iff.mp hc)
      rw [selCut_ws hc, ih']
      simp [this]
    | false =>
      rw [selCut_other hc h1 h2 h3, ih']
      simp

theorem pseudoPart_plain {t : Text} (h : PseudoPart t) : ∀ c ∈ t, c ≠ ':' ∧ c ≠ '[' ∧ c ≠ '{' := fun c hc =>
  ⟨fun e => h.2.2.1 (e ▸ hc), fun e => h.2.2.2 (e ▸ hc), (h.2.1 c hc).1⟩

theorem solid_first {t : Text} (h : Solid t) (hc : ':' ∉ t) : ∃ c r, t = c :: r ∧ ws c = false ∧ c ≠ ':' := by
  cases t with
  | nil => exact absurd rfl h.some
  | cons c r => exact ⟨c, r, rfl, not_ws (h.first c rfl), fun e => hc (by simp [e])⟩

theorem selCut_parts {w : Text} (hw : Blank w) {c : Char} (hc : c = '[' ∨ c = '{') (s : Text) : ∀ (parts : List Text),
    (∀ t ∈ parts, PseudoPart t) →
    selCut ((parts.map fun t => "::".toList ++ t).flatten ++ (w ++ c :: s)) = ((parts.map fun t => "::".toList ++ t).flatten, w ++ c :: s)
  | [], _ => selCut_blank hw hc s
  | t :: parts, h => by
      have ht := h t (by simp)
      have ih := selCut_parts hw hc s parts fun u hu => h u (by simp [hu])
      have e : ((t :: parts).map fun t => "::".toList ++ t).flatten ++ (w ++ c :: s) =
          ':' :: ':' :: (t ++ ((parts.map fun t => "::".toList ++ t).flatten ++ (w ++ c :: s))) := by
        rw [show "::".toList = [':', ':'] from rfl]; simp
      have hcn : colonNext (':' :: (t ++ ((parts.map fun t => "::".toList ++ t).flatten ++ (w ++ c :: s)))) = true := by
        rw [colonNext, if_neg (by decide), colonNext_false]
        · rfl
        · intro d r e
          obtain ⟨d', r', rfl, h1, h2⟩ := solid_first ht.1 ht.2.2.1
          rw [List.cons_append, skip_cons h1] at e
          cases e
          exact h2
      rw [e, selCut_double hcn, selCut_plain (pseudoPart_plain ht) ht.1.last, ih, show "::".toList = [':', ':'] from rfl]
      simp

theorem subSelector_eq {p : Pseudo} (h : p.Ok) {w : Text} (hw : Blank w) {c : Char} (hc : c = '[' ∨ c = '{') (s : Text) :
    subSelector (p.written ++ (w ++ c :: s)) = some (.pseudo p.written, w ++ c :: s) := by
  obtain ⟨d, r, hf, h1, h2⟩ := solid_first h.first.1 h.first.2.2.1
  have e : p.written ++ (w ++ c :: s) = ':' :: ([] ++ d :: (r ++ ((p.more.map fun t => "::".toList ++ t).flatten ++ (w ++ c :: s)))) := by
    simp only [Pseudo.written, hf, List.append_assoc, List.cons_append, List.nil_append]
  have e2 : d :: (r ++ ((p.more.map fun t => "::".toList ++ t).flatten ++ (w ++ c :: s))) =
      p.first ++ ((p.more.map fun t => "::".toList ++ t).flatten ++ (w ++ c :: s)) := by rw [hf]; rfl
  unfold subSelector
  rw [show colon (p.written ++ (w ++ c :: s)) = _ from e ▸ colon_eq blank_nil h1 h2]
  dsimp only
  rw [List.nil_append, e2, skip_solid h.first.1, selCut_plain (pseudoPart_plain h.first) h.first.1.last, selCut_parts hw hc s _ h.more]
  simp only [span_append]
  rw [if_neg (by simp [h.first.1.some])]

theorem ref_char {c : Char} (h : c.isAlphanum = true ∨ c = '_') : ws c = false ∧ c ≠ ':' ∧ c ≠ '[' ∧ c ≠ '{' ∧ c ≠ ']' := by
  rcases h with h | rfl
  · refine ⟨?_, ?_, ?_, ?_, ?_⟩
    · cases e : ws c with
      | false => rfl
      | true => rcases ws_iff.mp e with rfl | rfl | rfl | rfl <;> revert h <;> decide
    all_goals (rintro rfl; revert h; decide)
  · decide

theorem colon_none {s : Text} (h : s.head? ≠ some ':') : colon s = none := by
  cases s with
  | nil => rfl
  | cons c s =>
    rw [colon, if_neg]
    have : c ≠ ':' := fun e => h (by rw [e]; rfl)
    simp [this]

theorem subSelectorRef_eq {name : Text} (h : RefOk name) {w : Text} (hw : Blank w) {c : Char} (hc : c = '[' ∨ c = '{') (s : Text) :
    subSelectorRef ('[' :: name ++ [']'] ++ (w ++ c :: s)) = some (.ref ('[' :: name ++ [']']), w ++ c :: s) := by
  have hchars : ∀ d ∈ name ++ [']'], ws d = false ∧ d ≠ ':' ∧ d ≠ '[' ∧ d ≠ '{' := by
    intro d hd
    rcases List.mem_append.mp hd with hd | hd
    · have := ref_char (h.2 d hd)
      exact ⟨this.1, this.2.1, this.2.2.1, this.2.2.2.1⟩
    · simp at hd; subst hd; decide
  have e1 : lit ['['] ('[' :: name ++ [']'] ++ (w ++ c :: s)) = some (name ++ [']'] ++ (w ++ c :: s)) := by simp [lit]
  have hsk : skip (name ++ [']'] ++ (w ++ c :: s)) = name ++ [']'] ++ (w ++ c :: s) := by
    cases name with
    | nil => exact absurd rfl h.1
    | cons d n => exact skip_cons (hchars d (by simp)).1
  have hcut : cut (fun s => (colon s).isSome || next (fun c => c = '[' || c = '{') s) (name ++ [']'] ++ (w ++ c :: s)) =
      (name ++ [']'], w ++ c :: s) := by
    apply cut_eq _ hw
    · intro d hd hs
      have := (hchars d (List.mem_of_mem_getLast? hd)).1
      rw [ws_iff.mpr hs] at this
      cases this
    · intro a d b e _
      have := hchars d (by rw [e]; simp)
      rw [colon_none (by simp [this.2.1])]
      simp [next, this.2.2.1, this.2.2.2]
    · rintro d s' e
      cases e
      rcases hc with rfl | rfl <;> exact ⟨by decide, by simp [next]⟩
  unfold subSelectorRef
  rw [e1]
  dsimp only
  rw [hsk, hcut]
  simp only [span_append]
  rw [if_neg (by simp)]

def refsText (refs : List (Text × Text)) : Text := (refs.map fun (w, name) => w ++ '[' :: name ++ [']']).flatten

theorem refs_split {refs : List (Text × Text)} (h : ∀ r ∈ refs, Blank r.1 ∧ r.1 ≠ [] ∧ RefOk r.2) {w : Text} (hw : Blank w) (s : Text) :
    ∃ w' c s', refsText refs ++ (w ++ '{' :: s) = w' ++ c :: s' ∧ Blank w' ∧ (c = '[' ∨ c = '{') := by
  cases refs with
  | nil => exact ⟨w, '{', s, rfl, hw, Or.inr rfl⟩
  | cons r refs =>
    obtain ⟨w', name⟩ := r
    exact ⟨w', '[', name ++ [']'] ++ (refsText refs ++ (w ++ '{' :: s)), by simp [refsText], (h (w', name) (by simp)).1, Or.inl rfl⟩

theorem refs_more {w : Text} (hw : Blank w) (s : Text) : ∀ (refs : List (Text × Text)) (k : Nat) (x : Text),
    (∀ r ∈ refs, Blank r.1 ∧ r.1 ≠ [] ∧ RefOk r.2) → refs.length ≤ k → skip x = skip (refsText refs ++ (w ++ '{' :: s)) →
    ∃ r, more subSelectorRef k x = (refs.map fun r => .ref ('[' :: r.2 ++ [']']), r) ∧ skip r = '{' :: s
  | [], k, x, _, _, hx => by
      have hx' : skip x = '{' :: s := by rw [hx]; exact skip_blank_cons hw (by decide) s
      refine ⟨x, more_stop ?_ k, hx'⟩
      rw [hx']
      unfold subSelectorRef
      rw [lit_none_head (by simp)]
  | (w', name) :: refs, k, x, h, hk, hx => by
      obtain ⟨k, rfl⟩ : ∃ k', k = k' + 1 := ⟨k - 1, by simp at hk; omega⟩
      obtain ⟨h1, _, h2⟩ := h (w', name) (by simp)
      obtain ⟨w2, c, s', e, hb, hc⟩ := refs_split (fun r hr => h r (by simp [hr])) (refs := refs) hw s
      have hx' : skip x = '[' :: name ++ [']'] ++ (w2 ++ c :: s') := by
        rw [hx, ← e]
        have : refsText ((w', name) :: refs) ++ (w ++ '{' :: s) = w' ++ ('[' :: name ++ [']'] ++ (refsText refs ++ (w ++ '{' :: s))) := by
          simp [refsText]
        rw [this, skip_blank h1]
        exact skip_cons (by decide)
      obtain ⟨r, hr, hr'⟩ := refs_more hw s refs k (w2 ++ c :: s') (fun r hr => h r (by simp [hr])) (by simp at hk; omega)
        (by rw [← e])
      refine ⟨r, ?_, hr'⟩
      have : subSelectorRef (skip x) = some (.ref ('[' :: name ++ [']']), w2 ++ c :: s') := by
        rw [hx', subSelectorRef_eq h2 hb hc]
      rw [more_some this, hr]
      rfl

def Selector.sel : Selector → Sel
  | .pseudo p => .pseudo p.written
  | .ref name => .ref ('[' :: name ++ [']'])

theorem refsText_length (refs : List (Text × Text)) : refs.length ≤ (refsText refs).length := by
  induction refs with
  | nil => simp
  | cons r refs ih =>
    have e : refsText (r :: refs) = r.1 ++ '[' :: r.2 ++ [']'] ++ refsText refs := by simp [refsText]
    rw [e]
    simp only [List.length_append, List.length_cons]
    omega

theorem selectors_eq {first : Selector} {refs : List (Text × Text)} (h1 : first.Ok) (h : ∀ r ∈ refs, Blank r.1 ∧ r.1 ≠ [] ∧ RefOk r.2)
    {w : Text} (hw : Blank w) (s : Text) :
    ∃ r, selectors (first.written ++ (refsText refs ++ (w ++ '{' :: s))) =
      (first.sel :: refs.map fun r => .ref ('[' :: r.2 ++ [']']), r) ∧ skip r = '{' :: s := by
  obtain ⟨w2, c, s', e, hb, hc⟩ := refs_split h hw s
  have hf : (subSelector (first.written ++ (w2 ++ c :: s'))).or (subSelectorRef (first.written ++ (w2 ++ c :: s'))) =
      some (first.sel, w2 ++ c :: s') := by
    cases first with
    | pseudo p => rw [Selector.written, subSelector_eq h1 hb hc]; rfl
    | ref name =>
      have hn : subSelector (Selector.written (.ref name) ++ (w2 ++ c :: s')) = none := by
        unfold subSelector
        rw [colon_none (by simp [Selector.written])]
      rw [hn, Selector.written, subSelectorRef_eq h1 hb hc]; rfl
  obtain ⟨r, hr, hr'⟩ := refs_more hw s refs (refsText refs ++ (w ++ '{' :: s)).length (refsText refs ++ (w ++ '{' :: s)) h
    (by have := refsText_length refs; simp only [List.length_append, List.length_cons]; omega) rfl
  refine ⟨r, ?_, hr'⟩
  unfold selectors
  rw [e, hf]
  dsimp only
  rw [← e, hr]

/-! ### Rules -/

def Line.rule (g : α → Rule) : Line α → Option Rule
  | .comment _ => none
  | .item a => some (g a)

theorem lines_rules (g : α → Rule) (l : List (Spaced (Line α))) :
    (l.map fun y => y.1.rule g).filterMap id = (l.flatMap fun y => y.1.items).map g := by
  induction l with
  | nil => rfl
  | cons y l ih =>
    obtain ⟨y, w⟩ := y
    cases y with
    | comment b => simpa [Line.rule, Line.items] using ih
    | item a => simpa [Line.rule, Line.items] using ih

theorem lit_head {c : Char} {p s : Text} (h : s.head? ≠ some c) (q : Text) (hq : q = c :: p) : lit q s = none := by
  subst hq; exact lit_none_head h

theorem comment_none {s : Text} (h : s.head? ≠ some '/') : comment s = none := by
  unfold comment
  rw [lit_head h "/*".toList (p := ['*']) rfl]
  rfl

theorem animation_none {s : Text} (h : ¬ "animation".toList <+: s) : animation s = none := by
  unfold animation
  rw [lit_none h]
  rfl

theorem animation_none_head {s : Text} (h : s.head? ≠ some 'a') : animation s = none := by
  apply animation_none
  rintro ⟨r, rfl⟩
  exact h rfl

theorem media_none {s : Text} (h : s.head? ≠ some '@') : lit "@media".toList s = none :=
  lit_head h _ (p := "media".toList) rfl

theorem rule_comment {n : Nat} {s r : Text} (h : comment s = some r) : rule (n + 1) s = some (none, r) := by
  rw [rule, h]

theorem rule_animation {n : Nat} {s r : Text} {a : Rule} (h1 : comment s = none) (h : animation s = some (a, r)) :
    rule (n + 1) s = some (some a, r) := by
  rw [rule, h1, h]

theorem rule_decl {n : Nat} {s r : Text} {d : Decl} (h1 : comment s = none) (h2 : animation s = none)
    (h3 : lit "@media".toList s = none) (h : decl s = some (d, r)) : rule (n + 1) s = some (some (.decl d), r) := by
  rw [rule, h1, h2, h3, h]

theorem rule_stop (n : Nat) {s : Text} (h : s = [] ∨ ∃ r, s = '}' :: r) : rule n s = none := by
  have hh : ∀ c, c ≠ '}' → s.head? ≠ some c := by
    intro c hc
    rcases h with rfl | ⟨r, rfl⟩
    · simp
    · simpa using fun e : '}' = c => hc e.symm
  have hsk : skip s = s := by
    rcases h with rfl | ⟨r, rfl⟩
    · rfl
    · exact skip_cons (by decide)
  cases n with
  | zero => rfl
  | succ n =>
    have hd : decl s = none := by
      apply decl_none
      rcases h with rfl | ⟨r, rfl⟩
      · simp
      · simp; decide
    have hs : selectors s = ([], s) := by
      have h1 : subSelector s = none := by
        unfold subSelector; rw [colon_none (hh ':' (by decide))]
      have h2 : subSelectorRef s = none := by
        unfold subSelectorRef; rw [lit_none_head (hh '[' (by decide))]
      unfold selectors
      rw [h1, h2]
      exact more_stop (by rw [hsk]; exact h2) _
    have ht : tok ['{'] s = none := by
      unfold tok
      rw [hsk, lit_none_head (hh '{' (by decide))]
    rw [rule, comment_none (hh '/' (by decide)), animation_none_head (hh 'a' (by decide)), media_none (hh '@' (by decide)), hd, hs]
    dsimp only
    rw [ht]

theorem comment_reads {f : α → Text} {g : α → Rule} {body : Text} (h : ¬ "*/".toList <:+: body) (n : Nat) :
    Reads (rule (n + 1)) (Line.written f) (Line.rule g) (.comment body) where
  first := ⟨'/', '*' :: (body ++ "*/".toList), rfl, by decide, by decide⟩
  reads tail _ := ⟨tail, rule_comment (comment_eq h tail), rfl⟩

theorem item_reads {f : α → Text} {g : α → Rule} {n : Nat} {a : α}
    (h : Reads (rule n) f (fun a => some (g a)) a) : Reads (rule n) (Line.written f) (Line.rule g) (.item a) where
  first := h.first
  reads := h.reads

theorem decl_reads {d : Declaration} (h : d.Ok) (n : Nat) :
    Reads (rule (n + 1)) Declaration.written (fun d => some (.decl d.decl)) d where
  first := (declaration_reads h).first
  reads tail _ := by
    refine ⟨tail, ?_, rfl⟩
    obtain ⟨c, s, e, hc⟩ := declaration_first h
    have hh : ∀ x, x ≠ c → (d.written ++ tail).head? ≠ some x := by
      intro x hx
      rw [e]
      simpa using fun e : c = x => hx e.symm
    refine rule_decl (comment_none (hh _ (lowerDash_ne hc).2.1.symm)) (animation_none ?_) (media_none (hh _ (lowerDash_ne hc).2.2.symm)) (decl_eq h tail)
    have e1 : d.written ++ tail = d.name ++ (d.w1 ++ ':' :: (d.w2 ++ (d.value.written ++ (d.w3 ++ ';' :: tail)))) := by
      simp [Declaration.written]
    rw [e1]
    exact fun hp => h.noAnimation (prefix_of_append h.w1 (by decide) (by decide) hp)

/-- The rules in brackets. -/
theorem body_more {f : α → Text} {g : α → Rule} {ok : α → Prop} {n : Nat} {b : Body α} (hb : b.Ok ok)
    (h : ∀ a, ok a → Reads (rule (n + 1)) f (fun a => some (g a)) a) {rest : Text} (hrest : skip rest = [] ∨ ∃ r, skip rest = '}' :: r)
    {k : Nat} (hk : (b.written f).length ≤ k) :
    ∃ r, more (rule (n + 1)) k (b.written f ++ rest) = (b.lines.map fun y => y.1.rule g, r) ∧ skip r = skip rest := by
  have hr : ∀ y ∈ b.lines, Reads (rule (n + 1)) (Line.written f) (Line.rule g) y.1 ∧ Blank y.2 := by
    intro y hy
    obtain ⟨h1, h2⟩ := hb.lines y hy
    refine ⟨?_, h2⟩
    obtain ⟨y, w⟩ := y
    cases y with
    | comment body => exact comment_reads h1 n
    | item a => exact item_reads (h a h1)
  have hl := reads_length b.lines hr
  refine more_list (rule_stop _ hrest) ?_ b.lines k _ hr (by
    unfold Body.written at hk
    rw [List.length_append] at hk
    omega) (by rw [Body.written, List.append_assoc, skip_blank hb.lead])
  intro c r e
  rcases hrest with h' | ⟨r', h'⟩
  · rw [h'] at e; cases e
  · rw [h'] at e; cases e; decide

def Sub.rule (s : Sub) : Rule :=
  .sub (s.first.sel :: s.refs.map fun r => .ref ('[' :: r.2 ++ [']'])) (s.body.items.map fun d => .decl d.decl)

theorem selector_first {x : Selector} : ∃ c s, x.written = c :: s ∧ (c = ':' ∨ c = '[') := by
  cases x with
  | pseudo p => exact ⟨':', _, rfl, Or.inl rfl⟩
  | ref name => exact ⟨'[', _, rfl, Or.inr rfl⟩

theorem sub_reads {s : Sub} (h : s.Ok) (n : Nat) : Reads (rule (n + 2)) Sub.written (fun s => some s.rule) s where
  first := by
    obtain ⟨c, r, e, hc⟩ := selector_first (x := s.first)
    have : ∃ r', s.written = c :: r' := by
      unfold Sub.written
      rw [e]
      simp only [List.cons_append]
      exact ⟨_, rfl⟩
    obtain ⟨r', e'⟩ := this
    refine ⟨c, r', e', ?_, ?_⟩
    · rcases hc with rfl | rfl <;> decide
    · rcases hc with rfl | rfl <;> decide
  reads tail hg := by
    obtain ⟨first, refs, w, body, semi⟩ := s
    obtain ⟨h1, h2, h3, h4, h5, h6⟩ := h
    dsimp only at h1 h2 h3 h4 h5 h6
    obtain ⟨t, hend, e1⟩ : ∃ t : Text, t = semi.elim tail (fun w => w ++ ';' :: tail) ∧
        Sub.written ⟨first, refs, w, body, semi⟩ ++ tail =
        first.written ++ (refsText refs ++ (w ++ '{' :: (body.written Declaration.written ++ '}' :: t))) := by
      refine ⟨_, rfl, ?_⟩
      cases semi <;> simp [Sub.written, refsText]
    obtain ⟨c, r0, e0, hc⟩ := selector_first (x := first)
    have hh : ∀ x, x ≠ ':' → x ≠ '[' →
        (first.written ++ (refsText refs ++ (w ++ '{' :: (body.written Declaration.written ++ '}' :: t)))).head? ≠ some x := by
      intro x h1 h2 e
      rw [e0] at e
      cases e
      rcases hc with rfl | rfl
      · exact h1 rfl
      · exact h2 rfl
    have hdecl : decl (first.written ++ (refsText refs ++ (w ++ '{' :: (body.written Declaration.written ++ '}' :: t)))) = none := by
      apply decl_none
      rw [e0]
      rintro x hx
      cases hx
      rcases hc with rfl | rfl <;> decide
    obtain ⟨r1, hr1, hr1'⟩ := selectors_eq h1 h2 h3 (body.written Declaration.written ++ '}' :: t)
    obtain ⟨r2, hr2, hr2'⟩ := body_more (n := n) (g := fun d => .decl d.decl) h4 (fun d hd => decl_reads hd n)
      (rest := '}' :: t) (Or.inr ⟨t, skip_cons (by decide)⟩) (k := (body.written Declaration.written ++ '}' :: t).length)
      (by rw [List.length_append]; omega)
    have ht1 : tok ['{'] r1 = some (body.written Declaration.written ++ '}' :: t) := by
      unfold tok; rw [hr1']; simp [lit]
    have ht2 : tok ['}'] r2 = some t := by
      unfold tok; rw [hr2', skip_cons (by decide)]; simp [lit]
    have hlines : body.lines.map (fun y => y.1.rule fun d : Declaration => Rule.decl d.decl) ≠ [] := by simpa using h5
    have hrule : rule (n + 1 + 1) (first.written ++ (refsText refs ++ (w ++ '{' :: (body.written Declaration.written ++ '}' :: t)))) =
        some (some (Sub.rule ⟨first, refs, w, body, semi⟩), (tok [';'] t).getD (skip t)) := by
      rw [rule, comment_none (hh '/' (by decide) (by decide)), animation_none_head (hh 'a' (by decide) (by decide)),
        media_none (hh '@' (by decide) (by decide)), hdecl, hr1]
      dsimp only
      rw [ht1]
      dsimp only
      rw [hr2]
      simp only [hlines, if_false, ht2]
      rw [lines_rules]
      rfl
    refine ⟨(tok [';'] t).getD (skip t), ?_, ?_⟩
    · rw [e1]; exact hrule
    · cases semi with
      | none =>
        have : t = tail := hend
        subst this
        have : tok [';'] t = none := by
          unfold tok
          apply lit_none_head
          intro e
          cases hs : skip t with
          | nil => rw [hs] at e; cases e
          | cons c r =>
            rw [hs] at e
            cases e
            exact hg ';' r hs rfl
        rw [this]
        exact skip_skip t
      | some w' =>
        have : t = w' ++ ';' :: tail := hend
        rw [this, tok_blank (h6 w' rfl) (by decide)]
        rfl

def Entry.rule : Entry → Rule
  | .decl d => .decl d.decl
  | .sub s => s.rule

theorem entry_reads {e : Entry} (h : e.Ok) (n : Nat) : Reads (rule (n + 2)) Entry.written (fun e => some e.rule) e where
  first := by
    cases e with
    | decl d => exact (decl_reads h (n + 1)).first
    | sub s => exact (sub_reads h n).first
  reads tail hg := by
    cases e with
    | decl d => exact (decl_reads h (n + 1)).reads tail hg
    | sub s => exact (sub_reads h n).reads tail hg

def Media.rule (m : Media) : Rule := .media m.query (m.body.items.map Entry.rule)

theorem media_reads {m : Media} (h : m.Ok) (n : Nat) : Reads (rule (n + 3)) Media.written (fun m => some m.rule) m where
  first := ⟨'@', _, rfl, by decide, by decide⟩
  reads tail hg := by
    obtain ⟨w1, query, w2, body, w3⟩ := m
    obtain ⟨h1, ⟨h2, h2'⟩, h3, h4, h5⟩ := h
    dsimp only at h1 h2 h2' h3 h4 h5
    refine ⟨tail, ?_, rfl⟩
    have e1 : Media.written ⟨w1, query, w2, body, w3⟩ ++ tail =
        "@media".toList ++ (w1 ++ (query ++ (w2 ++ '{' :: (body.written Entry.written ++ '}' :: (w3 ++ ';' :: tail))))) := by
      unfold Media.written
      generalize "@media".toList = p
      simp
    have hh : ∀ x, x ≠ '@' → ("@media".toList ++ (w1 ++ (query ++ (w2 ++ '{' :: (body.written Entry.written ++ '}' :: (w3 ++ ';' :: tail)))))).head? ≠ some x := by
      intro x h1 e
      cases e
      exact h1 rfl
    obtain ⟨r2, hr2, hr2'⟩ := body_more (n := n + 1) (g := Entry.rule) h4 (fun e he => entry_reads he n)
      (rest := '}' :: (w3 ++ ';' :: tail)) (Or.inr ⟨_, skip_cons (by decide)⟩) (k := (body.written Entry.written ++ '}' :: (w3 ++ ';' :: tail)).length)
      (by rw [List.length_append]; omega)
    have ht2 : tok ['}'] r2 = some (w3 ++ ';' :: tail) := by
      unfold tok; rw [hr2', skip_cons (by decide)]; simp [lit]
    have hcut := cut_next (· = '{') (t := query) (w := w2) (rest := '{' :: (body.written Entry.written ++ '}' :: (w3 ++ ';' :: tail)))
      h3 h2.last (fun c hc _ => by simpa using (h2' c hc).1) (by rintro d s' e; cases e; decide)
    have hr : rule (n + 2 + 1) ("@media".toList ++ (w1 ++ (query ++ (w2 ++ '{' :: (body.written Entry.written ++ '}' :: (w3 ++ ';' :: tail)))))) =
        some (some (Media.rule ⟨w1, query, w2, body, w3⟩), tail) := by
      rw [rule, comment_none (hh '/' (by decide)), animation_none_head (hh 'a' (by decide)), lit_append]
      dsimp only
      rw [skip_blank h1, skip_solid h2, hcut]
      dsimp only
      rw [tok_blank h3 (by decide)]
      dsimp only
      rw [hr2]
      dsimp only
      rw [ht2, Option.bind_some, tok_blank h5 (by decide), lines_rules]
      rfl
    rw [e1]
    exact hr

def Part.rule : Part → Rule
  | .entry e => e.rule
  | .animation a => a.rule
  | .media m => m.rule

theorem part_reads {p : Part} (h : p.Ok) (n : Nat) : Reads (rule (n + 3)) Part.written (fun p => some p.rule) p where
  first := by
    cases p with
    | entry e => exact (entry_reads h (n + 1)).first
    | animation a => exact ⟨'a', _, rfl, by decide, by decide⟩
    | media m => exact (media_reads h n).first
  reads tail hg := by
    cases p with
    | entry e => exact (entry_reads h (n + 1)).reads tail hg
    | animation a =>
      refine ⟨tail, ?_, rfl⟩
      exact rule_animation (comment_none (by rintro e; cases e)) (animation_eq h tail)
    | media m => exact (media_reads h n).reads tail hg

theorem line_length (y : Line Part) : 2 ≤ (y.written Part.written).length := by
  have hd : ∀ d : Declaration, 2 ≤ d.written.length := by
    intro d; simp [Declaration.written]; omega
  have hs : ∀ s : Sub, 2 ≤ s.written.length := by
    intro s; simp [Sub.written]; omega
  cases y with
  | comment body => simp [Line.written]
  | item p =>
    cases p with
    | entry e =>
      cases e with
      | decl d => exact hd d
      | sub s => exact hs s
    | animation a =>
      unfold Line.written Part.written Animation.written
      generalize "animation".toList = p
      simp
      omega
    | media m =>
      unfold Line.written Part.written Media.written
      generalize "@media".toList = p
      simp
      omega

/-- The macro reads a block as it is written. -/
theorem parse_block {b : Block} (h : b.Ok Part.Ok) : parse b.text = some (b.items.map Part.rule) := by
  unfold parse
  by_cases hl : b.lines = []
  · have e : b.text = b.lead := by simp [Block.text, Body.written, hl, Spaced.all]
    have hs : skip b.text = [] := by
      rw [e]
      have := skip_blank h.lead []
      rw [List.append_nil] at this
      exact this
    rw [more_stop (by rw [hs]; exact rule_stop _ (Or.inl rfl))]
    simp [hs, Body.items, hl]
  · have hlen : 2 ≤ b.text.length := by
      obtain ⟨y, l, e⟩ : ∃ y l, b.lines = y :: l := by
        cases hb : b.lines with
        | nil => exact absurd hb hl
        | cons y l => exact ⟨y, l, rfl⟩
      have : 2 ≤ (y.1.written Part.written).length := line_length y.1
      simp only [Block.text, Body.written, e, Spaced.all, List.map_cons, List.flatten_cons, List.length_append]
      omega
    obtain ⟨n, hn⟩ : ∃ n, b.text.length + 1 = n + 3 := ⟨b.text.length - 2, by omega⟩
    obtain ⟨r, hr, hr'⟩ := body_more (n := n + 2) (g := Part.rule) h (fun p hp => part_reads hp n)
      (rest := []) (Or.inl rfl) (k := b.text.length) (Nat.le_refl _)
    rw [List.append_nil] at hr
    have hr2 : more (rule (b.text.length + 1)) b.text.length b.text = (b.lines.map fun y => y.1.rule Part.rule, r) := by
      rw [hn]; exact hr
    rw [hr2]
    dsimp only
    rw [if_pos (show skip r = [] from hr'), lines_rules]
    rfl

end Verif.Css.Macro

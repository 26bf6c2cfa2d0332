import Verif.Css.MacroRules
/-!
# C60: css!

The block written in `css!` is the css that is used: without comments, with one space for the white space between its parts, with the
values of the expressions in the place of the expressions and with the classes of the referenced `Css` in the place of the references.
-/
namespace Verif.Css.Macro

/-- **C60, text.** For every block of declarations, selectors, animations and media queries, with any white space between its parts and
with comments, `css!` gives the css of the block: with the values of the expressions and with the classes of the references. It is fixed
at compile time exactly when there are no expressions and no references.
(Partial: see the violations for what cannot be written in the block; there are at most 676 expressions; when there are references there is
no `[` elsewhere.) -/
theorem C60_text_partial {b : Block} (h : b.Ok Part.Ok) (hsize : b.exprs.length ≤ 676) (eval cls : Text → Text)
    (hrefs : b.names = [] ∨ '[' ∉ b.out eval (fun _ => []) ∧ ∀ n ∈ b.names, '[' ∉ cls n) :
    css eval cls b.text = some (!b.exprs.isEmpty || !b.names.isEmpty, b.out eval fun n => '.' :: cls n) :=
  css_block h hsize eval cls hrefs

/-- **C60, rules.** What is written in `css!` becomes exactly its rules in the document: each selector with its declarations, the keyframes,
the media queries and the declarations of the class, in the vocabulary of C34.
(Partial: as above; selectors begin with `:`, media queries contain a `:` or a `.`, values contain no separators, the css is ASCII.) -/
theorem C60_rules_partial {b : Block} (h : b.Ok Part.Ok) (hsize : b.exprs.length ≤ 676) (eval cls : Text → Text)
    (hrefs : b.names = [] ∨ '[' ∉ b.out eval (fun _ => []) ∧ ∀ n ∈ b.names, '[' ∉ cls n)
    (hs : ∀ p ∈ b.items, p.Styled) (hr : ∀ n ∈ b.names, Plain (cls n)) (he : ∀ e ∈ b.exprs, Plain (eval e))
    (ha : Ascii (b.out eval fun n => '.' :: cls n)) (n : Nat) :
    let items := b.items.map (Part.item eval fun n => '.' :: cls n)
    let cl := ".autocss_".toList ++ (Nat.repr (n + 1)).toList
    let (declarations, rules) := expected cl items (n + 1)
    ∃ dynamic text, css eval cls b.text = some (dynamic, text) ∧
      transformCss text n = some (n + 1, rules ++ [(cl, "; ".toList.intercalate declarations)], n + 1 + animations items) := by
  have h1 := C60_text_partial h hsize eval cls hrefs
  have h2 := transform_block h hs eval (fun n => '.' :: cls n) (fun n hn => plain_append (a := ['.']) (by decide) (hr n hn)) he ha n
  dsimp only at h2 ⊢
  exact ⟨_, _, h1, h2⟩

/-! ### An example -/

instance (t : Text) : Decidable (Solid t) :=
  decidable_of_iff (t ≠ [] ∧ (∀ c ∈ t.head?, ¬ Space c) ∧ ∀ c ∈ t.getLast?, ¬ Space c)
    ⟨fun h => ⟨h.1, h.2.1, h.2.2⟩, fun h => ⟨h.1, h.2, h.3⟩⟩

instance (t : Text) : Decidable (Blank t) := by unfold Blank; infer_instance

theorem textOk_simple {t : Text} (h1 : Solid t) (h2 : Plain t) (h3 : ∀ c ∈ t.head?, c ≠ ':' ∧ c ≠ 'u' ∧ c ≠ '#' ∧ c ≠ 'r' ∧ c ≠ 'h') : TextOk t where
  solid := h1
  plain := h2
  noColon e := (h3 ':' (by simp [e])).1 rfl
  noUrl := by rintro ⟨r, rfl⟩; exact (h3 'u' rfl).2.1 rfl
  noHex r e := absurd rfl (h3 '#' (by simp [e])).2.2.1
  noRgb := by
    rintro c hc ⟨r, rfl⟩
    obtain ⟨x, rfl | rfl⟩ := small_first hc
    · exact absurd rfl (h3 'r' rfl).2.2.2.1
    · exact absurd rfl (h3 'h' rfl).2.2.2.2

namespace Sample

/-- `width: {w}px;` -/
def width : Declaration := ⟨"width".toList, [], [' '], .words [(.expr [] "w".toList [], [])] "px".toList, []⟩
/-- `border: {w} #ff0000 solid ;` -/
def border : Declaration := ⟨"border".toList, [], [' '],
  .words [(.expr [' '] "w".toList [' '], [' ']), (.color "ff0000".toList, [' ', ' '])] "solid".toList, [' ']⟩
/-- `top: 1px;` -/
def top : Declaration := ⟨"top".toList, [], [], .words [] "1px".toList, []⟩
/-- `:hover [other] { top:1px; }` -/
def hover : Sub := ⟨.pseudo ⟨"hover".toList, []⟩, [([' '], "other".toList)], [' '], ⟨[' '], [(.item top, [' '])]⟩, none⟩
def frame : Frame := ⟨"0".toList, [' '], [' '], [(top, [' '])]⟩
def anim : Animation := ⟨[], [' '], "1s".toList, [' '], some ([' '], [(frame, [' '])]), []⟩
def media : Media := ⟨[' '], "(a: b)".toList, [' '], ⟨[], [(.item (.decl top), []), (.item (.sub hover), ['\n'])]⟩, []⟩

def block : Block := ⟨['\n'], [(.item (.entry (.decl width)), [' ']), (.comment " c ".toList, ['\n']), (.item (.entry (.decl border)), []),
  (.item (.entry (.sub hover)), ['\n']), (.item (.animation anim), ['\n']), (.item (.media media), ['\n'])]⟩

theorem width_ok : width.Ok := by
  refine ⟨by decide, by decide, by decide, by decide, by decide, ⟨⟨⟨by decide, by decide, by decide, by decide⟩, by decide, fun _ => ?_⟩, fun _ => ?_⟩, by decide⟩
  · exact ⟨fun _ => by decide, fun _ => rfl⟩
  · exact textOk_simple (by decide) (by decide) (by decide)

theorem border_ok : border.Ok := by
  refine ⟨by decide, by decide, by decide, by decide, by decide, ⟨⟨⟨by decide, by decide, by decide, by decide⟩, by decide, by decide,
    ⟨by decide, by decide⟩, by decide, fun _ => ⟨by decide, ?_⟩⟩, fun _ => ?_⟩, by decide⟩
  · intro _ c r e hc
    cases e
    exact absurd hc (by decide)
  · exact textOk_simple (by decide) (by decide) (by decide)

theorem top_ok : top.Ok :=
  ⟨by decide, by decide, by decide, by decide, by decide, ⟨trivial, fun _ => textOk_simple (by decide) (by decide) (by decide)⟩, by decide⟩

theorem hover_ok : hover.Ok where
  first := ⟨⟨by decide, by decide, by decide, by decide⟩, by intro t ht; cases ht⟩
  refs := by
    intro r hr
    simp only [hover, List.mem_singleton] at hr
    subst hr
    exact ⟨by decide, by decide, by decide, by decide⟩
  w := by decide
  body := ⟨by decide, by
    intro l hl
    simp only [hover, List.mem_singleton] at hl
    subst hl
    exact ⟨top_ok, by decide⟩⟩
  some := by simp [hover]
  semicolon := by intro w hw; cases hw

theorem anim_ok : anim.Ok where
  w1 := by decide
  w2 := by decide
  params := ⟨by decide, by decide, by decide⟩
  w3 := by decide
  frames := by
    intro f hf
    cases hf
    refine ⟨by decide, by simp, ?_⟩
    intro g hg
    simp only [List.mem_singleton] at hg
    subst hg
    refine ⟨⟨⟨by decide, by decide⟩, by decide, by decide, by simp [frame], ?_⟩, by decide⟩
    intro d hd
    simp only [frame, List.mem_singleton] at hd
    subst hd
    exact ⟨top_ok, by decide⟩
  w4 := by decide

theorem media_ok : media.Ok where
  w1 := by decide
  query := ⟨by decide, by decide⟩
  w2 := by decide
  body := ⟨by decide, by
    intro l hl
    simp only [media, List.mem_cons, List.not_mem_nil, or_false] at hl
    rcases hl with rfl | rfl
    · exact ⟨top_ok, by decide⟩
    · exact ⟨hover_ok, by decide⟩⟩
  w3 := by decide

theorem block_ok : block.Ok Part.Ok where
  lead := by decide
  lines := by
    intro l hl
    simp only [block, List.mem_cons, List.not_mem_nil, or_false] at hl
    rcases hl with rfl | rfl | rfl | rfl | rfl | rfl
    · exact ⟨width_ok, by decide⟩
    · exact ⟨show ¬ _ <:+: _ by decide, by decide⟩
    · exact ⟨border_ok, by decide⟩
    · exact ⟨hover_ok, by decide⟩
    · exact ⟨anim_ok, by decide⟩
    · exact ⟨media_ok, by decide⟩

def value (e : Text) : Text := if e = "w".toList then "10".toList else []
def cls (_ : Text) : Text := "autocss_1".toList

/-- `box-shadow: rgb(1, 2 ,3) hsl( 4, 5%, 6%, 0.7 ) #000000ff inset;` -/
def shadow : Declaration := ⟨"box-shadow".toList, [], [' '], .words [(.small "rgb(1, 2 ,3)".toList, [' ']),
  (.small "hsl( 4, 5%, 6%, 0.7 )".toList, [' ']), (.color "000000ff".toList, [' '])] "inset".toList, []⟩
/-- `color: rgb(0, 128, 255);` -/
def blue : Declaration := ⟨"color".toList, [], [' '], .words [] "rgb(0, 128, 255)".toList, []⟩

theorem shadow_ok : shadow.Ok := by
  have h1 : SmallColor "rgb(1, 2 ,3)".toList := .rgb (a := '1') (b := '2') (c := '3') (r := "1, 2 ,3)".toList) rfl rfl rfl
    ⟨[], _, by decide, rfl, [], _, by decide, rfl, [' '], _, by decide, rfl, [' '], _, by decide, rfl, [], _, by decide, rfl,
      [], [], by decide, rfl, rfl⟩
  have h2 : SmallColor "hsl( 4, 5%, 6%, 0.7 )".toList := .hsla (a := '4') (b := '5') (c := '6') (f := ["0.".toList, ['7']])
    (r := " 4, 5%, 6%, 0.7 )".toList) rfl rfl rfl (.inr ⟨['7'], by decide, by decide, rfl⟩)
    ⟨[' '], _, by decide, rfl, [], _, by decide, rfl, [' '], _, by decide, rfl, [], _, by decide, rfl, [], _, by decide, rfl,
      [' '], _, by decide, rfl, [], _, by decide, rfl, [], _, by decide, rfl, [' '], _, by decide, rfl, [], _, by decide, rfl,
      [' '], [], by decide, rfl, rfl⟩
  refine ⟨by decide, by decide, by decide, by decide, by decide, ⟨⟨h1, by decide, by decide, h2, by decide, by decide,
    ⟨by decide, by decide⟩, by decide, fun _ => ⟨by decide, ?_⟩⟩, fun _ => ?_⟩, by decide⟩
  · intro e
    cases e
  · exact textOk_simple (by decide) (by decide) (by decide)

theorem blue_ok : blue.Ok := by
  refine ⟨by decide, by decide, by decide, by decide, by decide, ⟨trivial, fun _ => ⟨by decide, by decide, by decide, by decide, ?_, ?_⟩⟩, by decide⟩
  · intro r e
    cases e
  · rintro c hc ⟨r, e⟩
    have := color_small hc r
    rw [e] at this
    cases this

def colors : Block := ⟨[], [(.item (.entry (.decl shadow)), [' ']), (.item (.entry (.decl blue)), [])]⟩

theorem colors_ok : colors.Ok Part.Ok where
  lead := by decide
  lines := by
    intro l hl
    simp only [colors, List.mem_cons, List.not_mem_nil, or_false] at hl
    rcases hl with rfl | rfl
    · exact ⟨shadow_ok, by decide⟩
    · exact ⟨blue_ok, by decide⟩

example : css value cls colors.text = some (false, "box-shadow: rgb(1, 2 ,3) hsl( 4, 5%, 6%, 0.7 ) #000000ff inset;
color: rgb(0, 128, 255);".toList) := by
  rw [C60_text_partial colors_ok (by decide) value cls (Or.inr ⟨by decide +kernel, by decide +kernel⟩)]
  decide +kernel

/-- The block in the program. -/
example : String.ofList block.text = "
width: {w}px; /* c */
border: { w } #ff0000  solid ;:hover [other] { top:1px; }
animation: 1s { 0% { top:1px; } };
@media (a: b) {top:1px;:hover [other] { top:1px; }
};
" := by decide +kernel

/-- What `css!` gives. -/
example : css value cls block.text = some (true, "width: 10px;
border: 10 #ff0000 solid;
:hover .autocss_1 { top: 1px; };
animation: 1s { 0% { top: 1px; } };
@media (a: b) { top: 1px; :hover .autocss_1 { top: 1px; }; };".toList) := by
  rw [C60_text_partial block_ok (by decide) value cls (Or.inr ⟨by decide +kernel, by decide +kernel⟩)]
  decide +kernel

/-- The rules. -/
example : ∃ dynamic text, css value cls block.text = some (dynamic, text) ∧ transformCss text 7 = some (8,
    [(".autocss_8:hover .autocss_1".toList, "top: 1px;".toList), ("@keyframes autocss_9".toList, "0% { top: 1px; }".toList),
      ("@media (a: b)".toList, ".autocss_8 { top: 1px }\n.autocss_8:hover .autocss_1 { top: 1px; }".toList),
      (".autocss_8".toList, "width: 10px; border: 10 #ff0000 solid; animation: 1s autocss_9 ".toList)], 9) := by
  have := C60_rules_partial block_ok (by decide) value cls (Or.inr ⟨by decide +kernel, by decide +kernel⟩) (by
    intro p hp
    have : p = .entry (.decl width) ∨ p = .entry (.decl border) ∨ p = .entry (.sub hover) ∨ p = .animation anim ∨ p = .media media := by
      simpa [block, Body.items, Line.items] using hp
    rcases this with rfl | rfl | rfl | rfl | rfl
    · trivial
    · trivial
    · exact ⟨_, rfl⟩
    · trivial
    · refine ⟨Or.inl (by decide), ?_⟩
      intro e he
      have : e = .decl top ∨ e = .sub hover := by simpa [media, Body.items, Line.items] using he
      rcases this with rfl | rfl
      · trivial
      · exact ⟨_, rfl⟩) (by decide +kernel) (by decide +kernel) (by unfold Ascii; decide +kernel) 7
  obtain ⟨d, t, h1, h2⟩ := this
  refine ⟨d, t, h1, ?_⟩
  rw [h2]
  decide +kernel

end Sample

/-! ### Violations -/

theorem css_static {t out : Text} (h : ((parse t).bind fun rules => (genRules rules ⟨[], []⟩).map fun (ts, st) => (st.params, st.refs, join ['\n'] ts)) =
    some ([], [], out)) (eval cls : Text → Text) :
    css eval cls t = some (false, replaceAll "}}".toList "}".toList (replaceAll "{{".toList "{".toList out)) := by
  rw [Option.bind_eq_some_iff] at h
  obtain ⟨rules, h1, h2⟩ := h
  rw [Option.map_eq_some_iff] at h2
  obtain ⟨⟨ts, st⟩, h2, h3⟩ := h2
  simp only [Prod.mk.injEq] at h3
  obtain ⟨h3, h4, h5⟩ := h3
  unfold css
  rw [h1]
  dsimp only
  rw [h2]
  dsimp only
  rw [h3, h4, h5, if_pos rfl]
  rfl

theorem css_rejected {t : Text} (h : (parse t).isNone = true) (eval cls : Text → Text) : css eval cls t = none := by
  unfold css
  rw [Option.isNone_iff_eq_none.1 h]

/-- An expression is text: the unit behind it is a part of the value in css, except that the macro puts a space before any unit but `px`. -/
theorem C60_unit_violated : ∃ (eval cls : Text → Text), eval "h".toList = "50".toList ∧
    css eval cls "height: {h}%;".toList = some (true, "height: 50 %;".toList) :=
  ⟨fun _ => "50".toList, fun _ => [], rfl, by decide +kernel⟩

/-- An expression after text is not replaced: the css contains the name of the variable. -/
theorem C60_not_replaced_violated (eval cls : Text → Text) :
    css eval cls "border: 1px solid {c};".toList = some (false, "border: 1px solid {c};".toList) := by
  rw [css_static (out := "border: 1px solid {c};".toList) (by decide +kernel)]
  decide +kernel

/-- A color with six digits, followed by a word that begins with two hexadecimal digits, is cut in the word. -/
theorem C60_color_violated (eval cls : Text → Text) :
    css eval cls "outline: #ff0000 dashed 1px;".toList = some (false, "outline: #ff0000 da shed 1px;".toList) := by
  rw [css_static (out := "outline: #ff0000 da shed 1px;".toList) (by decide +kernel)]
  decide +kernel

/-- `:hover[a]` is about one element, but the macro writes it as a descendant. -/
theorem C60_ref_violated : ∃ (eval cls : Text → Text), cls "a".toList = "autocss_1".toList ∧
    css eval cls ":hover[a] { top: 1px; }".toList = some (true, ":hover .autocss_1 { top: 1px; };".toList) :=
  ⟨fun _ => [], fun _ => "autocss_1".toList, rfl, by decide +kernel⟩

/-- What css allows and the macro does not: other properties of animations, pseudo elements, brackets and separators in quotes, and
anything behind `url(…)`. -/
theorem C60_rejected_violated (eval cls : Text → Text) : ∀ t ∈ ["animation-delay: 1s;", "::before { top: 1px; }", "content: ';';",
    "background: url('x') no-repeat;"], css eval cls t.toList = none := by
  intro t ht
  simp only [List.mem_cons, List.not_mem_nil, or_false] at ht
  rcases ht with rfl | rfl | rfl | rfl <;> exact css_rejected (by decide +kernel) eval cls

end Verif.Css.Macro

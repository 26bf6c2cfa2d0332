import Verif.View.Style
import Verif.View.Read
import Verif.Css.Chars
/-!
# C65: the page that the server sends has the classes and styles

C57 with C64: the commands of an application with classes and css, in sorted batches, executed on the server, written as HTML and read by a
browser.
-/
namespace Verif.View
open Verif.Dom Verif.Css Verif.Json

/-! ## Specification -/

/-- The second document is the first one with its classes: texts are the same, and elements have the attributes of `Attrs`. -/
inductive Dressed (style : String → CssValue) (cls : Request → Nat) (uses : List Request) : List Html → List Html → Prop where
  | nil : Dressed style cls uses [] []
  | text {s hs hs'} : Dressed style cls uses hs hs' → Dressed style cls uses (.text s :: hs) (.text s :: hs')
  | element {name attr page cs cs' hs hs'} : Attrs style cls uses attr page → Dressed style cls uses cs cs' → Dressed style cls uses hs hs' →
      Dressed style cls uses (.element name attr cs :: hs) (.element name page cs' :: hs')

/-- Documents with classes and css that can be written as HTML (as `Readable`): the css is not an attribute, and there can be a class. -/
inductive Wearable : Html → Prop where
  | text {s : String} : Ssr.Plain s → Wearable (.text s)
  | element {name : String} {a : String → Option String} {cs : List Html} : Ssr.ElementName name → ¬ Ssr.Forbidden name →
      (∀ k v, k ≠ "css" → a k = some v → Ssr.AttrName k ∧ Ssr.Plain v) →
      (∀ k k', k ≠ "css" → k' ≠ "css" → (a k ≠ none ∨ k = "class") → (a k' ≠ none ∨ k' = "class") → Ssr.htmlName k = Ssr.htmlName k' → k = k') →
      (Ssr.TextOnly name → ∀ c ∈ cs, c.IsText) → (Ssr.Unescaped name → '<' ∉ words cs) →
      (Ssr.Void name → Ssr.htmlName name = name.toList) → (∀ c ∈ cs, Wearable c) → Wearable (.element name a cs)

/-- Css that can be written inside of `style` elements: no carriage returns, zero characters and `<`. -/
structure PlainStyle (style : String → CssValue) : Prop where
  texts : ∀ key, ∀ r ∈ requests (style key), ∀ c ∈ r.2, c ≠ '\r' ∧ c ≠ '\x00' ∧ c ≠ '<'
  queries : ∀ key q rs, .media q rs ∈ style key → ∀ c ∈ q, c ≠ '\r' ∧ c ≠ '\x00'

/-! ## Proofs -/

theorem Looks.dressed {style : String → CssValue} {cls uses} {b : Browser} {xs hs} (h : Looks style cls uses b xs hs) :
    ∃ hs', Dressed style cls uses hs hs' ∧ Shows b xs hs' := by
  induction h with
  | nil => exact ⟨[], .nil, .nil⟩
  | text e _ ih => obtain ⟨hs', h1, h2⟩ := ih; exact ⟨_, .text h1, .text e h2⟩
  | comment e _ ih => obtain ⟨hs', h1, h2⟩ := ih; exact ⟨_, h1, .comment e h2⟩
  | element e ha _ _ ih1 ih2 =>
    obtain ⟨cs', h1, h2⟩ := ih1
    obtain ⟨hs', h3, h4⟩ := ih2
    exact ⟨_, .element ha h1 h3, .element e h2 h4⟩

theorem Dressed.words {style : String → CssValue} {cls uses hs hs'} (h : Dressed style cls uses hs hs') : View.words hs' = View.words hs := by
  induction h with
  | nil => rfl
  | text _ ih => simp only [View.words, ih]
  | element _ _ _ _ ih => simp only [View.words, ih]

theorem Dressed.texts {style : String → CssValue} {cls uses hs hs'} (h : Dressed style cls uses hs hs') (ht : ∀ c ∈ hs, c.IsText) :
    ∀ c ∈ hs', c.IsText := by
  induction h with
  | nil => simp
  | text _ ih =>
    intro c hc
    rcases List.mem_cons.mp hc with rfl | hc
    · trivial
    · exact ih (fun c hc => ht c (by simp [hc])) c hc
  | element _ _ _ _ _ => exact absurd (ht _ List.mem_cons_self) (by simp [Html.IsText])

theorem parts_plain {P : Char → Prop} (hP : AllC P written) (hm : AllC P "@media".toList) (cls : Request → Nat) : ∀ {css : CssValue},
    (∀ q rs, .media q rs ∈ css → AllC P q) → ∀ t ∈ classParts cls css, AllC P t
  | [], _, t, ht => by cases ht
  | .static v :: gs, h, t, ht => by
      simp only [classParts] at ht
      rcases List.mem_cons.mp ht with rfl | ht
      · exact selector_all hP _
      · exact parts_plain hP hm cls (fun q rs hq => h q rs (by simp [hq])) t ht
  | .dynamic v :: gs, h, t, ht => by
      simp only [classParts] at ht
      rcases List.mem_cons.mp ht with rfl | ht
      · exact selector_all hP _
      · exact parts_plain hP hm cls (fun q rs hq => h q rs (by simp [hq])) t ht
  | .media q rs :: gs, h, t, ht => by
      simp only [classParts, List.cons_append, List.mem_cons, List.mem_append, List.mem_map] at ht
      rcases ht with rfl | rfl | ⟨r, -, rfl⟩ | ht
      · exact hm
      · exact h _ rs (by simp)
      · exact selector_all hP _
      · exact parts_plain hP hm cls (fun q rs hq => h q rs (by simp [hq])) t ht

theorem classText_plain {style : String → CssValue} (hp : PlainStyle style) (cls : Request → Nat) {a : Option String} {k : Option String}
    (ha : ∀ v, a = some v → Ssr.Plain v) : Ssr.Plain (classText cls a (k.map style)) := by
  have hcss : ∀ key, Ssr.Plain (String.ofList ([' '].intercalate (classParts cls (style key)))) := by
    intro key c hc
    rw [String.toList_ofList] at hc
    refine AllC.intercalate (P := fun c => c ≠ '\r' ∧ c ≠ '\x00') (sep := [' ']) (by unfold AllC; decide) ?_ c hc
    exact parts_plain (by unfold AllC; decide) (by unfold AllC; decide) cls fun q rs hq => hp.queries key q rs hq
  have hj : ∀ x y : String, Ssr.Plain x → Ssr.Plain y → Ssr.Plain (" ".intercalate [x, y]) := by
    intro x y hx hy c hc
    have e : " ".intercalate [x, y] = x ++ " " ++ y := by
      simp [String.intercalate]; rfl
    rw [e] at hc
    simp only [String.toList_append, List.mem_append] at hc
    rcases hc with (hc | hc) | hc
    · exact hx c hc
    · have : c = ' ' := by simpa using hc
      subst this; decide
    · exact hy c hc
  have h1 : ∀ x : String, " ".intercalate [x] = x := by intro x; simp [String.intercalate]; rfl
  unfold classText
  cases a with
  | none =>
    cases k with
    | none => intro c hc; simp at hc
    | some key =>
      simp only [Option.toList_none, Option.map_some, Option.toList_some, List.map_cons, List.map_nil, List.nil_append]
      rw [h1]; exact hcss key
  | some v =>
    cases k with
    | none =>
      simp only [Option.toList_some, Option.map_none, Option.toList_none, List.map_nil, List.append_nil]
      rw [h1]; exact ha v rfl
    | some key =>
      simp only [Option.map_some, Option.toList_some, List.map_cons, List.map_nil, List.cons_append, List.nil_append]
      exact hj _ _ (ha v rfl) (hcss key)

theorem Dressed.readable {style : String → CssValue} (hp : PlainStyle style) {cls uses hs hs'} (h : Dressed style cls uses hs hs') :
    (∀ d ∈ hs, Wearable d) → ∀ d ∈ hs', Readable d := by
  induction h with
  | nil => intro _ d hd; cases hd
  | text _ ih =>
    intro hw d hd
    rcases List.mem_cons.mp hd with rfl | hd
    · cases hw _ List.mem_cons_self with
      | text h => exact .text h
    · exact ih (fun d hd => hw d (by simp [hd])) d hd
  | @element name attr page cs cs' hs hs' ha hc _ ih1 ih2 =>
    intro hw d hd
    rcases List.mem_cons.mp hd with rfl | hd
    · cases hw _ List.mem_cons_self with
      | element e1 e2 e3 e4 e5 e6 e7 e8 =>
        have hne : ∀ k, page k ≠ none → k ≠ "css" := by
          rintro k hk rfl
          exact hk ha.noCss
        have hor : ∀ k, page k ≠ none → attr k ≠ none ∨ k = "class" := by
          intro k hk
          by_cases hkc : k = "class"
          · exact Or.inr hkc
          · left; rw [← ha.same k hkc (hne k hk)]; exact hk
        refine .element e1 e2 ?_ ?_ (fun h => hc.texts (e5 h)) (fun h => by rw [hc.words]; exact e6 h) e7 (ih1 e8)
        · intro k v hk
          have hkn := hne k (by rw [hk]; simp)
          by_cases hkc : k = "class"
          · subst hkc
            refine ⟨⟨by decide, by decide⟩, ?_⟩
            have hcl := ha.classes
            rw [hk, Option.getD_some] at hcl
            rw [hcl]
            exact classText_plain hp cls fun w hw => (e3 _ w (by decide) hw).2
          · exact e3 k v hkn (by rw [← ha.same k hkc hkn]; exact hk)
        · intro k k' hk hk' heq
          exact e4 k k' (hne k hk) (hne k' hk') (hor k hk) (hor k' hk') heq
    · exact ih2 (fun d hd => hw d (by simp [hd])) d hd

theorem Sheet.plain {style : String → CssValue} (hp : PlainStyle style) {cls uses css} (h : Sheet style cls uses css) : ∀ r ∈ css, Ssr.PlainRule r := by
  intro r hr
  rw [h.rules] at hr
  obtain ⟨q, hq, hr⟩ := List.mem_flatMap.mp hr
  obtain ⟨e, he, rfl⟩ := List.mem_map.mp hr
  obtain ⟨key, hk⟩ := h.asked q hq
  have := rulesOfClass_all (P := fun c => c ≠ '\r' ∧ c ≠ '\x00' ∧ c ≠ '<') (by unfold AllC; decide) (css := q.2) (hp.texts key q hk) _ e he
  intro c hc
  rw [String.toList_ofList, String.toList_ofList] at hc
  rcases List.mem_append.mp hc with hc | hc
  · exact this.1 c hc
  · exact this.2 c hc

/-! ### The commands -/

/-- Where the commands of a call come from. -/
def Origin (c d : Cmd) : Prop :=
  (d = c ∧ ∀ id name, c = .removeAttr id name → name ≠ "class" ∧ name ≠ "css") ∨ IsCss d ∨
    ∃ id v, d = .setAttr id "class" v ∧ ((∃ n w, c = .setAttr id n w) ∨ ∃ n, c = .removeAttr id n)

theorem refresh_from {s : Styles} {id e s1 cs} (h : s.refresh id e = some (s1, cs)) : ∀ d ∈ cs, IsCss d ∨ ∃ v, d = .setAttr id "class" v := by
  have hr : ∀ (l : List (Text × Text)), ∀ d ∈ l.map ruleCmd, IsCss d := by
    intro l d hd
    obtain ⟨r, -, rfl⟩ := List.mem_map.mp hd
    exact ⟨_, _, rfl⟩
  unfold Styles.refresh at h
  split at h
  · cases h
  · dsimp only at h
    split at h
    · cases h
      intro d hd
      rcases List.mem_append.mp hd with hd | hd
      · exact Or.inl (hr _ d hd)
      · rw [List.mem_singleton.mp hd]; exact Or.inr ⟨_, rfl⟩
    · cases h; exact fun d hd => Or.inl (hr _ d hd)

theorem step_from {style} {s : Styles} {c s1 cs} (h : s.step style c = some (s1, cs)) : ∀ d ∈ cs, Origin c d := by
  unfold Styles.step at h
  split at h
  · cases h
    intro d hd
    rw [List.mem_singleton.mp hd]
    exact Or.inl ⟨rfl, fun _ _ e => by cases e⟩
  · rename_i id name value
    have hf : ∀ {e}, s.refresh id e = some (s1, cs) → ∀ d ∈ cs, Origin (.setAttr id name value) d := by
      intro e h d hd
      rcases refresh_from h d hd with h | ⟨v, rfl⟩
      · exact Or.inr (Or.inl h)
      · exact Or.inr (Or.inr ⟨_, _, rfl, Or.inl ⟨_, _, rfl⟩⟩)
    split at h
    · exact hf h
    · split at h
      · exact hf h
      · cases h
        intro d hd
        rw [List.mem_singleton.mp hd]
        exact Or.inl ⟨rfl, fun _ _ e => by cases e⟩
  · rename_i id name
    have hf : ∀ {e}, s.refresh id e = some (s1, cs) → ∀ d ∈ cs, Origin (.removeAttr id name) d := by
      intro e h d hd
      rcases refresh_from h d hd with h | ⟨v, rfl⟩
      · exact Or.inr (Or.inl h)
      · exact Or.inr (Or.inr ⟨_, _, rfl, Or.inr ⟨_, rfl⟩⟩)
    split at h
    · exact hf h
    · split at h
      · exact hf h
      · rename_i h1 h2
        cases h
        intro d hd
        rw [List.mem_singleton.mp hd]
        exact Or.inl ⟨rfl, fun _ _ e => by cases e; exact ⟨h1, h2⟩⟩
  · rename_i h1 h2 h3
    cases h
    intro d hd
    rw [List.mem_singleton.mp hd]
    exact Or.inl ⟨rfl, fun id name e => absurd e (h3 id name)⟩

theorem run_from {style} : ∀ {cs : List Cmd} {s s1 out}, Styles.run style cs s = some (s1, out) → ∀ d ∈ out, ∃ c ∈ cs, Origin c d
  | [], s, s1, out, h, d, hd => by cases h; cases hd
  | c :: cs, s, s1, out, h, d, hd => by
      rw [Styles.run] at h
      split at h
      · cases h
      · rename_i s2 o1 h1
        split at h
        · cases h
        · rename_i s3 o2 h2
          cases h
          rcases List.mem_append.mp hd with hd | hd
          · exact ⟨c, by simp, step_from h1 d hd⟩
          · obtain ⟨c', hc', hf⟩ := run_from h2 d hd
            exact ⟨c', by simp [hc'], hf⟩

/-- Commands that are no attributes are sent as they are. -/
theorem run_keeps {style} {p x r} : ∀ {cs : List Cmd} {s s1 out}, Styles.run style cs s = some (s1, out) → .insertBefore p x r ∈ cs → .insertBefore p x r ∈ out
  | c :: cs, s, s1, out, h, hc => by
      rw [Styles.run] at h
      split at h
      · cases h
      · rename_i s2 o1 h1
        split at h
        · cases h
        · rename_i s3 o2 h2
          cases h
          rcases List.mem_cons.mp hc with rfl | hc
          · simp only [Styles.step] at h1
            cases h1
            simp
          · exact List.mem_append_right _ (run_keeps h2 hc)

theorem run_opening {style} {rest : List Cmd} {s1 out} (h : Styles.run style (opening ++ rest) {} = some (s1, out)) :
    ∃ s out', out = opening ++ out' ∧ Styles.run style rest s = some (s1, out') := by
  simp only [opening, List.cons_append, List.nil_append, Styles.run, Styles.step] at h
  generalize ({ elements := _ } : Styles) = s at h
  cases e : Styles.run style rest s with
  | none => rw [e] at h; cases h
  | some x =>
    rw [e] at h
    cases h
    exact ⟨s, x.2, rfl, e⟩

section
variable {S V : Type} [DecidableEq V]

omit [DecidableEq V] in
/-- Whatever the page shows: with its classes and rules, a browser reads it from the page of the server. -/
theorem styledPage_of {style : String → CssValue} (hstyle : Styling style) (hplain : PlainStyle style) {all : List Cmd} {next : Nat} {b : Browser}
    (hS : Stays all next b) (hcl : CleanBut (fun a => a = "class" ∨ a = "css") all) {D : List Id} (hclosedB : Closed b D)
    (htops : ∀ x ∈ b.children 3, x ∈ D) {ds : List Html} (hshows : Shows b (b.children 3) ds) (hread : ∀ d ∈ ds, Wearable d)
    {styles : Styles} {out : List Cmd} (hout : Styles.run style all {} = some (styles, out))
    (batches : List (List Cmd)) (hb : batches.flatten = out) (hsmall : next ≤ 2 ^ 53)
    {e : Ssr.Escape} (he : e.Ok) {mount : Ssr.Mount} (hm : Ssr.Plain mount.runJs ∧ Ssr.Plain mount.wasmPath)
    {env : List (String × String)} (henv : (env.map (·.1)).Nodup) (hlow : ∀ v ∈ env, v.1.toList.map Ssr.lower = v.1.toList)
    (hname : ∀ v ∈ env, Ssr.AttrName ("data-env-" ++ v.1) ∧ Ssr.Plain v.2)
    {depth : Nat} (hdepth : next ≤ depth)
    [DecidableEq Key] {call : Client → Nat → Option Resp → Option (Client × List (Ssr.ProgramMessage Key))}
    {s : Ssr.LoopState Key Resp Client Server} (hs : s.Reached (Ssr.fullProgram e mount env depth call)) {r : Ssr.Response}
    (hf : s.Finished (Ssr.fullProgram e mount env depth call) r) (hfirst : s.first = {})
    (hsent : List.Forall₂ (fun j cs => Json.Same j (batchJson (sortCommands cs))) (Ssr.domUpdates s.produced) batches) :
    ∃ cls uses css content text w ts, Sheet style cls uses css ∧ Dressed style cls uses ds content ∧
      r = .html text ∧ Ssr.tokenize text = some (.doctype :: w ++ ts) ∧ Ssr.Blank w ∧
      Reads (.element "html" (attrsOf (env.map fun v => ("data-env-" ++ v.1, v.2))) [.element "head" (fun _ => none) [],
        .element "body" (fun _ => none)
          (css.map (fun r => .element "style" (fun _ => none) [.text (r.1 ++ " { " ++ r.2 ++ " }")]) ++ content ++
          [.element "script" (attrsOf [("type", "module"), ("data-vertigo-run-wasm", mount.wasmPath), ("src", mount.runJs)]) []])]) ts := by
  obtain ⟨rest, e1, hcalm, hmount⟩ := hS.split
  have e1' : all = opening ++ rest := e1
  have hcs : ∀ c ∈ all, Calm c ∨ (∃ id name, c = .createNode id name) ∨ ∃ p x r, c = .insertBefore p x r := by
    intro c hm
    rw [e1] at hm
    rcases List.mem_append.mp hm with hm | hm
    · simp only [opening, List.mem_cons, List.not_mem_nil, or_false] at hm
      rcases hm with rfl | rfl | rfl | rfl
      · exact Or.inr (Or.inl ⟨_, _, rfl⟩)
      · exact Or.inr (Or.inl ⟨_, _, rfl⟩)
      · exact Or.inr (Or.inr ⟨_, _, _, rfl⟩)
      · exact Or.inr (Or.inl ⟨_, _, rfl⟩)
    · exact Or.inl (hcalm c hm)
  obtain ⟨s1, out1, tbl, b', h1, h2, h3⟩ := sim_run hstyle (sim_init style) hcs hS.run
  have hout' : Styles.run style all {} = some (styles, out) := hout
  rw [h1] at hout'
  cases hout'
  obtain ⟨s2, b2, cls2, uses2, h4, h5⟩ : ∃ s b cls uses, Styles.run style all {} = some (s, out) ∧
      Styled style ds all out b cls uses := by
    obtain ⟨s, o, b, cls, uses, h6, h7⟩ := styled_of hstyle hS hshows
    rw [h1] at h6; cases h6
    exact ⟨_, _, _, _, h1, h7⟩
  have hbb : b2 = b' := by
    have := h5.run
    rw [h2] at this; cases this; rfl
  subst hbb
  rw [e1'] at hout
  obtain ⟨s0, rest', rfl, hrest⟩ := run_opening hout
  -- the commands of the styles are calm, and remove no attribute
  have hcalm' : ∀ d ∈ rest', (Calm d ∨ IsCss d) ∧ ¬ IsRemoveAttr d := by
    intro d hd
    obtain ⟨c, hc, hfrom⟩ := run_from hrest d hd
    rcases hfrom with ⟨rfl, hr⟩ | hcss | ⟨id, v, rfl, hcc⟩
    · refine ⟨Or.inl (hcalm d hc), fun hra => ?_⟩
      cases d with
      | removeAttr id name =>
        have := hr id name rfl
        refine hcl (.removeAttr id name) (by rw [e1']; exact List.mem_append_right _ hc) ?_
        rintro (h | h)
        · exact this.1 h
        · exact this.2 h
      | _ => exact hra
    · refine ⟨Or.inr hcss, ?_⟩
      obtain ⟨a, b, rfl⟩ := hcss
      exact fun h => h
    · refine ⟨Or.inl (Or.inl ?_), fun h => h⟩
      rcases hcc with ⟨n, w, rfl⟩ | ⟨n, rfl⟩
      · rcases hcalm _ hc with h | ⟨_, h, -⟩ | h
        · exact h
        · cases h
        · cases h
      · rcases hcalm _ hc with h | ⟨_, h, -⟩ | h
        · exact h
        · cases h
        · cases h
  have hmem : ∀ c ∈ opening ++ rest', Quiet c := by
    intro c hc
    rcases List.mem_append.mp hc with hc | hc
    · exact Or.inl (Or.inr hc)
    · rcases (hcalm' c hc).1 with h | h
      · exact Or.inl (Or.inl h)
      · exact Or.inr h
  have hclean : ∀ c ∈ opening ++ rest', ¬ IsRemoveAttr c := by
    intro c hc
    rcases List.mem_append.mp hc with hc | hc
    · simp only [opening, List.mem_cons, List.not_mem_nil, or_false] at hc
      rcases hc with rfl | rfl | rfl | rfl <;> exact fun h => h
    · exact (hcalm' c hc).2
  have hsm : ∀ c ∈ opening ++ rest', IdsSmall c := ids_run hsmall binv_init hmem h2 fun x hx => by
    apply Nat.lt_of_not_le
    intro hle
    have := h3.objects x
    rw [hS.good.fresh x hle] at this
    cases hx' : b2.objects x with
    | none => exact hx hx'
    | some o => rw [hx'] at this; cases this
  obtain ⟨rt, hr1, hr2⟩ := roots_of rfl hcalm' (run_keeps hrest hmount) hb
  have hch : b2.children = b.children := by rw [h3.same]
  have hobjs : b2.objs = b.objs := by rw [h3.same]
  have hclosed : Closed b2 D := by
    have := hclosedB
    refine ⟨by rw [hch]; exact this.children, ?_⟩
    intro x hx name a ho hv
    rw [hch]
    have hal := h3.objects x
    rw [ho] at hal
    generalize hbo : b.objects x = o at hal
    cases hal with
    | element look => exact this.void x hx name _ hbo hv
  have hlooks := h3.looks hshows
  rw [← hch] at hlooks
  obtain ⟨content, hd1, hd2⟩ := hlooks.dressed
  have hsheet := h3.sheet
  have := page_read (h5.batches hb) hr1 hr2 (mem_sorted hb hclean) (mem_sorted hb hsm) (bare_run bare_init hmem h2) h5.html hclosed
    (by rw [hch]; exact htops) hd2 (hd1.readable hplain hread) (hsheet.plain hplain) he hm henv hlow hname
    (by rw [hobjs]; exact Nat.le_trans hS.objs hdepth) hs hf hfirst (by simpa [List.forall₂_map_right_iff] using hsent)
  obtain ⟨text, w, ts, p1, p2, p3, p4⟩ := this
  exact ⟨_, _, _, content, text, w, ts, hsheet, hd1, p1, p2, p3, p4⟩


/-- **C65** (partial: `View.Fine`, `View.ServedBut`, `Wearable` and `PlainStyle`). A page is sent when there is nothing to wait for. Then the
program has sent the commands of its view with classes and css, for its history, in batches. The response is HTML; and what a browser reads
of it is the view in the last state, inside of the body: every element has the class that is written with the classes of its css, before
that are the rules of these classes, and after that is the element that loads the program. An element can be without a class in some states. -/
theorem C65_page_partial (style : String → CssValue) (hstyle : Styling style) (hplain : PlainStyle style)
    (views : List (View S V)) (hok : ∀ v ∈ views, v.Fine) (hserved : ∀ v ∈ views, v.ServedBut fun a => a = "class" ∨ a = "css")
    (order : List (Inst S V) → List (Inst S V)) (hord : ∀ l, (order l).Perm l) (σ : S) (h : List (S × List Sub))
    (hc : Complete order h (App.start σ views).1)
    (hread : ∀ d ∈ htmls (lastState σ h) views, Wearable d)
    {styles : Styles} {out : List Cmd}
    (hout : Styles.run style ((App.start σ views).2 ++ ((App.start σ views).1.history order h).2) {} = some (styles, out))
    (batches : List (List Cmd)) (hb : batches.flatten = out)
    (hsmall : ((App.start σ views).1.history order h).1.next ≤ 2 ^ 53)
    {e : Ssr.Escape} (he : e.Ok) {mount : Ssr.Mount} (hm : Ssr.Plain mount.runJs ∧ Ssr.Plain mount.wasmPath)
    {env : List (String × String)} (henv : (env.map (·.1)).Nodup) (hlow : ∀ v ∈ env, v.1.toList.map Ssr.lower = v.1.toList)
    (hname : ∀ v ∈ env, Ssr.AttrName ("data-env-" ++ v.1) ∧ Ssr.Plain v.2)
    {depth : Nat} (hdepth : ((App.start σ views).1.history order h).1.next ≤ depth)
    [DecidableEq Key] {call : Client → Nat → Option Resp → Option (Client × List (Ssr.ProgramMessage Key))}
    {s : Ssr.LoopState Key Resp Client Server} (hs : s.Reached (Ssr.fullProgram e mount env depth call)) {r : Ssr.Response}
    (hf : s.Finished (Ssr.fullProgram e mount env depth call) r) (hfirst : s.first = {})
    (hsent : List.Forall₂ (fun j cs => Json.Same j (batchJson (sortCommands cs))) (Ssr.domUpdates s.produced) batches) :
    ∃ cls uses css content text w ts, Sheet style cls uses css ∧ Dressed style cls uses (htmls (lastState σ h) views) content ∧
      r = .html text ∧ Ssr.tokenize text = some (.doctype :: w ++ ts) ∧ Ssr.Blank w ∧
      Reads (.element "html" (attrsOf (env.map fun v => ("data-env-" ++ v.1, v.2))) [.element "head" (fun _ => none) [],
        .element "body" (fun _ => none)
          (css.map (fun r => .element "style" (fun _ => none) [.text (r.1 ++ " { " ++ r.2 ++ " }")]) ++ content ++
          [.element "script" (attrsOf [("type", "module"), ("data-vertigo-run-wasm", mount.wasmPath), ("src", mount.runJs)]) []])]) ts := by
  obtain ⟨b, hS⟩ := sends hok hord hc
  exact styledPage_of hstyle hplain hS.stays (app_cleanBut (order := order) (σ := σ) (h := h) hserved) (hS.closed hserved) hS.tops hS.shows hread
    hout batches hb hsmall he hm henv hlow hname hdepth hs hf hfirst hsent

end

/-! ## An example -/

theorem exampleStyle_plain : PlainStyle exampleStyle := by
  have hm : ∀ key r, r ∈ requests (exampleStyle key) → r = (.static, "color: red".toList) ∨ r = (.dynamic, "animation: 1s { from { top: 0 } }".toList) := by
    intro key r hr
    unfold exampleStyle at hr
    split at hr
    · simp only [requests, List.mem_cons, List.not_mem_nil, or_false] at hr
      exact Or.inl hr
    · simpa only [requests, List.mem_cons, List.not_mem_nil, or_false] using hr
  refine ⟨fun key r hr => ?_, fun key q rs hq => ?_⟩
  · rcases hm key r hr with rfl | rfl <;> decide
  · unfold exampleStyle at hq
    split at hq <;> simp at hq

theorem styledView_served : ∀ v ∈ styledView, v.ServedBut fun a => a = "class" ∨ a = "css" := by
  intro v hv
  simp only [styledView, List.mem_cons, List.not_mem_nil, or_false] at hv
  rcases hv with rfl | rfl
  · refine .element (by simp) (fun h => absurd h (by decide)) fun c hc => ?_
    rw [List.mem_singleton.mp hc]; exact .computedText
  · refine .element (by simp) (fun h => absurd h (by decide)) fun c hc => ?_
    rw [List.mem_singleton.mp hc]
    refine .list fun v => .element (by simp) (fun h => absurd h (by decide)) fun c hc => ?_
    rw [List.mem_singleton.mp hc]; exact .text

theorem wearable_css {name : String} {a : String → Option String} {cs : List Html} (h1 : Ssr.ElementName name) (h2 : ¬ Ssr.Forbidden name)
    (h3 : ¬ Ssr.TextOnly name) (h4 : ¬ Ssr.Unescaped name) (h5 : Ssr.htmlName name = name.toList) (ha : ∀ k, a k ≠ none → k = "css")
    (h6 : ∀ c ∈ cs, Wearable c) : Wearable (.element name a cs) := by
  refine .element h1 h2 (fun k v hk hv => absurd (ha k (by rw [hv]; simp)) hk) ?_ (fun h => absurd h h3) (fun h => absurd h h4) (fun _ => h5) h6
  intro k k' hk hk' h h' _
  rw [h.resolve_left fun h => hk (ha k h), h'.resolve_left fun h => hk' (ha k' h)]

theorem styledView_wearable : ∀ d ∈ htmls 2 styledView, Wearable d := by
  have e : htmls 2 styledView = [.element "p" (fun a => if a = "class" then some "on" else if a = "css" then some "a" else
        if a = "id" then some "x" else none) [.text "2"],
      .element "ul" (fun _ => none) [.element "li" (fun a => if a = "css" then some "b" else none) [.text "0"],
        .element "li" (fun a => if a = "css" then some "b" else none) [.text "1"]]] := by
    simp only [styledView, htmls, html, List.range, List.range.loop, List.flatMap_cons, List.flatMap_nil, List.append_nil, List.nil_append,
      List.cons_append, List.find?_nil, Option.bind_none]
    have h1 : (fun a => ([("css", fun (_ : Nat) => some "b")].find? (fun x => x.1 = a)).bind fun x => x.2 2) =
        fun a => if a = "css" then some "b" else none := by
      funext a
      by_cases h : a = "css"
      · subst h; rfl
      · rw [if_neg h, List.find?_cons_of_neg (by simpa using fun e : "css" = a => h e.symm)]; rfl
    congr 2
    · funext a
      by_cases h1 : a = "class"
      · subst h1; rfl
      · rw [if_neg h1, List.find?_cons_of_neg (by simpa using fun e : "class" = a => h1 e.symm)]
        by_cases h2 : a = "css"
        · subst h2; rfl
        · rw [if_neg h2, List.find?_cons_of_neg (by simpa using fun e : "css" = a => h2 e.symm)]
          by_cases h3 : a = "id"
          · subst h3; rfl
          · rw [if_neg h3, List.find?_cons_of_neg (by simpa using fun e : "id" = a => h3 e.symm)]; rfl
    · rw [h1]; rfl
  rw [e]
  have p : ∀ s ∈ ["0", "1", "2", "on", "x"], Ssr.Plain s := by unfold Ssr.Plain; decide
  have txt : ∀ s ∈ ["0", "1", "2", "on", "x"], ∀ c ∈ [Html.text s], Wearable c := fun s hs c hc => by
    rw [List.mem_singleton.mp hc]; exact .text (p s hs)
  intro d hd
  simp only [List.mem_cons, List.not_mem_nil, or_false] at hd
  rcases hd with rfl | rfl
  · refine .element ⟨⟨_, _, rfl, by decide⟩, by decide⟩ (by decide) ?_ ?_ (fun h => absurd h (by decide)) (fun h => absurd h (by decide))
      (fun h => absurd h (by decide)) (txt _ (by simp))
    · intro k v hk h
      by_cases h1 : k = "class"
      · subst h1; cases h; exact ⟨⟨by decide, by decide⟩, p _ (by simp)⟩
      · rw [if_neg h1, if_neg hk] at h
        split at h
        · rename_i h2; subst h2; cases h; exact ⟨⟨by decide, by decide⟩, p _ (by simp)⟩
        · cases h
    · intro k k' hk hk' h h' heq
      have two : ∀ k, k ≠ "css" → ((if k = "class" then some "on" else if k = "css" then some "a" else if k = "id" then some "x" else none) ≠ none ∨
          k = "class") → k = "class" ∨ k = "id" := by
        intro k hk h
        by_cases h1 : k = "class"
        · exact Or.inl h1
        · rw [if_neg h1, if_neg hk] at h
          rcases h with h | h
          · split at h
            · rename_i h2; exact Or.inr h2
            · exact absurd rfl h
          · exact Or.inl h
      rcases two k hk h with rfl | rfl <;> rcases two k' hk' h' with rfl | rfl
      · rfl
      · exact absurd heq (by decide)
      · exact absurd heq (by decide)
      · rfl
  · refine wearable_css ⟨⟨_, _, rfl, by decide⟩, by decide⟩ (by decide) (by decide) (by decide) (by decide) (by simp) fun c hc => ?_
    simp only [List.mem_cons, List.not_mem_nil, or_false] at hc
    have li : ∀ k, (if k = "css" then some "b" else none) ≠ none → k = "css" := by
      intro k h
      by_contra hk
      rw [if_neg hk] at h
      exact h rfl
    rcases hc with rfl | rfl
    · exact wearable_css ⟨⟨_, _, rfl, by decide⟩, by decide⟩ (by decide) (by decide) (by decide) (by decide) li (txt _ (by simp))
    · exact wearable_css ⟨⟨_, _, rfl, by decide⟩, by decide⟩ (by decide) (by decide) (by decide) (by decide) li (txt _ (by simp))

/-- The commands of `styledView`, and two batches. -/
def styledOut : List Cmd := ((Styles.run exampleStyle styledCalls {}).map (·.2)).getD []

def styledBatch (n : Nat) : Codec.JsJson := batchJson (sortCommands (if n = 0 then styledOut.take 12 else styledOut.drop 12))

def styledProgram : Ssr.Program String Nat Unit Server :=
  Ssr.fullProgram Ssr.htmlEscape ⟨"/run.js", "/a.wasm"⟩ [("port", "80")] 100 fun _ _ _ => some ((), [.domUpdate (styledBatch 1)])

/-- The page for `styledView`. -/
example : ∃ (s : Ssr.LoopState String Nat Unit Server) (r : Ssr.Response), s.Reached styledProgram ∧ s.Finished styledProgram r ∧
    s.sent = ["/a"] ∧ ∃ cls uses css content text w ts, Sheet exampleStyle cls uses css ∧ Dressed exampleStyle cls uses (htmls 2 styledView) content ∧
    r = .html text ∧ Ssr.tokenize text = some (.doctype :: w ++ ts) ∧ Ssr.Blank w ∧
    Reads (.element "html" (attrsOf [("data-env-port", "80")]) [.element "head" (fun _ => none) [],
        .element "body" (fun _ => none)
          (css.map (fun r => .element "style" (fun _ => none) [.text (r.1 ++ " { " ++ r.2 ++ " }")]) ++ content ++
          [.element "script" (attrsOf [("type", "module"), ("data-vertigo-run-wasm", "/a.wasm"), ("src", "/run.js")]) []])]) ts := by
  have hf : ((styledProgram.feed {} (styledBatch 0)).bind fun d => styledProgram.feed d (styledBatch 1)).isSome = true := by decide +kernel
  obtain ⟨d0, d1, h0, h1⟩ : ∃ d0 d1, styledProgram.feed {} (styledBatch 0) = some d0 ∧ styledProgram.feed d0 (styledBatch 1) = some d1 := by
    cases h0 : styledProgram.feed {} (styledBatch 0) with
    | none => rw [h0] at hf; cases hf
    | some d0 =>
      cases h1 : styledProgram.feed d0 (styledBatch 1) with
      | none => rw [h0, Option.bind_some, h1] at hf; cases hf
      | some d1 => exact ⟨d0, d1, rfl, h1⟩
  obtain ⟨s, r, hr, hf, hfirst, hsent, hs⟩ := two_batches (p := styledProgram) rfl h0 h1
  refine ⟨s, r, hr, hf, hs, ?_⟩
  obtain ⟨st, out, -, -, -, hrun, -⟩ := C64_looks_partial exampleStyle exampleStyle_styling styledView styledView_fine List.reverse List.reverse_perm 0
    styledHistory styledHistory_complete
  have hout : styledOut = out := by unfold styledOut styledCalls; rw [hrun]; rfl
  exact C65_page_partial exampleStyle exampleStyle_styling exampleStyle_plain styledView styledView_fine styledView_served List.reverse
    List.reverse_perm 0 styledHistory styledHistory_complete styledView_wearable hrun [styledOut.take 12, styledOut.drop 12]
    (by rw [← hout]; simp) (by decide +kernel) Ssr.htmlEscape_ok (mount := ⟨"/run.js", "/a.wasm"⟩)
    (by unfold Ssr.Plain; decide) (env := [("port", "80")]) (by decide) (by decide)
    (by intro v hv; rw [List.mem_singleton.mp hv]; exact ⟨⟨by decide, by decide⟩, by unfold Ssr.Plain; decide⟩) (depth := 100) (by decide +kernel)
    hr hf hfirst (by rw [hsent]; exact .cons (same_refl _) (.cons (same_refl _) .nil))

end Verif.View

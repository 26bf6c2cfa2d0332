import Verif.Ssr.Page
/-!
# The page as a browser reads it

The response of the server (C32, `Verif.Ssr.Page`) read by the tokenizer of a browser (C29, `Verif.Ssr.Html`).
-/
namespace Verif.Ssr
open Verif.Dom

instance (name : String) : Decidable (Forbidden name) := inferInstanceAs (Decidable (_ ∈ _))
instance (name : String) : Decidable (TextOnly name) := inferInstanceAs (Decidable (_ ∈ _))
instance (name : String) : Decidable (Unescaped name) := inferInstanceAs (Decidable (_ ∈ _))

theorem getIterLoop_set (m : OrderedMap) (k v : String) : ∀ {ks : List String} {l : List (String × String)}, m.getIterLoop ks = some l →
    (m.set k v).getIterLoop (ks.filter (· ≠ k) ++ [k]) = some (l.filter (·.1 ≠ k) ++ [(k, v)])
  | [], l, h => by
      simp only [OrderedMap.getIterLoop, Option.some.injEq] at h
      subst h
      simp [OrderedMap.getIterLoop, OrderedMap.set]
  | j :: ks, l, h => by
      simp only [OrderedMap.getIterLoop] at h
      split at h
      · rename_i x l' hx hl'
        simp only [Option.some.injEq] at h
        subst h
        have ih := getIterLoop_set m k v hl'
        by_cases hj : j = k
        · subst hj
          rw [List.filter_cons_of_neg (by simp), List.filter_cons_of_neg (by simp)]
          exact ih
        · rw [List.filter_cons_of_pos (by simpa using hj), List.filter_cons_of_pos (by simpa using hj)]
          simp only [List.cons_append, OrderedMap.getIterLoop, ih]
          have : (m.set k v).data j = some x := by simp [OrderedMap.set, hj, hx]
          rw [this]
      · cases h

theorem getIter_set {m : OrderedMap} {l : List (String × String)} (h : m.getIter = some l) (k v : String) :
    (m.set k v).getIter = some (l.filter (·.1 ≠ k) ++ [(k, v)]) := by
  have := getIterLoop_set m k v h
  unfold OrderedMap.getIter
  have ho : (m.set k v).order = m.order.filter (· ≠ k) ++ [k] := by simp [OrderedMap.set]
  rw [ho]
  exact this

theorem getIter_addEnv : ∀ {env : List (String × String)} {attr : OrderedMap} {l : List (String × String)}, attr.getIter = some l →
    (env.map (·.1)).Nodup → (∀ a ∈ l, ∀ e ∈ env, a.1 ≠ "data-env-" ++ e.1) →
    (addEnv attr env).getIter = some (l ++ env.map fun e => ("data-env-" ++ e.1, e.2))
  | [], attr, l, h, _, _ => by simpa [addEnv] using h
  | (k, v) :: env, attr, l, h, hn, hl => by
      simp only [List.map_cons, List.nodup_cons] at hn
      have h1 := getIter_set h ("data-env-" ++ k) v
      have hf : l.filter (·.1 ≠ "data-env-" ++ k) = l := by
        rw [List.filter_eq_self]
        intro a ha
        simpa using hl a ha _ List.mem_cons_self
      rw [hf] at h1
      rw [addEnv, getIter_addEnv h1 hn.2]
      · simp
      · intro a ha e he
        rcases List.mem_append.1 ha with ha | ha
        · exact hl a ha e (List.mem_cons_of_mem _ he)
        · simp only [List.mem_singleton] at ha
          subst ha
          intro heq
          have := congrArg String.toList heq
          simp only [String.toList_append] at this
          have : k = e.1 := String.toList_injective (List.append_cancel_left this)
          exact hn.1 (by rw [this]; exact List.mem_map_of_mem he)

theorem allOk_iff : ∀ {l : List HtmlNode}, AllOk l ↔ ∀ n ∈ l, Ok n
  | [] => by simp [AllOk]
  | n :: l => by simp [AllOk, allOk_iff (l := l)]

/-- A rule that can be part of a style sheet. -/
def PlainRule (r : String × String) : Prop := ∀ c ∈ r.1.toList ++ r.2.toList, c ≠ '\r' ∧ c ≠ '\x00' ∧ c ≠ '<'

theorem style_ok {r : String × String} (h : PlainRule r) : Ok (.element "style" {} [.text (r.1 ++ " { " ++ r.2 ++ " }")]) := by
  have ht : ∀ c ∈ (r.1 ++ " { " ++ r.2 ++ " }").toList, c ≠ '\r' ∧ c ≠ '\x00' ∧ c ≠ '<' := by
    intro c hc
    simp only [String.toList_append, List.mem_append] at hc
    rcases hc with ((hc | hc) | hc) | hc
    · exact h c (List.mem_append_left _ hc)
    · have : c = ' ' ∨ c = '{' ∨ c = ' ' := by simpa using hc
      rcases this with rfl | rfl | rfl <;> decide
    · exact h c (List.mem_append_right _ hc)
    · have : c = ' ' ∨ c = '}' := by simpa using hc
      rcases this with rfl | rfl <;> decide
  refine ⟨⟨⟨_, _, rfl, by decide⟩, by decide⟩, by decide, by simp [OrderedMap.getIter, OrderedMap.getIterLoop], by decide, ?_, ?_,
    fun h => absurd h (by decide), ?_, trivial⟩
  · intro _ c hc
    simp only [List.mem_singleton] at hc
    subst hc
    simp [IsElement]
  · intro _ c hc
    simp only [texts, List.append_nil] at hc
    exact (ht c hc).2.2
  · exact fun c hc => ⟨(ht c hc).1, (ht c hc).2.1⟩

theorem loader_ok {mount : Mount} (h1 : Plain mount.runJs) (h2 : Plain mount.wasmPath) : Ok (loader mount) := by
  obtain ⟨attr, he, hi⟩ := C32_loader mount
  rw [he]
  refine ⟨⟨⟨_, _, rfl, by decide⟩, by decide⟩, by decide, ?_, ?_, by simp, by simp [texts], fun h => absurd h (by decide), trivial⟩
  · rw [hi]
    intro a ha
    simp only [Option.getD_some, List.mem_cons, List.not_mem_nil, or_false] at ha
    rcases ha with rfl | rfl | rfl
    · exact ⟨⟨by decide, by decide⟩, by unfold Plain; decide⟩
    · have : AttrName "data-vertigo-run-wasm" := ⟨by decide, by decide⟩
      exact ⟨this, h2⟩
    · have : AttrName "src" := ⟨by decide, by decide⟩
      exact ⟨this, h1⟩
  · simp only [htmlAttrs, hi, Option.getD_some, List.map]
    decide

/-- `C32_read_partial`, with the conditions of C29 on the document that is written. -/
theorem read_ok {e : Escape} (he : e.Ok) {mount : Mount} (hm : Plain mount.runJs ∧ Plain mount.wasmPath)
    {env : List (String × String)} (henv : (env.map (·.1)).Nodup) (hlow : ∀ v ∈ env, v.1.toList.map lower = v.1.toList)
    (hname : ∀ v ∈ env, AttrName ("data-env-" ++ v.1) ∧ Plain v.2) {css : List (String × String)} (hcss : ∀ r ∈ css, PlainRule r)
    {attr battr : OrderedMap} {own : List (String × String)} (hown : attr.getIter = some own)
    (hfree : ∀ a ∈ own, ¬ "data-env-".toList <+: htmlName a.1)
    {before content after : List HtmlNode} (hbefore : ∀ n ∈ before, ¬ Named "body" n)
    (hdoc : Ok (.element "html" attr (before ++ .element "body" battr content :: after))) :
    ∃ text w ts attr', buildResponse e mount env (.element "html" attr (before ++ .element "body" battr content :: after)) css = .html text ∧
      attr'.getIter = some (own ++ env.map fun v => ("data-env-" ++ v.1, v.2)) ∧
      tokenize text = some (.doctype :: w ++ ts) ∧ Blank w ∧
      Shows (.element "html" attr' (before ++
        .element "body" battr (css.map (fun r => .element "style" {} [.text (r.1 ++ " { " ++ r.2 ++ " }")]) ++ content ++ [loader mount]) ::
        after)) ts ∧
      Ok (.element "html" attr' (before ++
        .element "body" battr (css.map (fun r => .element "style" {} [.text (r.1 ++ " { " ++ r.2 ++ " }")]) ++ content ++ [loader mount]) ::
        after)) := by
  have hpage : buildResponse e mount env (.element "html" attr (before ++ .element "body" battr content :: after)) css =
      .html (convertToString e true (.element "html" (addEnv attr env) (before ++
        .element "body" battr (css.map (fun r => .element "style" {} [.text (r.1 ++ " { " ++ r.2 ++ " }")]) ++ content ++ [loader mount]) ::
        after))) := by
    simp only [buildResponse, ne_eq, not_true_eq_false, if_false, modify_id]
    simp only [modify, childLoop_skip hbefore]
    simp only [childLoop, if_true, modify, foldl_first, addLastChild, cssNodes, List.reverse_reverse]
  have hpre : ∀ v : String × String, htmlName ("data-env-" ++ v.1) = "data-env-".toList ++ v.1.toList.map lower := by
    intro v
    simp only [htmlName, String.toList_append, List.map_append]
    rfl
  have hiter : (addEnv attr env).getIter = some (own ++ env.map fun v => ("data-env-" ++ v.1, v.2)) := by
    refine getIter_addEnv hown henv ?_
    intro a ha v hv heq
    apply hfree a ha
    rw [heq, hpre]
    exact List.prefix_append _ _
  obtain ⟨d1, d2, d3, d4, d5, d6, d7, d8⟩ := hdoc
  rw [allOk_iff] at d8
  have hbody : Ok (.element "body" battr content) := d8 _ (by simp)
  obtain ⟨b1, b2, b3, b4, b5, b6, b7, b8⟩ := hbody
  rw [allOk_iff] at b8
  have hok : Ok (.element "html" (addEnv attr env) (before ++
        .element "body" battr (css.map (fun r => .element "style" {} [.text (r.1 ++ " { " ++ r.2 ++ " }")]) ++ content ++ [loader mount]) ::
        after)) := by
    refine ⟨d1, d2, ?_, ?_, fun h => absurd h (by decide), fun h => absurd h (by decide), fun h => absurd h (by decide), ?_⟩
    · rw [hiter]
      rw [hown] at d3
      intro a ha
      simp only [Option.getD_some, List.mem_append, List.mem_map] at ha d3
      rcases ha with ha | ⟨v, hv, rfl⟩
      · exact d3 a ha
      · exact hname v hv
    · simp only [htmlAttrs, hiter, hown, Option.getD_some, List.map_append, List.map_map] at d4 ⊢
      rw [List.nodup_append]
      refine ⟨d4, ?_, ?_⟩
      · have hn : (env.map fun v => "data-env-".toList ++ v.1.toList.map lower).Nodup := by
          rw [List.Nodup, List.pairwise_map] at henv ⊢
          refine henv.imp_of_mem ?_
          intro a b ha hb hab heq
          have := List.append_cancel_left heq
          rw [hlow a ha, hlow b hb] at this
          exact hab (String.toList_injective this)
        have : (env.map ((fun x : List Char × List Char => x.1) ∘ (fun e : String × String => (htmlName e.1, e.2.toList)) ∘
            fun v => ("data-env-" ++ v.1, v.2))) = env.map fun v => "data-env-".toList ++ v.1.toList.map lower :=
          List.map_congr_left fun v _ => hpre v
        rw [this]
        exact hn
      · intro x hx y hy hxy
        subst hxy
        obtain ⟨a, ha, rfl⟩ := List.mem_map.1 hx
        obtain ⟨v, hv, hva⟩ := List.mem_map.1 hy
        apply hfree a ha
        have : htmlName ("data-env-" ++ v.1) = htmlName a.1 := hva
        rw [← this, hpre]
        exact List.prefix_append _ _
    · rw [allOk_iff]
      intro n hn
      simp only [List.mem_append, List.mem_cons] at hn
      rcases hn with hn | rfl | hn
      · exact d8 n (by simp [hn])
      · refine ⟨b1, b2, b3, b4, fun h => absurd h (by decide), fun h => absurd h (by decide), fun h => absurd h (by decide), ?_⟩
        rw [allOk_iff]
        intro n hn
        simp only [List.mem_append, List.mem_map, List.mem_singleton] at hn
        rcases hn with (⟨r, hr, rfl⟩ | hn) | rfl
        · exact style_ok (hcss r hr)
        · exact b8 n hn
        · exact loader_ok hm.1 hm.2
      · exact d8 n (by simp [hn])
  obtain ⟨w, ts, h1, h2, h3⟩ := C29_page_partial he true (root := .element "html" _ _) trivial hok
  exact ⟨_, w, ts, addEnv attr env, hpage, hiter, h1, h2, h3, hok⟩

/-- **C32 with C29.** What a browser reads of the response of the server: the document, with an attribute on `html` for each environment
variable after those it has, and in the body the styles, the content and the loader. -/
theorem C32_read_partial {e : Escape} (he : e.Ok) {mount : Mount} (hm : Plain mount.runJs ∧ Plain mount.wasmPath)
    {env : List (String × String)} (henv : (env.map (·.1)).Nodup) (hlow : ∀ v ∈ env, v.1.toList.map lower = v.1.toList)
    (hname : ∀ v ∈ env, AttrName ("data-env-" ++ v.1) ∧ Plain v.2) {css : List (String × String)} (hcss : ∀ r ∈ css, PlainRule r)
    {attr battr : OrderedMap} {own : List (String × String)} (hown : attr.getIter = some own)
    (hfree : ∀ a ∈ own, ¬ "data-env-".toList <+: htmlName a.1)
    {before content after : List HtmlNode} (hbefore : ∀ n ∈ before, ¬ Named "body" n)
    (hdoc : Ok (.element "html" attr (before ++ .element "body" battr content :: after))) :
    ∃ text w ts attr', buildResponse e mount env (.element "html" attr (before ++ .element "body" battr content :: after)) css = .html text ∧
      attr'.getIter = some (own ++ env.map fun v => ("data-env-" ++ v.1, v.2)) ∧
      tokenize text = some (.doctype :: w ++ ts) ∧ Blank w ∧
      Shows (.element "html" attr' (before ++
        .element "body" battr (css.map (fun r => .element "style" {} [.text (r.1 ++ " { " ++ r.2 ++ " }")]) ++ content ++ [loader mount]) ::
        after)) ts := by
  obtain ⟨text, w, ts, attr', h1, h2, h3, h4, h5, -⟩ := read_ok he hm henv hlow hname hcss hown hfree hbefore hdoc
  exact ⟨text, w, ts, attr', h1, h2, h3, h4, h5⟩

/-- A document, a style and a variable that meet the hypotheses. -/
example : (∀ v ∈ [("port", "80\"")], v.1.toList.map lower = v.1.toList) ∧
    (∀ v ∈ [("port", "80\"")], AttrName ("data-env-" ++ v.1) ∧ Plain v.2) ∧
    (∀ r ∈ [(".a", "color: red")], PlainRule r) ∧ ({} : OrderedMap).getIter = some [] ∧
    Ok (.element "html" {} ([.element "head" {} []] ++ .element "body" {} [.text "<Hi>"] :: [])) := by
  refine ⟨by decide, ?_, ?_, rfl, ?_⟩
  · intro v hv
    simp only [List.mem_singleton] at hv
    subst hv
    exact ⟨⟨by decide, by decide⟩, by unfold Plain; decide⟩
  · intro r hr
    simp only [List.mem_singleton] at hr
    subst hr
    unfold PlainRule; decide
  · refine ⟨⟨⟨_, _, rfl, by decide⟩, by decide⟩, by decide, by simp [OrderedMap.getIter, OrderedMap.getIterLoop], by decide, fun h => absurd h (by decide), by decide, fun h => absurd h (by decide), ?_⟩
    refine ⟨⟨⟨⟨_, _, rfl, by decide⟩, by decide⟩, by decide, by simp [OrderedMap.getIter, OrderedMap.getIterLoop], by decide, fun h => absurd h (by decide), by decide, fun h => absurd h (by decide), trivial⟩, ?_, trivial⟩
    refine ⟨⟨⟨_, _, rfl, by decide⟩, by decide⟩, by decide, by simp [OrderedMap.getIter, OrderedMap.getIterLoop], by decide, fun h => absurd h (by decide), by decide, fun h => absurd h (by decide), ?_, trivial⟩
    simp only [Ok]; unfold Plain; decide

end Verif.Ssr

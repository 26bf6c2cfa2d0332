import Verif.View.MacroProof
import Verif.View.Props
/-!
# C61: theorems
-/
namespace Verif.View.Macro
open Verif.View Verif.Dom

/-- **C61.** Markup that is written in `dom!` is accepted, and the code that is generated gives the nodes that are written: every
element with its attributes, event listeners, styles and content, in this order; one node for one root, a fragment for several. -/
theorem C61_builds {l : Lang} (hl : l.Ok) {env : Env S V H C F P} (he : env.Ok l) (roots : List Content) (hne : roots ≠ [])
    (h : ∀ c ∈ roots, c.Ok l ∧ c.isRoot) :
    (domInner l (nodes roots)).2 = [] ∧ run env (domInner l (nodes roots)).1 = some (rootDom env roots) := by
  obtain ⟨h1, h2, h3⟩ := roots_ok hl he roots h
  match roots, hne with
  | [c], _ =>
      obtain ⟨r1, d, r2, r3⟩ := root_ok hl he (h c (List.mem_cons_self ..)).1 (h c (List.mem_cons_self ..)).2 true
      refine ⟨by simpa [domInner, nodes] using r1, ?_⟩
      simp [domInner, nodes, run, r2, rootDom, doms, r3]
  | c :: c' :: cs, _ =>
      have hd : rootDom env (c :: c' :: cs) = .fragment (doms env (c :: c' :: cs)) := by
        unfold rootDom
        split
        · rename_i d hd; rw [hd] at h3; simp at h3
        · rfl
      have e : (nodes (c :: c' :: cs)).map (fun n => convertNode l n true) =
          convertNode l c.node true :: convertNode l c'.node true :: (nodes cs).map fun n => convertNode l n true := rfl
      unfold domInner
      rw [hd]
      refine ⟨?_, ?_⟩
      · rw [e] at h1 ⊢
        simpa using h1
      · rw [e] at h2 ⊢
        simp only [run, h2, Option.map_some]

/-- **C61** for `dom_element!`: one root. -/
theorem C61_element {l : Lang} (hl : l.Ok) {env : Env S V H C F P} (he : env.Ok l) (root : Content) (h : root.Ok l) (hr : root.isRoot) :
    ∃ code d, domElementInner l (nodes [root]) = (some code, []) ∧ run env code = some d ∧ root.dom env = [d] := by
  obtain ⟨h1, d, h2, h3⟩ := root_ok hl he h hr false
  refine ⟨_, d, ?_, h2, h3⟩
  simp [domElementInner, nodes, h1]

/-! ## What is accepted -/

theorem strip_inner (e : Expr) : stripBrackets e = e.inner := by
  cases e with
  | other ts => rfl
  | block stmts =>
      match stmts with
      | [] => rfl
      | [_] => rfl
      | _ :: _ :: _ => rfl

theorem attr_understood {l : Lang} (n : Node) : (convertAttr l n).2 = [] ↔ AttrUnderstood l n := by
  match n with
  | .mk type name value as cs =>
      cases type with
      | block =>
          cases value with
          | none =>
              simp only [convertAttr, Node.type, extractValue, Node.value]
              exact ⟨fun h => by simp at h, fun h => by cases h⟩
          | some v =>
              simp only [convertAttr, Node.type, extractValue, Node.value, strip_inner]
              split
              · rename_i hi; exact ⟨fun _ => .short (checkIdent_iff.mp hi), fun _ => rfl⟩
              · rename_i hi
                exact ⟨fun h => by simp at h, fun h => by cases h with | short h => exact absurd (checkIdent_iff.mpr h) hi⟩
      | «attribute» =>
          cases name with
          | none => exact ⟨fun h => by simp [convertAttr, Node.type, Node.name] at h, fun h => by cases h⟩
          | some name =>
              cases value with
              | none => exact ⟨fun h => by simp [convertAttr, Node.type, Node.name, extractValue, Node.value] at h, fun h => by cases h⟩
              | some v => exact ⟨fun _ => .named, fun _ => rfl⟩
      | element => exact ⟨fun h => by simp [convertAttr, Node.type] at h, fun h => by cases h⟩
      | text => exact ⟨fun h => by simp [convertAttr, Node.type] at h, fun h => by cases h⟩
      | comment => exact ⟨fun h => by simp [convertAttr, Node.type] at h, fun h => by cases h⟩
      | doctype => exact ⟨fun h => by simp [convertAttr, Node.type] at h, fun h => by cases h⟩
      | fragment => exact ⟨fun h => by simp [convertAttr, Node.type] at h, fun h => by cases h⟩

theorem prop_understood {l : Lang} (n : Node) : (convertField l n).2 = [] ↔ PropUnderstood l n := by
  match n with
  | .mk type name value as cs =>
      cases name with
      | none =>
          cases value with
          | none => exact ⟨fun h => by simp [convertField, Node.name, Node.value] at h, fun h => by cases h⟩
          | some v =>
              simp only [convertField, Node.name, Node.value, strip_inner]
              split
              · rename_i hi
                exact ⟨fun h => by simp at h, fun h => by cases h with | short h1 h2 => rcases hi with hi | hi <;> contradiction⟩
              · rename_i hi
                rw [not_or] at hi
                refine ⟨fun _ => .short hi.1 hi.2, fun _ => ?_⟩
                split <;> rfl
      | some name =>
          cases value with
          | none => exact ⟨fun h => by simp [convertField, Node.name, Node.value] at h, fun h => by cases h⟩
          | some v =>
              refine ⟨fun _ => .named, fun _ => ?_⟩
              simp only [convertField, Node.name, Node.value]
              split
              · rfl
              · split <;> rfl

theorem component_understood {l : Lang} (name : Option String) (attrs : List Node) :
    (convertToComponent l name attrs).2 = [] ↔ ∀ a ∈ attrs, PropUnderstood l a := by
  simp only [convertToComponent, List.flatMap_eq_nil_iff, prop_understood]

/-- No path of a component is the name of an element. -/
theorem path_not_element {l : Lang} {path : List String} (h : ComponentPath l path) : ¬ ElementName l ("::".intercalate path) := by
  intro h'
  have := component_path h
  rw [element_name h'] at this
  cases this

/-- An element, if its children are understood. -/
theorem element_understood {l : Lang} {type : NodeType} {name : Option String} {value : Option Expr} {attrs children : List Node} (root : Bool)
    (h : Named l (.mk type name value attrs children))
    (hc : (convertChildren l children).2 = [] ↔ ∀ n ∈ children, ChildUnderstood l n) :
    (convertNode l (.mk type name value attrs children) root).2 = [] ↔ Understood l (.mk type name value attrs children) := by
  by_cases ht : type = .element
  · subst ht
    obtain ⟨s, rfl, hs⟩ := h.1 rfl
    rcases hs with hs | ⟨path, hs, rfl⟩
    · simp only [convertNode, convertWith, Option.getD_some, element_name hs, Bool.false_eq_true, if_false, reduceCtorEq, ne_eq, not_true_eq_false,
        List.nil_append, List.append_eq_nil_iff, List.flatMap_eq_nil_iff, attr_understood, hc]
      refine ⟨fun ⟨h1, h2⟩ => .element hs h1 h2, fun h => ?_⟩
      generalize e : some s = t at h
      cases h with
      | element _ h1 h2 => exact ⟨h1, h2⟩
      | component h1 => cases e; exact absurd hs (path_not_element h1)
    · simp only [convertNode, convertWith, Option.getD_some, component_path hs, if_true, reduceCtorEq, if_false, ne_eq, not_true_eq_false,
        List.nil_append, component_understood]
      refine ⟨fun h => .component hs h, fun h => ?_⟩
      generalize e : some ("::".intercalate path) = t at h
      cases h with
      | element h1 => cases e; exact absurd h1 (path_not_element hs)
      | component _ h => exact h
  · refine ⟨fun h => ?_, fun h => by cases h <;> exact absurd rfl ht⟩
    simp only [convertNode, convertWith, ne_eq, ht, not_false_eq_true, if_true] at h
    split at h <;> simp at h

mutual
theorem child_understood {l : Lang} : ∀ (n : Node), Named l n → ((convertChild l n).2 = [] ↔ ChildUnderstood l n)
  | .mk type name value attrs children, h => by
      have no : ∀ t : NodeType, t ≠ .element → t ≠ .text → t ≠ .block → ¬ ChildUnderstood l (.mk t name value attrs children) := by
        intro t h1 h2 h3 hc
        cases hc with
        | text => exact h2 rfl
        | block => exact h3 rfl
        | node h => cases h <;> exact h1 rfl
      cases type with
      | text =>
          cases value with
          | none =>
              refine ⟨fun h => by simp [convertChild, extractValue, Node.value] at h, fun h => ?_⟩
              cases h with
              | node h => cases h
          | some v => exact ⟨fun _ => .text, fun _ => by simp [convertChild, extractValue, Node.value]⟩
      | block =>
          cases value with
          | none =>
              refine ⟨fun h => by simp [convertChild, extractValue, Node.value] at h, fun h => ?_⟩
              cases h with
              | node h => cases h
          | some v =>
              refine ⟨fun _ => .block, fun _ => ?_⟩
              simp only [convertChild, extractValue, Node.value]
              split <;> rfl
      | element =>
          have key : (convertChild l (.mk .element name value attrs children)).2 =
              (convertNode l (.mk .element name value attrs children) false).2 := by
            obtain ⟨s, rfl, hs⟩ := h.1 rfl
            rcases hs with hs | ⟨path, hs, rfl⟩
            · simp [convertChild, convertNode, element_name hs]
            · simp [convertChild, convertNode, convertWith, component_path hs]
          have hn := element_understood false h (children_understood children h.2)
          rw [key, hn]
          refine ⟨fun h => .node h, fun h => ?_⟩
          cases h with
          | node h => exact h
      | comment => exact ⟨fun h => by simp [convertChild] at h, fun h => absurd h (no _ (by decide) (by decide) (by decide))⟩
      | doctype => exact ⟨fun h => by simp [convertChild] at h, fun h => absurd h (no _ (by decide) (by decide) (by decide))⟩
      | fragment => exact ⟨fun h => by simp [convertChild] at h, fun h => absurd h (no _ (by decide) (by decide) (by decide))⟩
      | «attribute» => exact ⟨fun h => by simp [convertChild] at h, fun h => absurd h (no _ (by decide) (by decide) (by decide))⟩
theorem children_understood {l : Lang} : ∀ (ns : List Node), NamedAll l ns →
    ((convertChildren l ns).2 = [] ↔ ∀ n ∈ ns, ChildUnderstood l n)
  | [], _ => by simp [convertChildren]
  | n :: ns, h => by
      have h1 := child_understood n h.1
      have h2 := children_understood ns h.2
      simp only [convertChildren, List.append_eq_nil_iff, h1, h2, List.mem_cons, forall_eq_or_imp]
end

theorem roots_understood {l : Lang} : ∀ (ns : List Node), NamedAll l ns →
    ((ns.map fun n => convertNode l n true).flatMap (·.2) = [] ↔ ∀ n ∈ ns, Understood l n)
  | [], _ => by simp
  | n :: ns, h => by
      have h1 : (convertNode l n true).2 = [] ↔ Understood l n := by
        match n, h.1 with
        | .mk .., h => exact element_understood true h (children_understood _ h.2)
      have h2 := roots_understood ns h.2
      simp only [List.map_cons, List.flatMap_cons, List.append_eq_nil_iff, h1, h2, List.mem_cons, forall_eq_or_imp]

/-- **C61.** What `dom!` does not understand is an error when the program is compiled: it accepts its input exactly if there is at
least one root, every root is an element or a component, and everything inside of the elements can be translated. `dom_element!`
accepts its input exactly if there is one such root. -/
theorem C61_accepts {l : Lang} (ns : List Node) (h : NamedAll l ns) :
    ((domInner l ns).2 = [] ↔ ns ≠ [] ∧ ∀ n ∈ ns, Understood l n) ∧
    ((domElementInner l ns).2 = [] ↔ ∃ n, ns = [n] ∧ Understood l n) := by
  have hr := roots_understood ns h
  refine ⟨?_, ?_⟩
  rotate_left
  · match ns, h with
    | [], _ => simp [domElementInner]
    | [n], h =>
        have h1 : (convertNode l n false).2 = [] ↔ Understood l n := by
          match n, h.1 with
          | .mk .., h => exact element_understood false h (children_understood _ h.2)
        simp [domElementInner, h1]
    | n :: n' :: ns, _ => simp [domElementInner]
  match ns with
  | [] => simp [domInner]
  | [n] => simpa [domInner] using hr
  | n :: n' :: ns =>
      rw [← hr]
      simp [domInner]

/-! ## What is shown -/

mutual
theorem toView_html (env : Env S V H C F P) (σ : S) : ∀ c : Content, htmls σ (toViews (c.dom env)) = c.html env σ
  | .element name attrs content => by
      have ih := toViews_html env σ content
      simp only [Content.dom, toViews, Dom.toView, htmls, html, List.append_nil, ih, Content.html, List.cons.injEq, and_true,
        Html.element.injEq, true_and]
      funext key
      rw [List.find?_map]
      simp only [Function.comp_def, Option.bind_map]
  | .component path props => by simp [Content.dom, toViews, Dom.toView, htmls, Content.html]
  | .text literal => by simp [Content.dom, toViews, Dom.toView, htmls, html, Content.html]
  | .embed e => by
      have : ∀ x : Embedded S V, html σ x.view = embedded σ x := by
        intro x; cases x <;> simp [Embedded.view, html, embedded]
      simp [Content.dom, toViews, Dom.toView, htmls, Content.html, this]
  | .spread e => by
      have : ∀ x : Embedded S V, html σ x.view = embedded σ x := by
        intro x; cases x <;> simp [Embedded.view, html, embedded]
      simp only [Content.dom, Content.html]
      generalize env.items e = xs
      induction xs with
      | nil => rfl
      | cons x xs ih => simp only [List.map_cons, toViews, Dom.toView, htmls, List.flatMap_cons, this, ih]
theorem toViews_html (env : Env S V H C F P) (σ : S) : ∀ cs : List Content, htmls σ (toViews (doms env cs)) = Content.htmls env σ cs
  | [] => rfl
  | c :: cs => by
      have h1 := toView_html env σ c
      have h2 := toViews_html env σ cs
      simp only [doms, Content.htmls, toViews_append, htmls_append, h1, h2]
end

mutual
theorem shown_ok {env : Env S V H C F P} : ∀ c : Content, c.Shown env → ∀ v ∈ toViews (c.dom env), v.Ok
  | .element name attrs content, h => by
      cases h with
      | element h1 h2 h3 h4 h5 =>
      have ih := shown_all content h5
      intro v hv
      simp only [Content.dom, toViews, Dom.toView, List.mem_singleton] at hv
      subst hv
      refine .element h1 ?_ ?_ ih
      · simpa [Function.comp_def] using h2
      · simpa [Function.comp_def] using h3
  | .component path props, h => by
      cases h with
      | component h =>
      intro v hv
      simp only [Content.dom, toViews, Dom.toView, List.mem_singleton] at hv
      subst hv; exact h
  | .text literal, _ => by
      intro v hv
      simp only [Content.dom, toViews, Dom.toView, List.mem_singleton] at hv
      subst hv; exact .text
  | .embed e, h => by
      cases h with
      | embed h =>
      intro v hv
      simp only [Content.dom, toViews, Dom.toView, List.mem_singleton] at hv
      subst hv; exact h
  | .spread e, h => by
      cases h with
      | spread h =>
      intro v hv
      simp only [Content.dom, toViews_map, List.mem_map] at hv
      obtain ⟨i, hi, rfl⟩ := hv
      exact h i hi
theorem shown_all {env : Env S V H C F P} : ∀ cs : List Content, (∀ c ∈ cs, c.Shown env) → ∀ v ∈ toViews (doms env cs), v.Ok
  | [], _ => by simp [doms, toViews]
  | c :: cs, h => by
      have h1 := shown_ok c (h c (List.mem_cons_self ..))
      have h2 := shown_all cs (fun x hx => h x (List.mem_cons_of_mem _ hx))
      intro v hv
      rw [doms, toViews_append] at hv
      rcases List.mem_append.mp hv with hv | hv
      · exact h1 v hv
      · exact h2 v hv
end

/-- A root gives one node, which is an element, a text or the node of a component. -/
theorem root_plain {env : Env S V H C F P} {c : Content} (hr : c.isRoot) (hs : c.single env) :
    ∀ v ∈ toViews (c.dom env), v.plain = true := by
  cases c with
  | element name attrs content => intro v hv; simp [Content.dom, toViews, Dom.toView] at hv; subst hv; rfl
  | component path props => intro v hv; simp [Content.dom, toViews, Dom.toView] at hv; subst hv; exact hs
  | text _ => exact hr.elim
  | embed _ => exact hr.elim
  | spread _ => exact hr.elim

theorem root_length {env : Env S V H C F P} {c : Content} (hr : c.isRoot) : ∃ d, c.dom env = [d] := by
  cases c with
  | element name attrs content => simp only [Content.dom]; exact ⟨_, rfl⟩
  | component path props => simp only [Content.dom]; exact ⟨_, rfl⟩
  | text _ => exact hr.elim
  | embed _ => exact hr.elim
  | spread _ => exact hr.elim

theorem plain_all {env : Env S V H C F P} : ∀ cs : List Content, (∀ c ∈ cs, c.isRoot ∧ c.single env) →
    ∀ v ∈ toViews (doms env cs), v.plain = true
  | [], _ => by simp [doms, toViews]
  | c :: cs, h => by
      have h2 := plain_all cs (fun x hx => h x (List.mem_cons_of_mem _ hx))
      intro v hv
      rw [doms, toViews_append] at hv
      rcases List.mem_append.mp hv with hv | hv
      · exact root_plain (h c (List.mem_cons_self ..)).1 (h c (List.mem_cons_self ..)).2 v hv
      · exact h2 v hv

/-- The view of all roots. -/
theorem root_view {env : Env S V H C F P} {roots : List Content} (hr : ∀ c ∈ roots, c.isRoot)
    (hs : ∀ c ∈ roots, c.Shown env) (ht : ∀ c ∈ roots.tail, c.single env) :
    (rootDom env roots).toView.Ok ∧ ∀ σ, html σ (rootDom env roots).toView = Content.htmls env σ roots := by
  have hok := shown_all roots hs
  have hhtml := fun σ => toViews_html env σ roots
  unfold rootDom
  split
  · rename_i d hd
    rw [hd] at hok hhtml
    refine ⟨hok _ (by simp [toViews]), fun σ => ?_⟩
    have := hhtml σ
    simpa [toViews, htmls] using this
  · refine ⟨?_, fun σ => ?_⟩
    · rw [Dom.toView]
      refine .fragment hok ?_
      match roots with
      | [] => simp [doms, toViews]
      | c :: cs =>
          obtain ⟨d, hd⟩ := root_length (env := env) (hr c (List.mem_cons_self ..))
          rw [doms, hd]
          exact plain_all cs fun x hx => ⟨hr x (List.mem_cons_of_mem _ hx), ht x hx⟩
    · rw [Dom.toView, html]
      exact hhtml σ

/-- **C61** (partial: `Content.Shown`: what `C49_shows_partial` needs). The body of the application is what `dom!` gives for some
markup. After any number of transactions the document is what is written, with the values of the last state in the places of the
expressions. -/
theorem C61_shows_partial [DecidableEq V] {l : Lang} (hl : l.Ok) {env : Env S V H C F P} (he : env.Ok l) (roots : List Content)
    (hne : roots ≠ []) (h : ∀ c ∈ roots, c.Ok l ∧ c.isRoot) (hs : ∀ c ∈ roots, c.Shown env) (ht : ∀ c ∈ roots.tail, c.single env)
    (order : List (Inst S V) → List (Inst S V)) (hord : ∀ l, (order l).Perm l) (σ : S) (hist : List (S × List Sub)) :
    ∃ d, (domInner l (nodes roots)).2 = [] ∧ run env (domInner l (nodes roots)).1 = some d ∧
      (Complete order hist (App.start σ [d.toView]).1 →
        ∃ b, Browser.init.run ((App.start σ [d.toView]).2 ++ ((App.start σ [d.toView]).1.history order hist).2) = .ok b ∧
          b.children 1 = [2, 3] ∧ Shows b (b.children 3) (Content.htmls env (lastState σ hist) roots)) := by
  obtain ⟨h1, h2⟩ := C61_builds hl he roots hne h
  obtain ⟨v1, v2⟩ := root_view (fun c hc => (h c hc).2) hs ht
  refine ⟨_, h1, h2, fun hc => ?_⟩
  obtain ⟨b, b1, b2, b3⟩ := C49_shows_partial [(rootDom env roots).toView] (by simpa using v1) order hord σ hist hc
  refine ⟨b, b1, b2, ?_⟩
  simpa [htmls, v2] using b3

/-! ## Examples -/

/-- How the tokens of the examples are printed. -/
def samplePrint : List Tok → String
  | [.ident name] => if name.toList.all (fun c => c.isAlphanum || c == '_') then name else "?"
  | [.group .brace []] => "{}"
  | .punct '&' :: _ => "&.."
  | .punct '.' :: .punct '.' :: _ => ".."
  | _ => "?"

def sampleLang : Lang := ⟨samplePrint, fun c => c.isUpper⟩

theorem samplePrint_ident {name : String} (h : Ident name) : samplePrint [.ident name] = name := by
  have : (name.toList.all fun c => c.isAlphanum || c == '_') = true := by simpa [Ident] using h
  simp only [samplePrint, this, if_true]

/-- No other token is printed with these first letters. -/
theorem samplePrint_cases (ts : List Tok) : (∃ name, Ident name ∧ samplePrint ts = name) ∨ samplePrint ts = "?" ∨
    (ts = [.group .brace []] ∧ samplePrint ts = "{}") ∨ (∃ rest, ts = .punct '&' :: rest ∧ samplePrint ts = "&..") ∨
    (∃ rest, ts = .punct '.' :: .punct '.' :: rest ∧ samplePrint ts = "..") := by
  unfold samplePrint
  split
  · rename_i name
    split
    · rename_i h; exact .inl ⟨name, by simpa [Ident] using h, rfl⟩
    · exact .inr (.inl rfl)
  · exact .inr (.inr (.inl ⟨rfl, rfl⟩))
  · exact .inr (.inr (.inr (.inl ⟨_, rfl, rfl⟩)))
  · exact .inr (.inr (.inr (.inr ⟨_, rfl, rfl⟩)))
  · exact .inr (.inl rfl)

theorem sampleLang_ok : sampleLang.Ok where
  ident := fun _ h => samplePrint_ident h
  empty := by
    intro ts
    refine ⟨fun h => ?_, fun h => by subst h; rfl⟩
    change samplePrint ts = _ at h
    rcases samplePrint_cases ts with ⟨name, hn, e⟩ | e | ⟨e, -⟩ | ⟨rest, -, e⟩ | ⟨rest, -, e⟩
    · rw [h] at e; subst e; exact absurd (hn '{' (by decide)) (by decide)
    · rw [h] at e; exact absurd e (by decide)
    · exact e
    · rw [h] at e; exact absurd e (by decide)
    · rw [h] at e; exact absurd e (by decide)
  ref := by
    intro ts
    refine ⟨fun h => ?_, fun ⟨rest, h⟩ => by subst h; show (samplePrint _).toList.head? = _; simp [samplePrint]⟩
    change (samplePrint ts).toList.head? = _ at h
    rcases samplePrint_cases ts with ⟨name, hn, e⟩ | e | ⟨-, e⟩ | ⟨rest, e, -⟩ | ⟨rest, -, e⟩
    · rw [e] at h; exact absurd (hn '&' (List.mem_of_mem_head? (by simp [h]))) (by decide)
    · rw [e] at h; exact absurd h (by decide)
    · rw [e] at h; exact absurd h (by decide)
    · exact ⟨rest, e⟩
    · rw [e] at h; exact absurd h (by decide)
  dots := by
    intro ts
    refine ⟨fun h => ?_, fun ⟨rest, h⟩ => by subst h; show (samplePrint _).toList.take 2 = _; simp [samplePrint]⟩
    change (samplePrint ts).toList.take 2 = _ at h
    rcases samplePrint_cases ts with ⟨name, hn, e⟩ | e | ⟨-, e⟩ | ⟨rest, -, e⟩ | ⟨rest, e, -⟩
    · rw [e] at h
      exact absurd (hn '.' (List.mem_of_mem_take (i := 2) (by rw [h]; simp))) (by decide)
    · rw [e] at h; exact absurd h (by decide)
    · rw [e] at h; exact absurd h (by decide)
    · rw [e] at h; exact absurd h (by decide)
    · exact ⟨rest, e⟩

mutual
/-- The text of tokens without braces. -/
def flat : List Tok → String
  | [] => ""
  | t :: ts => flatTok t ++ flat ts
def flatTok : Tok → String
  | .punct c => String.singleton c
  | .ident name => name
  | .literal text => text
  | .group .brace ts => flat ts
  | .group _ ts => "(" ++ flat ts ++ ")"
end

theorem flat_brace (e : List Tok) : flat [.group .brace e] = flat e := by
  simp [flat, flatTok]

/-- The state is a number, `count` is a computed that shows it, `items` is a list of two texts; other expressions are texts. A
component is a paragraph with its first property. -/
def sampleEnv : Env Nat Nat String String String String where
  attr := fun ts => if flat ts = "count" then .computed (fun n => toString n) else .string (flat ts)
  handler := flat
  css := flat
  suspense := flat
  string := flat
  embed := fun ts => if flat ts = "count" then .computed (fun n => n) (fun n => toString n) else .string (flat ts)
  items := fun ts => if flat ts = "items" then [.string "one", .string "two"] else []
  into := flat
  clone := flat
  default := ""
  component := fun _ fields => .element "p" [] [.text ((fields.head?.map (·.2)).getD "")]

theorem sampleEnv_ok : sampleEnv.Ok sampleLang where
  attr := fun e => by simp only [sampleEnv, flat_brace]
  handler := flat_brace
  css := flat_brace
  suspense := flat_brace
  embed := fun e => by simp only [sampleEnv, flat_brace]
  into := flat_brace
  clone := flat_brace
  default := by
    intro e h
    change samplePrint e = _ at h
    rcases samplePrint_cases e with ⟨name, hn, e'⟩ | e' | ⟨-, e'⟩ | ⟨rest, -, e'⟩ | ⟨rest, -, e'⟩
    · rw [h] at e'; subst e'; exact absurd (hn ':' (by decide)) (by decide)
    all_goals rw [h] at e'; exact absurd e' (by decide)

/-- `<div id="main" title={count} on_click={save}> "Hello " {count} <b>{ let x = 1; x }</b> {..items} <my::Hello who={&user} {name} /> </div>`
and `<p></p>`. -/
def sample : List Content :=
  [.element "div" [.named "id" (.bare [.literal "main"]), .named "title" (.braced [.ident "count"]), .named "on_click" (.braced [.ident "save"])]
    [.text (.literal "Hello "), .embed (.braced [.ident "count"]),
      .element "b" [] [.embed (.steps [[.ident "let", .ident "x", .punct '=', .literal "1", .punct ';'], [.ident "x"]])],
      .spread [.ident "items"], .component ["my", "Hello"] [.cloned "who" [.ident "user"], .short "name"]],
    .element "p" [] []]

theorem sample_ok : ∀ c ∈ sample, c.Ok sampleLang ∧ c.isRoot := by
  have name : ∀ (s : String) (h : s.toList.all (fun c => c != ':') = true) (h' : (s.toList.head?.map Char.isUpper) = some false),
      ElementName sampleLang s := by
    intro s h h'
    refine ⟨fun hm => ?_, fun c cs e => ?_⟩
    · exact absurd (List.all_eq_true.mp h _ hm) (by decide)
    · rw [e] at h'; exact Option.some.inj h'
  intro c hc
  simp only [sample, List.mem_cons, List.not_mem_nil, or_false] at hc
  rcases hc with rfl | rfl
  · refine ⟨.element (name _ (by decide) (by decide)) ?_ ?_, trivial⟩
    · intro a ha
      simp only [List.mem_cons, List.not_mem_nil, or_false] at ha
      rcases ha with rfl | rfl | rfl <;> trivial
    · intro x hx
      simp only [List.mem_cons, List.not_mem_nil, or_false] at hx
      rcases hx with rfl | rfl | rfl | rfl | rfl
      · exact .text
      · exact .embed trivial (by simp) (by simp)
      · refine .element (name _ (by decide) (by decide)) (by simp) ?_
        intro y hy
        rw [List.mem_singleton.mp hy]
        exact .embed ⟨by simp, by simp⟩ (by simp) (by simp)
      · exact .spread
      · refine .component ⟨?_, ["my"], "Hello", 'H', _, rfl, rfl, rfl⟩ ?_
        · intro s hs
          simp only [List.mem_cons, List.not_mem_nil, or_false] at hs
          rcases hs with rfl | rfl <;> decide
        · intro p hp
          simp only [List.mem_cons, List.not_mem_nil, or_false] at hp
          rcases hp with rfl | rfl
          · trivial
          · show Ident "name"
            unfold Ident; decide
  · exact ⟨.element (name _ (by decide) (by decide)) (by simp) (by simp), trivial⟩

theorem sample_shown : ∀ c ∈ sample, c.Shown sampleEnv := by
  intro c hc
  simp only [sample, List.mem_cons, List.not_mem_nil, or_false] at hc
  rcases hc with rfl | rfl
  · refine .element (by decide) (by decide +kernel) (by decide +kernel) (by decide +kernel) ?_
    intro x hx
    simp only [List.mem_cons, List.not_mem_nil, or_false] at hx
    rcases hx with rfl | rfl | rfl | rfl | rfl
    · exact .text
    · refine .embed ?_
      rw [show sampleEnv.embed (Written.tokens (.braced [.ident "count"])) = .computed (fun n => n) (fun n => toString n) from by
        simp [sampleEnv, Written.tokens, flat, flatTok]]
      exact .value fun _ => .text
    · refine .element (by decide) (by decide) (by decide) (by simp) ?_
      intro y hy
      rw [List.mem_singleton.mp hy]
      refine .embed ?_
      simp only [sampleEnv, Written.tokens, flat_brace]
      rw [if_neg (by decide +kernel)]
      exact .text
    · refine .spread ?_
      rw [show sampleEnv.items [.ident "items"] = [.string "one", .string "two"] from by simp [sampleEnv, flat, flatTok]]
      intro i hi
      simp only [List.mem_cons, List.not_mem_nil, or_false] at hi
      rcases hi with rfl | rfl <;> exact .text
    · refine .component ?_
      exact .element (by decide) (by simp) (by simp) (fun c hc => by rw [List.mem_singleton.mp hc]; exact .text)
  · exact .element (by decide) (by simp) (by simp) (by simp) (by simp)

/-- The hypotheses of the theorems are met by the sample. -/
example : (domInner sampleLang (nodes sample)).2 = [] ∧
    run sampleEnv (domInner sampleLang (nodes sample)).1 = some (rootDom sampleEnv sample) :=
  C61_builds sampleLang_ok sampleEnv_ok sample (by simp [sample]) sample_ok

example (σ : Nat) (hist : List (Nat × List Sub)) : ∃ d, (domInner sampleLang (nodes sample)).2 = [] ∧
    run sampleEnv (domInner sampleLang (nodes sample)).1 = some d ∧
      (Complete List.reverse hist (App.start σ [d.toView]).1 →
        ∃ b, Browser.init.run ((App.start σ [d.toView]).2 ++ ((App.start σ [d.toView]).1.history List.reverse hist).2) = .ok b ∧
          b.children 1 = [2, 3] ∧ Shows b (b.children 3) (Content.htmls sampleEnv (lastState σ hist) sample)) :=
  C61_shows_partial sampleLang_ok sampleEnv_ok sample (by simp [sample]) sample_ok sample_shown
    (by intro c hc; simp only [sample, List.tail_cons, List.mem_singleton] at hc; subst hc; trivial) List.reverse List.reverse_perm σ hist

mutual
/-- A document as text. -/
def tags : Html → List String
  | .element name attr children =>
      ("<" ++ name ++ ((attr "id").map (" id=" ++ ·)).getD "" ++ ((attr "title").map (" title=" ++ ·)).getD "" ++ ">") ::
        tagsAll children ++ ["</" ++ name ++ ">"]
  | .text value => [value]
def tagsAll : List Html → List String
  | [] => []
  | h :: hs => tags h ++ tagsAll hs
end

/-- What the sample looks like when the state is 7. -/
example : tagsAll (Content.htmls sampleEnv 7 sample) = ["<div id=main title=7>", "Hello ", "7", "<b>", "letx=1;x", "</b>", "one", "two",
    "<p>", "&user", "</p>", "</div>", "<p>", "</p>"] := by decide +kernel

/-- Its event listeners. -/
example : (match run sampleEnv (domInner sampleLang (nodes sample)).1 with
    | some (.fragment [.element name _ listeners _ _ children, _]) => (name, listeners, children.length)
    | _ => ("", [], 0)) = ("div", [("click", "save")], 6) := by decide +kernel

/-- Not understood: a comment in an element, an attribute without a value, a text outside of all elements, nothing at all. -/
example : (domInner sampleLang [.mk .element (some "div") none [] [.mk .comment none none [] []]]).2 = [.unsupportedChild] ∧
    (domInner sampleLang [.mk .element (some "input") none [.mk .attribute (some "disabled") none [] []] []]).2 = [.missingValue] ∧
    (domInner sampleLang [.mk .text none (some (.other [.literal "a"])) [] []]).2 = [.expectedElement] ∧
    (domInner sampleLang []).2 = [.emptyInput] := by decide +kernel

/-- The nodes of the sample have names. -/
example : NamedAll sampleLang (nodes sample) := by
  have name : ∀ (s : String) (h : s.toList.all (fun c => c != ':') = true) (h' : (s.toList.head?.map Char.isUpper) = some false),
      ElementName sampleLang s := by
    intro s h h'
    refine ⟨fun hm => ?_, fun c cs e => ?_⟩
    · exact absurd (List.all_eq_true.mp h _ hm) (by decide)
    · rw [e] at h'; exact Option.some.inj h'
  have path : ComponentPath sampleLang ["my", "Hello"] := by
    refine ⟨?_, ["my"], "Hello", 'H', _, rfl, rfl, rfl⟩
    intro s hs
    simp only [List.mem_cons, List.not_mem_nil, or_false] at hs
    rcases hs with rfl | rfl <;> decide
  simp only [sample, nodes, Content.node, NamedAll, Named, reduceCtorEq, false_implies, and_true, true_and, forall_const,
    Option.some.injEq, exists_eq_left']
  exact ⟨⟨.inl (name _ (by decide) (by decide)), .inl (name _ (by decide) (by decide)), .inr ⟨_, path, rfl⟩⟩,
    .inl (name _ (by decide) (by decide))⟩

/-! ## What is lost -/

/-- `<Hello>"text"</Hello>` -/
def withContent : Node := .mk .element (some "Hello") none [] [.mk .text none (some (.other [.literal "text"])) [] []]

/-- **C61** does not hold for what is written inside of a component: it is accepted, and there is no trace of it in the code
(html_parser.rs:99-146 does not look at the children). -/
theorem C61_component_content_violated : (domInner sampleLang [withContent]).2 = [] ∧
    (domInner sampleLang [withContent]).1 = (domInner sampleLang [.mk .element (some "Hello") none [] []]).1 ∧
    (domInner sampleLang [.mk .element (some "p") none [] [.mk .text none (some (.other [.literal "text"])) [] []]]).1 ≠
      (domInner sampleLang [.mk .element (some "p") none [] []]).1 := by
  have h1 : isComponentName sampleLang.upper "Hello" = true := by decide +kernel
  have h2 : isComponentName sampleLang.upper "p" = false := by decide +kernel
  refine ⟨by decide +kernel, ?_, ?_⟩
  · simp [domInner, withContent, convertNode, convertWith, h1]
  · simp [domInner, convertNode, convertWith, h2, convertChildren, convertChild, extractValue, Node.value]

end Verif.View.Macro

import Verif.View.MacroSpec
/-!
# C61: proofs

The code that is generated for markup, and what it gives.
-/
namespace Verif.View.Macro
open Verif.View

/-! ## Names -/

theorem lastSegment_plain : ∀ (cs current : List Char), ':' ∉ cs → lastSegment cs current = current.reverse ++ cs
  | [], current, _ => by simp [lastSegment]
  | c :: cs, current, h => by
      have hc : c ≠ ':' := fun e => h (by simp [e])
      have ih := lastSegment_plain cs (c :: current) (fun hm => h (List.mem_cons_of_mem _ hm))
      unfold lastSegment
      split
      · rename_i e; cases e
      · rename_i e; injection e with e1 _; exact absurd e1 hc
      · rename_i e; injection e with e1 e2; subst e1 e2; rw [ih]; simp

theorem lastSegment_sep : ∀ (cs current rest : List Char), ':' ∉ cs →
    lastSegment (cs ++ ':' :: ':' :: rest) current = lastSegment rest []
  | [], current, rest, _ => by simp [lastSegment]
  | c :: cs, current, rest, h => by
      have hc : c ≠ ':' := fun e => h (by simp [e])
      have ih := lastSegment_sep cs (c :: current) rest (fun hm => h (List.mem_cons_of_mem _ hm))
      rw [List.cons_append]
      conv => lhs; unfold lastSegment
      split
      · rename_i e; cases e
      · rename_i e; injection e with e1 _; exact absurd e1 hc
      · rename_i e; injection e with e1 e2; subst e1 e2; exact ih

theorem lastSegment_path (last : String) (hl : ':' ∉ last.toList) : ∀ (front : List String), (∀ s ∈ front, ':' ∉ s.toList) →
    lastSegment ("::".intercalate (front ++ [last])).toList [] = last.toList
  | [], _ => by
      simp only [String.toList_intercalate, List.nil_append, List.map_cons, List.map_nil, List.intercalate_singleton]
      rw [lastSegment_plain _ _ hl]; rfl
  | s :: front, h => by
      have ih := lastSegment_path last hl front (fun t ht => h t (List.mem_cons_of_mem _ ht))
      rw [String.toList_intercalate] at ih ⊢
      have : ("::".toList.intercalate (List.map String.toList (s :: front ++ [last]))) =
          s.toList ++ ':' :: ':' :: ("::".toList.intercalate (List.map String.toList (front ++ [last]))) := by
        cases front with
        | nil => simp [List.intercalate]
        | cons t front => simp [List.intercalate]
      rw [this, lastSegment_sep _ _ _ (h s (List.mem_cons_self ..)), ih]

theorem component_path {l : Lang} {path : List String} (h : ComponentPath l path) :
    isComponentName l.upper ("::".intercalate path) = true := by
  obtain ⟨h1, front, last, c, cs, rfl, e, hu⟩ := h
  unfold isComponentName
  rw [lastSegment_path last (h1 _ (by simp)) front (fun s hs => h1 s (by simp [hs])), e]
  simpa using hu

theorem element_name {l : Lang} {name : String} (h : ElementName l name) : isComponentName l.upper name = false := by
  unfold isComponentName
  rw [lastSegment_plain _ _ h.1]
  cases e : name.toList with
  | nil => rfl
  | cons c cs => simpa using h.2 c cs e

/-! ## Expressions -/

theorem strip_bare (e : List Tok) : stripBrackets (.other e) = e := rfl
theorem strip_braced (e : List Tok) : stripBrackets (.block [e]) = e := rfl

/-- What the macro takes of an expression stands for the same as what is written. -/
theorem strip_written {α : Type} (f : List Tok → α) (hf : ∀ e, f [.group .brace e] = f e) (w : Written) (h : w.Ok) :
    f (stripBrackets w.expr) = f w.tokens := by
  cases w with
  | bare e => rfl
  | braced e => exact (hf e).symm
  | steps stmts =>
      match stmts, h with
      | [], h => exact absurd h.1 (by decide)
      | [_], h => exact absurd h.1 (by simp)
      | s :: t :: stmts, _ => rfl

theorem strip_attribute {α : Type} (f : List Tok → α) (hf : ∀ e, f [.group .brace e] = f e) {a : Attribute} (h : a.Ok) :
    ∀ v, a.node.value = some v → f (stripBrackets v) = f a.tokens := by
  cases a with
  | named name e =>
      intro v hv; cases hv
      exact strip_written f hf e h
  | short name =>
      intro v hv; cases hv
      exact (hf _).symm

theorem checkIdent_iff {name : String} : checkIdent name = true ↔ Ident name := by
  simp [checkIdent, Ident]

/-! ## Attributes -/

/-- The call for an attribute. -/
theorem convertAttr_ok {l : Lang} (hl : l.Ok) {a : Attribute} (h : a.Ok) :
    ∃ v, a.node.value = some v ∧ convertAttr l a.node = ([pushAttr a.key (stripBrackets v)], []) := by
  cases a with
  | named name e => exact ⟨_, rfl, rfl⟩
  | short name =>
      refine ⟨_, rfl, ?_⟩
      have : checkIdent name = true := checkIdent_iff.mpr h
      simp [convertAttr, Attribute.node, Node.type, extractValue, Node.value, strip_braced, hl.ident name h, this, Attribute.key]

/-- What an attribute adds to an element. -/
def Builder.with (env : Env S V H C F P) (b : Builder S V H C F) (a : Attribute) : Builder S V H C F where
  attrs := b.attrs ++ (if a.plain then [(a.key, fun σ => (env.attr a.tokens).now σ)] else [])
  listeners := b.listeners ++ ((events.lookup a.key).map fun event => (event, env.handler a.tokens)).toList
  css := b.css ++ (if a.key == "css" then [env.css a.tokens] else [])
  suspense := b.suspense ++ (if a.key == "vertigo-suspense" then [env.suspense a.tokens] else [])
  children := b.children

theorem get_now (v : AttrValue S) : v.get = fun σ => v.now σ := by
  cases v <;> rfl

theorem push_with {l : Lang} {env : Env S V H C F P} (he : env.Ok l) {a : Attribute} (h : a.Ok) (b : Builder S V H C F) {v : Expr}
    (hv : a.node.value = some v) : runCall env (pushAttr a.key (stripBrackets v)) b = some (b.with env a) := by
  have h1 := strip_attribute env.attr he.attr h v hv
  have h2 := strip_attribute env.handler he.handler h v hv
  have h3 := strip_attribute env.css he.css h v hv
  have h4 := strip_attribute env.suspense he.suspense h v hv
  generalize stripBrackets v = ts at h1 h2 h3 h4
  unfold pushAttr Builder.with Attribute.plain
  generalize a.key = k
  by_cases k1 : k = "on_click"
  · subst k1; simp [runCall, Builder.method, Builder.listen, events, h2]
  by_cases k2 : k = "on_mouse_down"
  · subst k2; simp [runCall, Builder.method, Builder.listen, events, List.lookup, h2]
  by_cases k3 : k = "on_mouse_up"
  · subst k3; simp [runCall, Builder.method, Builder.listen, events, List.lookup, h2]
  by_cases k4 : k = "on_mouse_enter"
  · subst k4; simp [runCall, Builder.method, Builder.listen, events, List.lookup, h2]
  by_cases k5 : k = "on_mouse_leave"
  · subst k5; simp [runCall, Builder.method, Builder.listen, events, List.lookup, h2]
  by_cases k6 : k = "on_input"
  · subst k6; simp [runCall, Builder.method, Builder.listen, events, List.lookup, h2]
  by_cases k7 : k = "on_change"
  · subst k7; simp [runCall, Builder.method, Builder.listen, events, List.lookup, h2]
  by_cases k8 : k = "on_blur"
  · subst k8; simp [runCall, Builder.method, Builder.listen, events, List.lookup, h2]
  by_cases k9 : k = "on_key_down"
  · subst k9; simp [runCall, Builder.method, Builder.listen, events, List.lookup, h2]
  by_cases k10 : k = "on_dropfile"
  · subst k10; simp [runCall, Builder.method, Builder.listen, events, List.lookup, h2]
  by_cases k11 : k = "hook_key_down"
  · subst k11; simp [runCall, Builder.method, Builder.listen, events, List.lookup, h2]
  by_cases k12 : k = "on_load"
  · subst k12; simp [runCall, Builder.method, Builder.listen, events, List.lookup, h2]
  have hn : events.lookup k = none := by
    have f : ∀ s : String, k ≠ s → (k == s) = false := fun s hs => by simpa using hs
    simp [events, List.lookup, f _ k1, f _ k2, f _ k3, f _ k4, f _ k5, f _ k6, f _ k7, f _ k8, f _ k9, f _ k10, f _ k11, f _ k12]
  by_cases k13 : k = "css"
  · subst k13; simp [runCall, Builder.method, events, List.lookup, h3]
  by_cases k14 : k = "vertigo-suspense"
  · subst k14; simp [runCall, events, List.lookup, h4]
  simp [k1, k2, k3, k4, k5, k6, k7, k8, k9, k10, k11, k12, k13, k14, runCall, hn, h1, get_now]

theorem runCalls_append (env : Env S V H C F P) : ∀ (xs ys : List Call) (b : Builder S V H C F),
    runCalls env (xs ++ ys) b = (runCalls env xs b).bind (runCalls env ys)
  | [], ys, b => by simp [runCalls]
  | x :: xs, ys, b => by
      simp only [List.cons_append, runCalls, Option.bind_assoc]
      congr 1; funext b'
      exact runCalls_append env xs ys b'

/-- The calls for the attributes of an element. -/
theorem attrs_ok {l : Lang} (hl : l.Ok) {env : Env S V H C F P} (he : env.Ok l) : ∀ (attrs : List Attribute), (∀ a ∈ attrs, a.Ok) →
    ∀ b : Builder S V H C F,
    ((attrs.map Attribute.node).flatMap fun a => (convertAttr l a).2) = [] ∧
    runCalls env ((attrs.map Attribute.node).flatMap fun a => (convertAttr l a).1) b = some (attrs.foldl (Builder.with env) b)
  | [], _, b => by simp [runCalls]
  | a :: attrs, h, b => by
      obtain ⟨v, hv, e⟩ := convertAttr_ok hl (h a (List.mem_cons_self ..))
      obtain ⟨i1, i2⟩ := attrs_ok hl he attrs (fun x hx => h x (List.mem_cons_of_mem _ hx)) (b.with env a)
      refine ⟨by simp only [List.map_cons, List.flatMap_cons, e, i1, List.append_nil], ?_⟩
      simp only [List.map_cons, List.flatMap_cons, e, List.cons_append, List.nil_append, runCalls,
        push_with he (h a (List.mem_cons_self ..)) b hv, Option.bind_some, List.foldl_cons]
      exact i2

theorem foldl_with (env : Env S V H C F P) : ∀ (attrs : List Attribute) (b : Builder S V H C F),
    attrs.foldl (Builder.with env) b =
      { attrs := b.attrs ++ (attrs.filter Attribute.plain).map fun a => (a.key, fun σ => (env.attr a.tokens).now σ)
        listeners := b.listeners ++ attrs.filterMap fun a => (events.lookup a.key).map fun event => (event, env.handler a.tokens)
        css := b.css ++ (attrs.filter fun a => a.key == "css").map fun a => env.css a.tokens
        suspense := b.suspense ++ (attrs.filter fun a => a.key == "vertigo-suspense").map fun a => env.suspense a.tokens
        children := b.children }
  | [], b => by simp
  | a :: attrs, b => by
      rw [List.foldl_cons, foldl_with env attrs (b.with env a)]
      simp only [Builder.with, Builder.mk.injEq]
      refine ⟨?_, ?_, ?_, ?_, trivial⟩
      · by_cases h : a.plain = true <;> simp [h]
      · cases h : events.lookup a.key <;> simp [h]
      · by_cases h : (a.key == "css") = true <;> simp [h]
      · by_cases h : (a.key == "vertigo-suspense") = true <;> simp [h]

/-! ## Components -/

/-- The field for a property. -/
theorem field_ok {l : Lang} (hl : l.Ok) {env : Env S V H C F P} (he : env.Ok l) {p : Property} (h : p.Ok) :
    (convertField l p.node).2 = [] ∧
    ((convertField l p.node).1.map fun f => (f.1, f.2.value env)) = [([.ident (p.value env).1], (p.value env).2)] := by
  have dd : "Default :: default()" ≠ "{}" := by decide
  have ident : ∀ name, Ident name → name ≠ "{}" ∧ name ≠ "Default :: default()" ∧ name.toList.head? ≠ some '&' := by
    intro name h
    refine ⟨?_, ?_, ?_⟩
    · rintro rfl; exact absurd (h '{' (by decide)) (by decide)
    · rintro rfl; exact absurd (h ':' (by decide)) (by decide)
    · intro e
      exact absurd (h '&' (List.mem_of_mem_head? (by simp [e]))) (by decide)
  cases p with
  | given name e =>
      have hi : env.into (stripBrackets e.expr) = env.into e.tokens := strip_written env.into he.into e h.1
      have hne : l.print (stripBrackets e.expr) ≠ "{}" := by
        rw [Ne, hl.empty]
        cases e with
        | bare e => exact h.2.2
        | braced e => exact h.2.2
        | steps stmts =>
            match stmts, h with
            | [], h => exact absurd h.1.1 (by decide)
            | [_], h => exact absurd h.1.1 (by simp)
            | s :: t :: stmts, h =>
                show ([Tok.group .brace (s :: t :: stmts).flatten] : List Tok) ≠ _
                intro e
                injection e with e _; injection e with _ e
                exact h.1.2 s (by simp) (by simp at e; exact e.1)
      have hnr : (l.print (stripBrackets e.expr)).toList.head? ≠ some '&' := by
        rw [Ne, hl.ref]
        rintro ⟨rest, e'⟩
        cases e with
        | bare e => exact h.2.1 rest e'
        | braced e => exact h.2.1 rest e'
        | steps stmts =>
            match stmts, h with
            | [], h => exact absurd h.1.1 (by decide)
            | [_], h => exact absurd h.1.1 (by simp)
            | s :: t :: stmts, h =>
                exact absurd (show ([Tok.group .brace (s :: t :: stmts).flatten] : List Tok) = .punct '&' :: rest from e') (by simp)
      by_cases hd : l.print (stripBrackets e.expr) = "Default :: default()"
      · have := (he.default _ hd).1
        simp [convertField, Property.node, Node.name, Node.value, hd, Property.value, Field.value, ← hi, this]
      · simp [convertField, Property.node, Node.name, Node.value, hd, hne, hnr, Property.value, Field.value, hi]
  | cloned name e =>
      have hne : l.print (.punct '&' :: e) ≠ "{}" := by rw [Ne, hl.empty]; simp
      have hr : (l.print (.punct '&' :: e)).toList.head? = some '&' := (hl.ref _).mpr ⟨_, rfl⟩
      have hd : l.print (.punct '&' :: e) ≠ "Default :: default()" := by
        intro e'
        rw [e'] at hr
        exact absurd hr (by decide)
      simp [convertField, Property.node, Node.name, Node.value, strip_braced, hne, hr, hd, Property.value, Field.value, he.clone]
  | default name =>
      have : l.print [.group .brace []] = "{}" := (hl.empty _).mpr rfl
      simp [convertField, Property.node, Node.name, Node.value, stripBrackets, Expr.tokens, this, Property.value, Field.value]
  | short name =>
      obtain ⟨h1, h2, h3⟩ := ident name h
      have : Field.value env (.into [.ident name]) = env.into [.group .brace [.ident name]] := (he.into _).symm
      simp [convertField, Property.node, Node.name, Node.value, strip_braced, hl.ident name h, h1, h2, h3, Property.value, this]
  | shortCloned name =>
      have hne : l.print [.punct '&', .ident name] ≠ "{}" := by rw [Ne, hl.empty]; simp
      have hr : (l.print [.punct '&', .ident name]).toList.head? = some '&' := (hl.ref _).mpr ⟨_, rfl⟩
      have hd : l.print [.punct '&', .ident name] ≠ "Default :: default()" := by
        intro e'
        rw [e'] at hr
        exact absurd hr (by decide)
      simp [convertField, Property.node, Node.name, Node.value, strip_braced, hne, hr, hd, Property.value, Field.value, he.clone]

theorem fields_ok {l : Lang} (hl : l.Ok) {env : Env S V H C F P} (he : env.Ok l) : ∀ (props : List Property), (∀ p ∈ props, p.Ok) →
    ((props.map Property.node).flatMap fun a => (convertField l a).2) = [] ∧
    (((props.map Property.node).flatMap fun a => (convertField l a).1).map fun f => (f.1, f.2.value env)) =
      props.map fun p => ([.ident (p.value env).1], (p.value env).2)
  | [], _ => by simp
  | p :: props, h => by
      obtain ⟨h1, h2⟩ := field_ok hl he (h p (List.mem_cons_self ..))
      obtain ⟨i1, i2⟩ := fields_ok hl he props (fun x hx => h x (List.mem_cons_of_mem _ hx))
      refine ⟨by simp [h1] at i1 ⊢; exact i1, ?_⟩
      simp only [List.map_cons, List.flatMap_cons, List.map_append, h2, i2, List.cons_append, List.nil_append]

/-! ## Nodes -/

/-- Running the code of a root, or of a child. -/
theorem component_ok {l : Lang} (hl : l.Ok) {env : Env S V H C F P} (he : env.Ok l) {path : List String} {props : List Property}
    (h : ∀ p ∈ props, p.Ok) :
    (convertToComponent l (some ("::".intercalate path)) (props.map Property.node)).2 = [] ∧
    (run env (convertToComponent l (some ("::".intercalate path)) (props.map Property.node)).1).map (fun d => [d]) =
      some ((Content.component path props).dom env) := by
  obtain ⟨h1, h2⟩ := fields_ok hl he props h
  refine ⟨h1, ?_⟩
  simp only [convertToComponent, run, h2, Option.map_some, Content.dom, Option.getD_some]

mutual
theorem child_ok {l : Lang} (hl : l.Ok) {env : Env S V H C F P} (he : env.Ok l) : ∀ (c : Content), c.Ok l → ∀ b : Builder S V H C F,
    (convertChild l c.node).2 = [] ∧
    runCalls env (convertChild l c.node).1 b = some { b with children := b.children ++ c.dom env }
  | .element name attrs content, h, b => by
      cases h with
      | element h1 h2 h3 =>
      obtain ⟨a1, a2⟩ := attrs_ok hl he attrs h2 ⟨[], [], [], [], []⟩
      obtain ⟨c1, c2⟩ := children_ok hl he content h3 (attrs.foldl (Builder.with env) ⟨[], [], [], [], []⟩)
      have hn := element_name h1
      constructor
      · simp [Content.node, convertChild, convertWith, hn, a1, c1]
      · simp only [Content.node, convertChild, convertWith, hn, Option.map_some, Option.getD_some, Bool.false_eq_true, if_false, runCalls,
          runCall, run, runCalls_append, a2, c2, Option.bind_some]
        rw [foldl_with]
        simp [Builder.add, Content.dom]
  | .component path props, h, b => by
      cases h with
      | component h1 h2 =>
      obtain ⟨a1, a2⟩ := component_ok hl he (path := path) h2
      have hn := component_path h1
      constructor
      · simp [Content.node, convertChild, hn, a1]
      · simp only [Content.node, convertChild, hn, Option.map_some, Option.getD_some, if_true, runCalls, runCall]
        rw [Option.map_eq_some_iff] at a2
        obtain ⟨d, e1, e2⟩ := a2
        simp [e1, ← e2, Builder.add]
  | .text literal, _, b => by
      simp [Content.node, convertChild, extractValue, Node.value, strip_bare, runCalls, runCall, Builder.add, Content.dom]
  | .embed e, h, b => by
      cases h with
      | embed h1 h2 h3 =>
      have hd : ¬ (l.print (stripBrackets e.expr)).toList.take 2 = ['.', '.'] := by
        rw [hl.dots]
        rintro ⟨rest, e'⟩
        cases e with
        | bare ts => exact h2 ts rfl
        | braced ts =>
            have : ts = .punct '.' :: .punct '.' :: rest := e'
            exact h3 rest (by rw [this])
        | steps stmts =>
            match stmts, h1 with
            | [], h => exact absurd h.1 (by decide)
            | [_], h => exact absurd h.1 (by simp)
            | s :: t :: stmts, h =>
                exact absurd (show ([Tok.group .brace (s :: t :: stmts).flatten] : List Tok) = _ from e') (by simp)
      have hv := strip_written env.embed he.embed e h1
      have hem : ∀ x : Embedded S V, x.embed = x.view := by intro x; cases x <;> rfl
      simp [Content.node, convertChild, extractValue, Node.value, hd, runCalls, runCall, Builder.add, Content.dom, hv, hem]
  | .spread e, _, b => by
      have hd : (l.print (.punct '.' :: .punct '.' :: e)).toList.take 2 = ['.', '.'] := (hl.dots _).mpr ⟨_, rfl⟩
      have hem : ∀ x : Embedded S V, x.embed = x.view := by intro x; cases x <;> rfl
      simp [Content.node, convertChild, extractValue, Node.value, strip_braced, hd, runCalls, runCall, Content.dom, hem]
theorem children_ok {l : Lang} (hl : l.Ok) {env : Env S V H C F P} (he : env.Ok l) : ∀ (cs : List Content), (∀ c ∈ cs, c.Ok l) →
    ∀ b : Builder S V H C F,
    (convertChildren l (nodes cs)).2 = [] ∧
    runCalls env (convertChildren l (nodes cs)).1 b = some { b with children := b.children ++ doms env cs }
  | [], _, b => by simp [nodes, convertChildren, runCalls, doms]
  | c :: cs, h, b => by
      obtain ⟨h1, h2⟩ := child_ok hl he c (h c (List.mem_cons_self ..)) b
      obtain ⟨i1, i2⟩ := children_ok hl he cs (fun x hx => h x (List.mem_cons_of_mem _ hx)) { b with children := b.children ++ c.dom env }
      simp [nodes, convertChildren, h1, i1, runCalls_append, h2, i2, doms]
end

/-- The code for a root. -/
theorem root_ok {l : Lang} (hl : l.Ok) {env : Env S V H C F P} (he : env.Ok l) {c : Content} (h : c.Ok l) (hr : c.isRoot) (to : Bool) :
    (convertNode l c.node to).2 = [] ∧ ∃ d, run env (convertNode l c.node to).1 = some d ∧ c.dom env = [d] := by
  cases c with
  | element name attrs content =>
      cases h with
      | element h1 h2 h3 =>
      obtain ⟨a1, a2⟩ := attrs_ok hl he attrs h2 ⟨[], [], [], [], []⟩
      obtain ⟨c1, c2⟩ := children_ok hl he content h3 (attrs.foldl (Builder.with env) ⟨[], [], [], [], []⟩)
      have hn := element_name h1
      constructor
      · simp [Content.node, convertNode, convertWith, hn, a1, c1]
      · rw [foldl_with] at a2 c2
        simp only [List.nil_append] at a2 c2
        simp only [Content.dom]
        refine ⟨_, ?_, rfl⟩
        cases to <;> simp only [Content.node, convertNode, convertWith, hn, run, runCalls_append, a2, c2, Option.getD_some, Bool.false_eq_true, if_false,
          if_true, Option.bind_some, Option.map_some]
  | component path props =>
      cases h with
      | component h1 h2 =>
      obtain ⟨a1, a2⟩ := component_ok hl he (path := path) h2
      have hn := component_path h1
      constructor
      · simp [Content.node, convertNode, convertWith, hn, a1]
      · rw [Option.map_eq_some_iff] at a2
        obtain ⟨d, e1, e2⟩ := a2
        refine ⟨d, ?_, e2.symm⟩
        simpa [Content.node, convertNode, convertWith, hn] using e1
  | text _ => exact hr.elim
  | embed _ => exact hr.elim
  | spread _ => exact hr.elim

theorem roots_ok {l : Lang} (hl : l.Ok) {env : Env S V H C F P} (he : env.Ok l) : ∀ (cs : List Content), (∀ c ∈ cs, c.Ok l ∧ c.isRoot) →
    ((nodes cs).map fun n => convertNode l n true).flatMap (·.2) = [] ∧
    runAll env (((nodes cs).map fun n => convertNode l n true).map (·.1)) = some (doms env cs) ∧ (doms env cs).length = cs.length
  | [], _ => by simp [nodes, runAll, doms]
  | c :: cs, h => by
      obtain ⟨h1, d, h2, h3⟩ := root_ok hl he (h c (List.mem_cons_self ..)).1 (h c (List.mem_cons_self ..)).2 true
      obtain ⟨i1, i2, i3⟩ := roots_ok hl he cs (fun x hx => h x (List.mem_cons_of_mem _ hx))
      refine ⟨?_, ?_, ?_⟩
      · simp only [nodes, List.map_cons, List.flatMap_cons, h1, i1, List.append_nil]
      · simp only [nodes, List.map_cons, runAll, h2, i2, Option.bind_some, Option.map_some, doms, h3, List.cons_append, List.nil_append]
      · simp [doms, h3, i3]

/-! ## Views -/

theorem toViews_map' : ∀ ds : List (Dom S V H C F), toViews ds = ds.map Dom.toView
  | [] => rfl
  | d :: ds => by rw [toViews, toViews_map' ds]; rfl

theorem toViews_append (xs ys : List (Dom S V H C F)) : toViews (xs ++ ys) = toViews xs ++ toViews ys := by
  simp [toViews_map']

theorem toViews_map (es : List (Embedded S V)) : toViews (es.map fun i => (.view i.view : Dom S V H C F)) = es.map Embedded.view := by
  simp [toViews_map', Function.comp_def, Dom.toView]

theorem htmls_append (σ : S) : ∀ xs ys : List (View S V), htmls σ (xs ++ ys) = htmls σ xs ++ htmls σ ys
  | [], _ => by simp [htmls]
  | x :: xs, ys => by simp [htmls, htmls_append σ xs ys]

end Verif.View.Macro

import Verif.View.Macro
import Verif.View.Spec
/-!
# C61: what is written in dom!

The markup that an application writes, and what it stands for.
-/
namespace Verif.View.Macro
open Verif.View

/-- A Rust expression in the markup. -/
inductive Written where
  /-- without braces, for example a literal -/
  | bare (e : List Tok)
  /-- `{e}` -/
  | braced (e : List Tok)
  /-- `{ s1 s2 .. }`, several statements -/
  | steps (stmts : List (List Tok))

/-- The tokens as they are written. -/
def Written.tokens : Written → List Tok
  | .bare e => e
  | .braced e => [.group .brace e]
  | .steps stmts => [.group .brace stmts.flatten]

/-- An attribute of an element: `name=e`, or `{name}`. -/
inductive Attribute where
  | named (name : String) (e : Written)
  | short (name : String)

def Attribute.key : Attribute → String
  | .named name _ => name
  | .short name => name

def Attribute.tokens : Attribute → List Tok
  | .named _ e => e.tokens
  | .short name => [.group .brace [.ident name]]

/-- An attribute of a component. -/
inductive Property where
  /-- `name={e}` -/
  | given (name : String) (e : Written)
  /-- `name={&e}` -/
  | cloned (name : String) (e : List Tok)
  /-- `name={}` -/
  | default (name : String)
  /-- `{name}` -/
  | short (name : String)
  /-- `{&name}` -/
  | shortCloned (name : String)

/-- Markup. -/
inductive Content where
  /-- `<name attrs>content</name>` -/
  | element (name : String) (attrs : List Attribute) (content : List Content)
  /-- `<path::Name props />` -/
  | component (path : List String) (props : List Property)
  /-- `"text"` -/
  | text (literal : Tok)
  /-- `{e}` -/
  | embed (e : Written)
  /-- `{..e}` -/
  | spread (e : List Tok)

/-! ## What `syn_rsx` reads -/

/-- What `syn` reads. -/
def Written.expr : Written → Expr
  | .bare e => .other e
  | .braced e => .block [e]
  | .steps stmts => .block stmts

def Attribute.node : Attribute → Node
  | .named name e => .mk .attribute (some name) (some e.expr) [] []
  | .short name => .mk .block none (some (.block [[.ident name]])) [] []

def Property.node : Property → Node
  | .given name e => .mk .attribute (some name) (some e.expr) [] []
  | .cloned name e => .mk .attribute (some name) (some (.block [.punct '&' :: e])) [] []
  | .default name => .mk .attribute (some name) (some (.block [])) [] []
  | .short name => .mk .block none (some (.block [[.ident name]])) [] []
  | .shortCloned name => .mk .block none (some (.block [[.punct '&', .ident name]])) [] []

mutual
/-- The node of `syn_rsx` for a piece of markup. -/
def Content.node : Content → Node
  | .element name attrs content => .mk .element (some name) none (attrs.map Attribute.node) (nodes content)
  | .component path props => .mk .element (some ("::".intercalate path)) none (props.map Property.node) []
  | .text literal => .mk .text none (some (.other [literal])) [] []
  | .embed e => .mk .block none (some e.expr) [] []
  | .spread e => .mk .block none (some (.block [.punct '.' :: .punct '.' :: e])) [] []
def nodes : List Content → List Node
  | [] => []
  | c :: cs => c.node :: nodes cs
end

/-! ## What it stands for -/

/-- The attributes that are events. -/
def events : List (String × String) :=
  [("on_click", "click"), ("on_mouse_down", "mousedown"), ("on_mouse_up", "mouseup"), ("on_mouse_enter", "mouseenter"),
    ("on_mouse_leave", "mouseleave"), ("on_input", "input"), ("on_change", "change"), ("on_blur", "blur"),
    ("on_key_down", "keydown"), ("on_dropfile", "drop"), ("hook_key_down", "hook_keydown"), ("on_load", "load")]

/-- An attribute of the element in the document. -/
def Attribute.plain (a : Attribute) : Bool :=
  (events.lookup a.key).isNone && a.key != "css" && a.key != "vertigo-suspense"

/-- The value of an attribute in a state. -/
def AttrValue.now (σ : S) : AttrValue S → Option String
  | .string s => some s
  | .computed f | .value f => some (f σ)
  | .computedOpt f | .valueOpt f => f σ

/-- A view for what is embedded: a node, a text, or a text that follows a computed. -/
def Embedded.view : Embedded S V → View S V
  | .node view => view
  | .string text => .text text
  | .computed f text => .value f (fun _ => true) fun v => .text (text v)

/-- The name and the value of a property. -/
def Property.value (env : Env S V H C F P) : Property → String × P
  | .given name e => (name, env.into e.tokens)
  | .cloned name e => (name, env.clone [.group .brace (.punct '&' :: e)])
  | .default name => (name, env.default)
  | .short name => (name, env.into [.group .brace [.ident name]])
  | .shortCloned name => (name, env.clone [.group .brace [.punct '&', .ident name]])

mutual
/-- The nodes that a piece of markup stands for: an element has the attributes, event listeners, styles and children that are
written, in this order. -/
def Content.dom (env : Env S V H C F P) : Content → List (Dom S V H C F)
  | .element name attrs content =>
      [.element name
        ((attrs.filter Attribute.plain).map fun a => (a.key, fun σ => (env.attr a.tokens).now σ))
        (attrs.filterMap fun a => (events.lookup a.key).map fun event => (event, env.handler a.tokens))
        ((attrs.filter fun a => a.key == "css").map fun a => env.css a.tokens)
        ((attrs.filter fun a => a.key == "vertigo-suspense").map fun a => env.suspense a.tokens)
        (doms env content)]
  | .component path props =>
      [.view (env.component ("::".intercalate path) (props.map fun p => ([.ident (p.value env).1], (p.value env).2)))]
  | .text literal => [.view (.text (env.string [literal]))]
  | .embed e => [.view (env.embed e.tokens).view]
  | .spread e => (env.items e).map fun i => .view i.view
def doms (env : Env S V H C F P) : List Content → List (Dom S V H C F)
  | [] => []
  | c :: cs => c.dom env ++ doms env cs
end

/-- What an embedded value looks like. -/
def embedded (σ : S) : Embedded S V → List Html
  | .node view => View.html σ view
  | .string text => [.text text]
  | .computed f text => [.text (text (f σ))]

mutual
/-- The document that a piece of markup stands for in a state (for markup without styles). -/
def Content.html (env : Env S V H C F P) (σ : S) : Content → List Html
  | .element name attrs content =>
      [.element name (fun key => ((attrs.filter Attribute.plain).find? fun a => a.key = key).bind fun a => (env.attr a.tokens).now σ)
        (Content.htmls env σ content)]
  | .component path props =>
      View.html σ (env.component ("::".intercalate path) (props.map fun p => ([.ident (p.value env).1], (p.value env).2)))
  | .text literal => [.text (env.string [literal])]
  | .embed e => embedded σ (env.embed e.tokens)
  | .spread e => (env.items e).flatMap (embedded σ)
def Content.htmls (env : Env S V H C F P) (σ : S) : List Content → List Html
  | [] => []
  | c :: cs => Content.html env σ c ++ Content.htmls env σ cs
end

/-! ## Conditions -/

/-- A name of letters, digits and `_`. -/
def Ident (name : String) : Prop := ∀ c ∈ name.toList, c.isAlphanum = true ∨ c = '_'

/-- How tokens are printed: as far as the macro looks at it. -/
structure Lang.Ok (l : Lang) : Prop where
  ident : ∀ name, Ident name → l.print [.ident name] = name
  empty : ∀ ts, l.print ts = "{}" ↔ ts = [.group .brace []]
  ref : ∀ ts, (l.print ts).toList.head? = some '&' ↔ ∃ rest, ts = .punct '&' :: rest
  dots : ∀ ts, (l.print ts).toList.take 2 = ['.', '.'] ↔ ∃ rest, ts = .punct '.' :: .punct '.' :: rest

/-- A block of one expression is this expression; `Default::default()` is the default. -/
structure Env.Ok (l : Lang) (env : Env S V H C F P) : Prop where
  attr : ∀ e, env.attr [.group .brace e] = env.attr e
  handler : ∀ e, env.handler [.group .brace e] = env.handler e
  css : ∀ e, env.css [.group .brace e] = env.css e
  suspense : ∀ e, env.suspense [.group .brace e] = env.suspense e
  embed : ∀ e, env.embed [.group .brace e] = env.embed e
  into : ∀ e, env.into [.group .brace e] = env.into e
  clone : ∀ e, env.clone [.group .brace e] = env.clone e
  default : ∀ e, l.print e = "Default :: default()" → env.into e = env.default ∧ env.clone e = env.default

/-- There is more than one statement. -/
def Written.Ok : Written → Prop
  | .bare _ => True
  | .braced _ => True
  | .steps stmts => 2 ≤ stmts.length ∧ ∀ s ∈ stmts, s ≠ []

/-- Not a reference, and not another pair of braces with nothing inside. -/
def Written.value : Written → Prop
  | .bare e | .braced e => (∀ rest, e ≠ .punct '&' :: rest) ∧ e ≠ [.group .brace []]
  | .steps _ => True

def Attribute.Ok : Attribute → Prop
  | .named _ e => e.Ok
  | .short name => Ident name

def Property.Ok : Property → Prop
  | .given _ e => e.Ok ∧ e.value
  | .cloned .. => True
  | .default _ => True
  | .short name => Ident name
  | .shortCloned name => Ident name

/-- The name of an element: it does not begin with a capital letter (and is not a path). -/
def ElementName (l : Lang) (name : String) : Prop := ':' ∉ name.toList ∧ ∀ c cs, name.toList = c :: cs → l.upper c = false

/-- The name of a component: a path whose last part begins with a capital letter. -/
def ComponentPath (l : Lang) (path : List String) : Prop :=
  (∀ s ∈ path, ':' ∉ s.toList) ∧ ∃ front last c cs, path = front ++ [last] ∧ last.toList = c :: cs ∧ l.upper c = true

/-- Markup as it can be written. -/
inductive Content.Ok (l : Lang) : Content → Prop where
  | element {name attrs content} : ElementName l name → (∀ a ∈ attrs, a.Ok) → (∀ c ∈ content, Content.Ok l c) →
      Content.Ok l (.element name attrs content)
  | component {path props} : ComponentPath l path → (∀ p ∈ props, p.Ok) → Content.Ok l (.component path props)
  | text {literal} : Content.Ok l (.text literal)
  | embed {e} : e.Ok → (∀ ts, e ≠ .bare ts) → (∀ rest, e ≠ .braced (.punct '.' :: .punct '.' :: rest)) → Content.Ok l (.embed e)
  | spread {e} : Content.Ok l (.spread e)

/-- An element or a component. -/
def Content.isRoot : Content → Prop
  | .element .. => True
  | .component .. => True
  | _ => False

/-- What `dom!` gives for its content: one node, or a fragment. -/
def rootDom (env : Env S V H C F P) (roots : List Content) : Dom S V H C F :=
  match doms env roots with
  | [d] => d
  | ds => .fragment ds

/-! ## Markup that is a view -/

/-- Markup whose document is described by `Content.html`, and for which C49 is shown: elements other than html, head and body, with
attributes other than `class` that are written once, without styles; views that are `View.Ok`. -/
inductive Content.Shown (env : Env S V H C F P) : Content → Prop where
  | element {name attrs content} : name ∉ ["html", "head", "body"] → ((attrs.filter Attribute.plain).map Attribute.key).Nodup →
      "class" ∉ (attrs.filter Attribute.plain).map Attribute.key → (∀ a ∈ attrs, a.key ≠ "css" ∧ a.key ≠ "vertigo-suspense") →
      (∀ c ∈ content, Content.Shown env c) → Content.Shown env (.element name attrs content)
  | component {path props} :
      (env.component ("::".intercalate path) (props.map fun p => ([.ident (p.value env).1], (p.value env).2))).Ok →
      Content.Shown env (.component path props)
  | text {literal} : Content.Shown env (.text literal)
  | embed {e} : (env.embed e.tokens).view.Ok → Content.Shown env (.embed e)
  | spread {e} : (∀ i ∈ env.items e, i.view.Ok) → Content.Shown env (.spread e)

/-- Not a component that is a value, a list or a fragment (see `C49_fragment_violated`). -/
def Content.single (env : Env S V H C F P) : Content → Prop
  | .component path props =>
      (env.component ("::".intercalate path) (props.map fun p => ([.ident (p.value env).1], (p.value env).2))).plain = true
  | _ => True

/-! ## What is accepted -/

/-- What is inside of the braces, if they contain one statement. -/
def Expr.inner : Expr → List Tok
  | .block [stmt] => stmt
  | .block stmts => [.group .brace stmts.flatten]
  | .other tokens => tokens

/-- An attribute of an element that has a name and a value. -/
inductive AttrUnderstood (l : Lang) : Node → Prop where
  | named {name v as cs} : AttrUnderstood l (.mk .attribute (some name) (some v) as cs)
  | short {name v as cs} : Ident (l.print v.inner) → AttrUnderstood l (.mk .block name (some v) as cs)

/-- An attribute of a component that has a name and a value. -/
inductive PropUnderstood (l : Lang) : Node → Prop where
  | named {type name v as cs} : PropUnderstood l (.mk type (some name) (some v) as cs)
  | short {type v as cs} : l.print v.inner ≠ "{}" → l.print v.inner ≠ "Default :: default()" →
      PropUnderstood l (.mk type none (some v) as cs)

mutual
/-- An element or a component that can be translated with everything in it. -/
inductive Understood (l : Lang) : Node → Prop where
  | element {name v attrs children} : ElementName l name → (∀ a ∈ attrs, AttrUnderstood l a) →
      (∀ c ∈ children, ChildUnderstood l c) → Understood l (.mk .element (some name) v attrs children)
  | component {path v attrs children} : ComponentPath l path → (∀ a ∈ attrs, PropUnderstood l a) →
      Understood l (.mk .element (some ("::".intercalate path)) v attrs children)
/-- A text, a block or an element inside of an element. -/
inductive ChildUnderstood (l : Lang) : Node → Prop where
  | text {name v as cs} : ChildUnderstood l (.mk .text name (some v) as cs)
  | block {name v as cs} : ChildUnderstood l (.mk .block name (some v) as cs)
  | node {n} : Understood l n → ChildUnderstood l n
end

mutual
/-- All elements have the name of an element or of a component. -/
def Named (l : Lang) : Node → Prop
  | .mk type name _ _ children =>
      (type = .element → ∃ s, name = some s ∧ (ElementName l s ∨ ∃ path, ComponentPath l path ∧ s = "::".intercalate path)) ∧
        NamedAll l children
def NamedAll (l : Lang) : List Node → Prop
  | [] => True
  | n :: ns => Named l n ∧ NamedAll l ns
end

end Verif.View.Macro

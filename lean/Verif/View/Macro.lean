import Verif.View.Model
/-!
# C61: the macro dom!

Model of `crates/vertigo-macro/src/html_parser.rs`, of the builder methods of `crates/vertigo/src/dom/dom_element.rs` that it uses,
of `crates/vertigo/src/dom/attr_value.rs` and of `crates/vertigo/src/dom_macro/dom.rs`.

The macro gets the nodes that the crate `syn_rsx` has read and gives Rust code. The code is a tree here, and it is run with the
builder methods. Rust expressions are lists of tokens; what they stand for is a parameter (`Env`), and so is how tokens are printed
(`TokenStream::to_string`).
-/
namespace Verif.View.Macro
open Verif.View

/-! ## Tokens and nodes -/

inductive Delimiter where
  | brace | parenthesis | bracket
  deriving DecidableEq

/-- A token tree of `proc_macro2`. -/
inductive Tok where
  | punct (c : Char)
  | ident (name : String)
  | literal (text : String)
  | group (d : Delimiter) (tokens : List Tok)

/-- `syn::Expr`: a block with the tokens of its statements, or something else. -/
inductive Expr where
  | block (stmts : List (List Tok))
  | other (tokens : List Tok)

/-- `ToTokens for Expr`. -/
def Expr.tokens : Expr → List Tok
  | .block stmts => [.group .brace stmts.flatten]
  | .other tokens => tokens

/-- `syn_rsx::NodeType`. -/
inductive NodeType where
  | element | attribute | text | comment | doctype | fragment | block
  deriving DecidableEq

/-- `syn_rsx::Node` (0.8). The name is what `name_as_string` gives. -/
inductive Node where
  | mk (type : NodeType) (name : Option String) (value : Option Expr) (attributes : List Node) (children : List Node)

def Node.type : Node → NodeType
  | .mk t .. => t
def Node.name : Node → Option String
  | .mk _ n .. => n
def Node.value : Node → Option Expr
  | .mk _ _ v .. => v

/-! ## The generated code -/

/-- The value of a field of a component (html_parser.rs:107-119). -/
inductive Field where
  /-- `(value).into()` -/
  | into (value : List Tok)
  /-- `(value).clone()` -/
  | clone (value : List Tok)
  /-- `Default::default()` -/
  | default

mutual
inductive Code where
  /-- `vertigo::DomElement::new(name)` and the calls -/
  | element (name : String) (calls : List Call)
  /-- `{ let cmp = name { fields }; cmp.mount() }` -/
  | component (name : String) (fields : List (List Tok × Field))
  /-- `vertigo::DomNode::from(code)` -/
  | node (code : Code)
  /-- `vertigo::DomNode::from(vertigo::DomComment::dom_fragment(vec!(..)))` -/
  | fragment (nodes : List Code)
inductive Call where
  /-- `.method(value)` -/
  | method (name : String) (value : List Tok)
  /-- `.suspense(Some(value))` -/
  | suspense (value : List Tok)
  /-- `.attr(name, value)` -/
  | attr (name : String) (value : List Tok)
  /-- `.child(code)` -/
  | child (code : Code)
  /-- `.child(vertigo::DomText::new(value))` -/
  | text (value : List Tok)
  /-- `.child(vertigo::EmbedDom::embed(value))` -/
  | embed (value : List Tok)
  /-- `.children(value.into_iter().map(|item| vertigo::EmbedDom::embed(item)).collect::<Vec<_>>())` -/
  | children (value : List Tok)
end

/-- What is reported with `emit_error!`: the code is not compiled. -/
inductive Error where
  | emptyInput | oneRoot | fragments | expectedElement | missingValue | invalidIdent | missingName | invalidAttribute | keyNeeded
  | keyValueNeeded | unsupportedChild
  deriving DecidableEq

/-! ## The macro -/

/-- html_parser.rs:65-86 (`strip_brackets`). -/
def stripBrackets (e : Expr) : List Tok :=
  match e with
  | .block [stmt] => stmt
  | e => e.tokens

/-- What is left of the text after the last `::` (`name.split("::").last()`). -/
def lastSegment : List Char → List Char → List Char
  | [], current => current.reverse
  | ':' :: ':' :: cs, _ => lastSegment cs []
  | c :: cs, current => lastSegment cs (c :: current)

/-- html_parser.rs:88-97 (`is_component_name`). `upper` is `char::is_uppercase`. -/
def isComponentName (upper : Char → Bool) (name : String) : Bool :=
  ((lastSegment name.toList []).head?.map upper).getD false

/-- html_parser.rs:155-165 (`check_ident`). -/
def checkIdent (name : String) : Bool := name.toList.all fun c => c.isAlphanum || c == '_'

/-- What the macro needs to know from outside: `TokenStream::to_string` and `char::is_uppercase`. -/
structure Lang where
  print : List Tok → String
  upper : Char → Bool

/-- html_parser.rs:348-357 (`extract_value`). -/
def extractValue (n : Node) : Option (List Tok) × List Error :=
  match n.value with
  | some value => (some (stripBrackets value), [])
  | none => (none, [.missingValue])

/-- html_parser.rs:101-136: one attribute of a component. -/
def convertField (l : Lang) (attr : Node) : List (List Tok × Field) × List Error :=
  match attr.name, attr.value with
  | some key, some value =>
      let value := stripBrackets value
      if l.print value = "{}" ∨ l.print value = "Default :: default()" then ([([.ident key], .default)], [])
      else if (l.print value).toList.head? = some '&' then ([([.ident key], .clone value)], [])
      else ([([.ident key], .into value)], [])
  | none, some value =>
      let value := stripBrackets value
      if l.print value = "{}" ∨ l.print value = "Default :: default()" then ([], [.keyNeeded])
      else if (l.print value).toList.head? = some '&' then ([(value.drop 1, .clone value)], [])
      else ([(value, .into value)], [])
  | _, none => ([], [.keyValueNeeded])

/-- html_parser.rs:99-153 (`convert_to_component`). -/
def convertToComponent (l : Lang) (name : Option String) (attributes : List Node) : Code × List Error :=
  (.component (name.getD "") (attributes.flatMap fun a => (convertField l a).1), attributes.flatMap fun a => (convertField l a).2)

/-- html_parser.rs:187-249 (`push_attr`). -/
def pushAttr (name : String) (value : List Tok) : Call :=
  if name = "on_click" then .method "on_click" value
  else if name = "on_mouse_down" then .method "on_mouse_down" value
  else if name = "on_mouse_up" then .method "on_mouse_up" value
  else if name = "on_mouse_enter" then .method "on_mouse_enter" value
  else if name = "on_mouse_leave" then .method "on_mouse_leave" value
  else if name = "on_input" then .method "on_input" value
  else if name = "on_change" then .method "on_change" value
  else if name = "on_blur" then .method "on_blur" value
  else if name = "on_key_down" then .method "on_key_down" value
  else if name = "on_dropfile" then .method "on_dropfile" value
  else if name = "hook_key_down" then .method "hook_key_down" value
  else if name = "on_load" then .method "on_load" value
  else if name = "css" then .method "css" value
  else if name = "vertigo-suspense" then .suspense value
  else .attr name value

/-- html_parser.rs:251-276: one attribute of an element. -/
def convertAttr (l : Lang) (attr : Node) : List Call × List Error :=
  match attr.type with
  | .block =>
      match extractValue attr with
      | (some value, _) => if checkIdent (l.print value) then ([pushAttr (l.print value) value], []) else ([], [.invalidIdent])
      | (none, errors) => ([], errors)
  | .attribute =>
      match attr.name with
      | none => ([], [.missingName])
      | some name =>
          match extractValue attr with
          | (some value, _) => ([pushAttr name value], [])
          | (none, errors) => ([], errors)
  | _ => ([], [.invalidAttribute])

/-- html_parser.rs:167-346 (`convert_node`), with what was made of the children (`convertChildren`; they are not looked at in the
case of a component). -/
def convertWith (l : Lang) (type : NodeType) (name : Option String) (attributes : List Node) (children : List Call × List Error)
    (toDomNode : Bool) : Code × List Error :=
  let errors := (if type = .fragment then [Error.fragments] else []) ++ (if type ≠ .element then [.expectedElement] else [])
  let nodeName := name.getD ""
  if isComponentName l.upper nodeName then
    let r := convertToComponent l name attributes
    (r.1, errors ++ r.2)
  else
    let code := Code.element nodeName ((attributes.flatMap fun a => (convertAttr l a).1) ++ children.1)
    (if toDomNode then .node code else code, errors ++ (attributes.flatMap fun a => (convertAttr l a).2) ++ children.2)

mutual
/-- html_parser.rs:278-329: the children of an element. -/
def convertChildren (l : Lang) : List Node → List Call × List Error
  | [] => ([], [])
  | child :: rest =>
      let r := convertChild l child
      let t := convertChildren l rest
      (r.1 ++ t.1, r.2 ++ t.2)
/-- html_parser.rs:279-328. -/
def convertChild (l : Lang) : Node → List Call × List Error
  | .mk .text name value attributes children =>
      match extractValue (.mk .text name value attributes children) with
      | (some value, _) => ([.text value], [])
      | (none, errors) => ([], errors)
  | .mk .element name _ attributes children =>
      if (name.map (isComponentName l.upper)).getD false then
        let r := convertToComponent l name attributes
        ([.child r.1], r.2)
      else
        let r := convertWith l .element name attributes (convertChildren l children) false
        ([.child r.1], r.2)
  | .mk .block name value attributes children =>
      match extractValue (.mk .block name value attributes children) with
      | (some value, _) =>
          if (l.print value).toList.take 2 = ['.', '.'] then ([.children (value.drop 2)], []) else ([.embed value], [])
      | (none, errors) => ([], errors)
  | _ => ([], [.unsupportedChild])
end

/-- html_parser.rs:167-346 (`convert_node`). -/
def convertNode (l : Lang) : Node → Bool → Code × List Error
  | .mk type name _ attributes children, toDomNode => convertWith l type name attributes (convertChildren l children) toDomNode

/-- html_parser.rs:7-39 (`dom_inner`). -/
def domInner (l : Lang) (nodes : List Node) : Code × List Error :=
  let r := nodes.map fun n => convertNode l n true
  match r with
  | [last] => (.node last.1, last.2)
  | r => (.fragment (r.map (·.1)), r.flatMap (·.2) ++ if r.isEmpty then [.emptyInput] else [])

/-- html_parser.rs:41-63 (`dom_element_inner`); `none`: no code. -/
def domElementInner (l : Lang) (nodes : List Node) : Option Code × List Error :=
  match nodes.map fun n => convertNode l n false with
  | [r] => (some r.1, r.2)
  | rs => (none, rs.flatMap (·.2) ++ [.oneRoot])

/-! ## Running the code -/

/-- `AttrValue` (dom/attr_value.rs:3-9). A `Value` is read as a computed. -/
inductive AttrValue (S : Type) where
  | string (value : String)
  | computed (f : S → String)
  | computedOpt (f : S → Option String)
  | value (f : S → String)
  | valueOpt (f : S → Option String)

/-- dom_element.rs:86-123 (`add_attr`): what the attribute is in a state. -/
def AttrValue.get : AttrValue S → S → Option String
  | .string s, _ => some s
  | .computed f, σ => some (f σ)
  | .computedOpt f, σ => f σ
  | .value f, σ => some (f σ)
  | .valueOpt f, σ => f σ

/-- What can be embedded (dom_macro/dom.rs:8-64). -/
inductive Embedded (S V : Type) where
  | node (view : View S V)
  | string (text : String)
  | computed (f : S → V) (text : V → String)

/-- dom_macro/dom.rs:3-64 (`EmbedDom::embed`). -/
def Embedded.embed : Embedded S V → View S V
  | .node view => view
  | .string text => .text text
  | .computed f text => .value f (fun _ => true) fun v => .text (text v)

/-- A node: what the builder methods have made. `H`, `C`, `F` are the callbacks, styles and functions of `suspense`. The lists are
in the order of the calls. -/
inductive Dom (S V H C F : Type) where
  | element (name : String) (attrs : List (String × (S → Option String))) (listeners : List (String × H)) (css : List C)
      (suspense : List F) (children : List (Dom S V H C F))
  | view (v : View S V)
  | fragment (nodes : List (Dom S V H C F))

/-- What the Rust expressions stand for, in the places where they are written. `P` is the type of the values of fields. -/
structure Env (S V H C F P : Type) where
  attr : List Tok → AttrValue S
  handler : List Tok → H
  css : List Tok → C
  suspense : List Tok → F
  string : List Tok → String
  embed : List Tok → Embedded S V
  items : List Tok → List (Embedded S V)
  into : List Tok → P
  clone : List Tok → P
  default : P
  /-- the node that `mount` gives for a component with these fields -/
  component : String → List (List Tok × P) → View S V

/-- An element while it is built (dom_element.rs:22-28). -/
structure Builder (S V H C F : Type) where
  attrs : List (String × (S → Option String))
  listeners : List (String × H)
  css : List C
  suspense : List F
  children : List (Dom S V H C F)

/-- dom_element.rs:182-203 (`add_event_listener`). -/
def Builder.listen (b : Builder S V H C F) (event : String) (h : H) : Builder S V H C F :=
  { b with listeners := b.listeners ++ [(event, h)] }

/-- The methods of dom_element.rs:63-79 and 229-393; `none`: there is no such method. -/
def Builder.method (env : Env S V H C F P) (b : Builder S V H C F) (name : String) (v : List Tok) : Option (Builder S V H C F) :=
  if name = "css" then some { b with css := b.css ++ [env.css v] }
  else if name = "on_click" then some (b.listen "click" (env.handler v))
  else if name = "on_mouse_down" then some (b.listen "mousedown" (env.handler v))
  else if name = "on_mouse_up" then some (b.listen "mouseup" (env.handler v))
  else if name = "on_mouse_enter" then some (b.listen "mouseenter" (env.handler v))
  else if name = "on_mouse_leave" then some (b.listen "mouseleave" (env.handler v))
  else if name = "on_input" then some (b.listen "input" (env.handler v))
  else if name = "on_change" then some (b.listen "change" (env.handler v))
  else if name = "on_blur" then some (b.listen "blur" (env.handler v))
  else if name = "on_key_down" then some (b.listen "keydown" (env.handler v))
  else if name = "on_dropfile" then some (b.listen "drop" (env.handler v))
  else if name = "hook_key_down" then some (b.listen "hook_keydown" (env.handler v))
  else if name = "on_load" then some (b.listen "load" (env.handler v))
  else none

/-- `add_child` (dom_element.rs:141-151). -/
def Builder.add (b : Builder S V H C F) (d : Dom S V H C F) : Builder S V H C F := { b with children := b.children ++ [d] }

def Field.value (env : Env S V H C F P) : Field → P
  | .into v => env.into v
  | .clone v => env.clone v
  | .default => env.default

mutual
/-- What the code gives; `none`: it is not compiled. -/
def run (env : Env S V H C F P) : Code → Option (Dom S V H C F)
  | .element name calls =>
      (runCalls env calls ⟨[], [], [], [], []⟩).map fun b => .element name b.attrs b.listeners b.css b.suspense b.children
  | .component name fields => some (.view (env.component name (fields.map fun f => (f.1, f.2.value env))))
  /- dom_node.rs:30-46: the node is the same -/
  | .node code => run env code
  /- dom_comment.rs:72-90 -/
  | .fragment nodes => (runAll env nodes).map .fragment
/-- The calls, one after the other. -/
def runCalls (env : Env S V H C F P) : List Call → Builder S V H C F → Option (Builder S V H C F)
  | [], b => some b
  | c :: cs, b => (runCall env c b).bind (runCalls env cs)
def runCall (env : Env S V H C F P) : Call → Builder S V H C F → Option (Builder S V H C F)
  | .method name v, b => b.method env name v
  /- dom_element.rs:81-84 -/
  | .suspense v, b => some { b with suspense := b.suspense ++ [env.suspense v] }
  | .attr name v, b => some { b with attrs := b.attrs ++ [(name, (env.attr v).get)] }
  | .child code, b => (run env code).map b.add
  | .text v, b => some (b.add (.view (.text (env.string v))))
  | .embed v, b => some (b.add (.view (env.embed v).embed))
  /- dom_element.rs:170-175 (`children`) -/
  | .children v, b => some { b with children := b.children ++ (env.items v).map fun e => .view e.embed }
def runAll (env : Env S V H C F P) : List Code → Option (List (Dom S V H C F))
  | [] => some []
  | c :: cs => (run env c).bind fun d => (runAll env cs).map (d :: ·)
end

mutual
/-- The view (C49) of a node: without the event listeners, which do not change the document (C55), and the styles. -/
def Dom.toView : Dom S V H C F → View S V
  | .element name attrs _ _ _ children => .element name attrs (toViews children)
  | .view v => v
  | .fragment nodes => .fragment (toViews nodes)
def toViews : List (Dom S V H C F) → List (View S V)
  | [] => []
  | d :: ds => d.toView :: toViews ds
end

end Verif.View.Macro

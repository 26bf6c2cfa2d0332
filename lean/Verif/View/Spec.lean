import Verif.View.Model
/-!
# C49: what a view looks like

The document that a view stands for, as a function of the state; what it means that the page shows a document; and
which subscriptions must run after a transaction.
-/
namespace Verif.View
open Verif.Dom

/-- A document: what a user sees. Comments are not part of it. -/
inductive Html where
  | element (name : String) (attr : String → Option String) (children : List Html)
  | text (value : String)

mutual
/-- The view in the state `σ`, rendered from scratch. -/
def html (σ : S) : View S V → List Html
  | .element name attrs children =>
      [.element name (fun a => (attrs.find? fun p => p.1 = a).bind fun p => p.2 σ) (htmls σ children)]
  | .text value => [.text value]
  | .computedText f => [.text (f σ)]
  | .value f shown render => if shown (f σ) then html σ (render (f σ)) else []
  | .list f _ render => (f σ).flatMap fun v => html σ (render v)
  | .fragment nodes => htmls σ nodes
def htmls (σ : S) : List (View S V) → List Html
  | [] => []
  | v :: vs => html σ v ++ htmls σ vs
end

/-- The nodes `xs` of the page, with everything below them, are the document `hs`. -/
inductive Shows (b : Browser) : List Id → List Html → Prop where
  | nil : Shows b [] []
  | text {x xs s hs} : b.objects x = some (.text s) → Shows b xs hs → Shows b (x :: xs) (.text s :: hs)
  | comment {x xs s hs} : b.objects x = some (.comment s) → Shows b xs hs → Shows b (x :: xs) hs
  | element {x xs name attr cs hs} : b.objects x = some (.element name attr) → Shows b (b.children x) cs →
      Shows b xs hs → Shows b (x :: xs) (.element name attr cs :: hs)

/-- An element or a text: not a marker. -/
def View.plain : View S V → Bool
  | .element .. => true
  | .text _ => true
  | .computedText _ => true
  | _ => false

/-- Views that are built in order: attributes are given once; list items and, except for the first one, the nodes of
fragments are elements or texts; items with the same key look the same. (The elements html, head and body have fixed ids.) -/
inductive View.Fine : View S V → Prop where
  | element {name : String} {attrs : List (String × (S → Option String))} {children : List (View S V)} : name ∉ ["html", "head", "body"] → (attrs.map (·.1)).Nodup →
      (∀ c ∈ children, View.Fine c) → View.Fine (.element name attrs children)
  | text {value} : View.Fine (.text value)
  | computedText {f} : View.Fine (.computedText f)
  | value {f : S → V} {shown : V → Bool} {render : V → View S V} : (∀ v, View.Fine (render v)) → View.Fine (.value f shown render)
  | list {f : S → List V} {key : V → V} {render : V → View S V} : (∀ v, View.Fine (render v)) → (∀ v, (render v).plain = true) →
      (∀ v w, key v = key w → render v = render w) → View.Fine (.list f key render)
  | fragment {nodes : List (View S V)} : (∀ c ∈ nodes, View.Fine c) → (∀ c ∈ nodes.tail, c.plain = true) → View.Fine (.fragment nodes)

/-- The views of the theorem: those that are built in order and have no `class`: attributes are given once; list items and, except for the first one, the nodes of
fragments are elements or texts; items with the same key look the same. (What the model leaves out: `class`, and the
elements html, head and body, which have fixed ids.) -/
inductive View.Ok : View S V → Prop where
  | element {name : String} {attrs : List (String × (S → Option String))} {children : List (View S V)} : name ∉ ["html", "head", "body"] → (attrs.map (·.1)).Nodup → "class" ∉ attrs.map (·.1) →
      (∀ c ∈ children, View.Ok c) → View.Ok (.element name attrs children)
  | text {value} : View.Ok (.text value)
  | computedText {f} : View.Ok (.computedText f)
  | value {f : S → V} {shown : V → Bool} {render : V → View S V} : (∀ v, View.Ok (render v)) → View.Ok (.value f shown render)
  | list {f : S → List V} {key : V → V} {render : V → View S V} : (∀ v, View.Ok (render v)) → (∀ v, (render v).plain = true) →
      (∀ v w, key v = key w → render v = render w) → View.Ok (.list f key render)
  | fragment {nodes : List (View S V)} : (∀ c ∈ nodes, View.Ok c) → (∀ c ∈ nodes.tail, c.plain = true) → View.Ok (.fragment nodes)

theorem View.Ok.fine {v : View S V} (h : v.Ok) : v.Fine := by
  induction h with
  | element h1 h2 _ _ ih => exact .element h1 h2 ih
  | text => exact .text
  | computedText => exact .computedText
  | value _ ih => exact .value ih
  | list _ h2 h3 ih => exact .list ih h2 h3
  | fragment _ h2 ih => exact .fragment ih h2

section
variable [DecidableEq V]

mutual
/-- The subscriptions in the document whose computed has another value in the state `σ` than the one they were last
called with. -/
def due (σ : S) : Inst S V → List Sub
  | .element id _ attrs children =>
      (attrs.filter fun a => a.f σ ≠ a.last).map (fun a => (id, some a.name)) ++ dueAll σ children
  | .text _ _ => []
  | .computedText id f last => if f σ = last then [] else [(id, none)]
  | .value id _ f _ _ last content => (if f σ = last then [] else [(id, none)]) ++ dueAll σ content
  | .list id _ f _ _ items content => (if f σ = items then [] else [(id, none)]) ++ dueAll σ content
  | .fragment _ _ content => dueAll σ content
def dueAll (σ : S) : List (Inst S V) → List Sub
  | [] => []
  | i :: is => due σ i ++ dueAll σ is
end

/-- After each transaction all subscriptions run whose value has changed (C05, C07), in any order; others may be asked
to run as well. -/
def Complete (order : List (Inst S V) → List (Inst S V)) : List (S × List Sub) → App S V → Prop
  | [], _ => True
  | (σ, subs) :: h, a => (∀ s ∈ dueAll σ a.body, s ∈ subs) ∧ Complete order h (a.change σ order subs).1

/-- The state after a history. -/
def lastState (σ : S) : List (S × List Sub) → S
  | [] => σ
  | (σ', _) :: h => lastState σ' h

end
end Verif.View

import Verif.Ssr.Html
/-!
# C32: the finished page

Model of `HtmlResponse::build_response` (vertigo-cli/src/serve/html/html_response.rs),
`HtmlNode::modify` (html_element.rs) and the parts of element.rs and response_state.rs they use.
-/
namespace Verif.Ssr
open Verif.Dom

/-! ## Model -/

/-- response_state.rs:3-6. -/
inductive ContentType where
  | plain
  | html
  deriving DecidableEq

/-- response_state.rs:18-22. The text is a list of characters. -/
structure Response where
  status : Nat
  contentType : ContentType
  body : List Char
  deriving DecidableEq

/-- response_state.rs:27-33. -/
def Response.html (body : List Char) : Response := ⟨200, .html, body⟩

/-- response_state.rs:36-42. -/
def Response.plain (body : List Char) : Response := ⟨200, .plain, body⟩

/-- response_state.rs:43-49. -/
def Response.internalError (body : List Char) : Response := ⟨500, .plain, body⟩

/-- html_element.rs:298-309, the loop of `modify`: `f` is what happens to the child found. -/
def childLoop (tag : String) (index : Nat) (f : HtmlNode → HtmlNode × Bool) : Nat → List HtmlNode → List HtmlNode × Bool
  | _, [] => ([], false)
  | current, n :: l =>
      match n with
      | .element name _ _ =>
          if name = tag then
            if current = index then
              let (n, b) := f n
              (n :: l, b)
            else
              let (l, b) := childLoop tag index f (current + 1) l
              (n :: l, b)
          else
            let (l, b) := childLoop tag index f current l
            (n :: l, b)
      | _ =>
          let (l, b) := childLoop tag index f current l
          (n :: l, b)

/-- html_element.rs:216-225 and 288-313. -/
def modify : List (String × Nat) → (HtmlNode → HtmlNode) → HtmlNode → HtmlNode × Bool
  | [], f, .element name attr children => (f (.element name attr children), true)
  | (tag, index) :: rest, f, .element name attr children =>
      let (children, b) := childLoop tag index (modify rest f) 0 children
      (.element name attr children, b)
  | _, _, n => (n, false)

/-- html_element.rs:268-270. -/
def addFirstChild (child : HtmlNode) : HtmlNode → HtmlNode
  | .element name attr children => .element name attr (child :: children)
  | n => n

/-- html_element.rs:272-275. -/
def addLastChild (child : HtmlNode) : HtmlNode → HtmlNode
  | .element name attr children => .element name attr (children ++ [child])
  | n => n

/-- element.rs:185-199. -/
def cssNodes (css : List (String × String)) : List HtmlNode :=
  css.map fun r => .element "style" {} [.text (r.1 ++ " { " ++ r.2 ++ " }")]

/-- mount_path.rs:7-16, the public fields. -/
structure Mount where
  runJs : String
  wasmPath : String

/-- html_response.rs:101-104. -/
def loader (mount : Mount) : HtmlNode :=
  .element "script" (((OrderedMap.set {} "type" "module").set "data-vertigo-run-wasm" mount.wasmPath).set "src" mount.runJs) []

/-- html_response.rs:88-90. The environment is a `HashMap`: its entries, in any order. -/
def addEnv (attr : OrderedMap) : List (String × String) → OrderedMap
  | [] => attr
  | (k, v) :: env => addEnv (attr.set ("data-env-" ++ k) v) env

/-- html_response.rs:75-120, after the document and the styles have been collected
(`get_response`, element.rs:202-206). -/
def buildResponse (e : Escape) (mount : Mount) (env : List (String × String)) (root : HtmlNode) (css : List (String × String)) :
    Response :=
  match root with
  | .element name attr children =>
      if name ≠ "html" then .internalError ("Missing <html> element, found " ++ name ++ " instead").toList
      else
        let root : HtmlNode := .element name (addEnv attr env) children
        let (root, _) := modify [("head", 0)] id root
        let (root, success) := modify [("body", 0)]
          (fun body => addLastChild (loader mount) ((cssNodes css).reverse.foldl (fun b c => addFirstChild c b) body)) root
        if success then .html (convertToString e true root)
        else .internalError "Missing <body> element".toList
  | _ => .internalError "Missing <html> element".toList

/-! ## Specification -/

/-- A node is an element with this name. -/
def Named (name : String) : HtmlNode → Prop
  | .element n _ _ => n = name
  | _ => False

/-! ## Proofs -/

theorem childLoop_skip {tag : String} {f : HtmlNode → HtmlNode × Bool} {pre l : List HtmlNode} (h : ∀ n ∈ pre, ¬ Named tag n) :
    childLoop tag 0 f 0 (pre ++ l) = (pre ++ (childLoop tag 0 f 0 l).1, (childLoop tag 0 f 0 l).2) := by
  induction pre with
  | nil => rfl
  | cons n pre ih =>
    have := ih fun n hn => h n (List.mem_cons_of_mem _ hn)
    have hn := h n List.mem_cons_self
    cases n with
    | text t => simp [childLoop, this]
    | comment t => simp [childLoop, this]
    | element name a ch =>
      have hne : name ≠ tag := hn
      simp [childLoop, this, hne]

theorem childLoop_none {tag : String} {f : HtmlNode → HtmlNode × Bool} {l : List HtmlNode} (h : ∀ n ∈ l, ¬ Named tag n) :
    (childLoop tag 0 f 0 l).2 = false := by
  have := childLoop_skip (f := f) (l := []) h
  rw [List.append_nil] at this
  rw [this]; rfl

theorem childLoop_id (tag : String) (index : Nat) (f : HtmlNode → HtmlNode × Bool) (h : ∀ n, (f n).1 = n) :
    ∀ current l, (childLoop tag index f current l).1 = l
  | _, [] => rfl
  | current, n :: l => by
      cases n with
      | text t => simp [childLoop, childLoop_id tag index f h]
      | comment t => simp [childLoop, childLoop_id tag index f h]
      | element name a ch =>
        simp only [childLoop]
        split
        · split <;> simp [h, childLoop_id tag index f h]
        · simp [childLoop_id tag index f h]

theorem modify_id : ∀ (path : List (String × Nat)) (n : HtmlNode), (modify path id n).1 = n
  | [], .element _ _ _ => rfl
  | [], .text _ => rfl
  | [], .comment _ => rfl
  | (tag, index) :: rest, .element name attr children => by
      simp only [modify]
      rw [childLoop_id _ _ _ (modify_id rest)]
  | _ :: _, .text _ => rfl
  | _ :: _, .comment _ => rfl

theorem foldl_first (name : String) (attr : OrderedMap) : ∀ (l children : List HtmlNode),
    l.foldl (fun b c => addFirstChild c b) (.element name attr children) = .element name attr (l.reverse ++ children)
  | [], _ => rfl
  | n :: l, children => by
      rw [List.foldl_cons]
      show l.foldl _ (HtmlNode.element name attr (n :: children)) = _
      rw [foldl_first name attr l]
      simp

theorem addEnv_other {name : String} : ∀ {env : List (String × String)} {attr : OrderedMap},
    (∀ e ∈ env, name ≠ "data-env-" ++ e.1) → (addEnv attr env).data name = attr.data name
  | [], _, _ => rfl
  | (k, v) :: env, attr, h => by
      rw [addEnv, addEnv_other fun e he => h e (List.mem_cons_of_mem _ he)]
      have := h _ List.mem_cons_self
      simp [OrderedMap.set, this]

theorem addEnv_mem : ∀ {env : List (String × String)} {attr : OrderedMap}, (env.map (·.1)).Nodup →
    ∀ e ∈ env, (addEnv attr env).data ("data-env-" ++ e.1) = some e.2
  | (k, v) :: env, attr, h, e, he => by
      simp only [List.map_cons, List.nodup_cons] at h
      rcases List.mem_cons.mp he with rfl | he
      · rw [addEnv, addEnv_other]
        · simp [OrderedMap.set]
        · intro e' he' heq
          have : k = e'.1 := by
            have := congrArg String.toList heq
            simp only [String.toList_append] at this
            exact String.toList_injective (List.append_cancel_left this)
          exact h.1 (by rw [this]; exact List.mem_map_of_mem he')
      · exact addEnv_mem h.2 e he

/-! ## Theorems -/

/-- **C32.** The page for a document with `html` and `body`: the styles come first in the body, in the order in
which they were inserted; then the content of the body; the script is last.  Everything else is
as it was, except that `html` has an attribute for each environment variable. -/
theorem C32_page (e : Escape) (mount : Mount) {env : List (String × String)} (henv : (env.map (·.1)).Nodup)
    (css : List (String × String)) (attr battr : OrderedMap) {before : List HtmlNode} (content after : List HtmlNode)
    (hbefore : ∀ n ∈ before, ¬ Named "body" n) :
    ∃ attr' : OrderedMap,
      (∀ v ∈ env, attr'.data ("data-env-" ++ v.1) = some v.2) ∧
      (∀ name, (∀ v ∈ env, name ≠ "data-env-" ++ v.1) → attr'.data name = attr.data name) ∧
      buildResponse e mount env (.element "html" attr (before ++ .element "body" battr content :: after)) css =
        { status := 200, contentType := .html, body := convertToString e true (.element "html" attr' (before ++
          .element "body" battr (css.map (fun r => .element "style" {} [.text (r.1 ++ " { " ++ r.2 ++ " }")]) ++
            content ++ [loader mount]) :: after)) } := by
  refine ⟨addEnv attr env, addEnv_mem henv, fun name h => addEnv_other h, ?_⟩
  simp only [buildResponse, ne_eq, not_true_eq_false, if_false, modify_id]
  simp only [modify, childLoop_skip hbefore]
  simp only [childLoop, if_true, modify, foldl_first, addLastChild, cssNodes, List.reverse_reverse, Response.html]

/-- **C32, the script.** It is a module and names the two files. -/
theorem C32_loader (mount : Mount) : ∃ attr : OrderedMap, loader mount = .element "script" attr [] ∧
    attr.getIter = some [("type", "module"), ("data-vertigo-run-wasm", mount.wasmPath), ("src", mount.runJs)] :=
  ⟨_, rfl, by simp [OrderedMap.getIter, OrderedMap.set, OrderedMap.getIterLoop]⟩

/-- **C32, errors.** Without `html` or without `body` directly inside it the answer is an error
with status 500. -/
theorem C32_errors (e : Escape) (mount : Mount) (env : List (String × String)) (root : HtmlNode) (css : List (String × String))
    (h : ¬ ∃ attr children, root = .element "html" attr children ∧ ∃ n ∈ children, Named "body" n) :
    (buildResponse e mount env root css).status = 500 ∧ (buildResponse e mount env root css).contentType = .plain := by
  cases root with
  | text t => exact ⟨rfl, rfl⟩
  | comment t => exact ⟨rfl, rfl⟩
  | element name attr children =>
    simp only [buildResponse, modify_id]
    by_cases hn : name = "html"
    · subst hn
      have : ∀ n ∈ children, ¬ Named "body" n := by
        intro n hn h'
        exact h ⟨attr, children, rfl, n, hn, h'⟩
      simp only [ne_eq, not_true_eq_false, if_false, modify, childLoop_none this, Bool.false_eq_true]
      exact ⟨rfl, rfl⟩
    · simp only [ne_eq, hn, not_false_eq_true, if_true]
      exact ⟨rfl, rfl⟩

/-- A page with two styles and an environment variable. -/
example :
    String.ofList (buildResponse htmlEscape ⟨"/b/run.js", "/b/app.wasm"⟩ [("port", "80\"")]
      (.element "html" {} [.element "head" {} [], .text " ", .element "body" {} [.text "<Hi>"]])
      [(".a", "color: red"), (".b", "top: 0")]).body =
"<!DOCTYPE html>
<html data-env-port=\"80&quot;\">
  <head>
  </head>
   
  <body>
    <style>.a { color: red }</style>
    <style>.b { top: 0 }</style>
    &lt;Hi&gt;
    <script type=\"module\" data-vertigo-run-wasm=\"/b/app.wasm\" src=\"/b/run.js\">
    </script>
  </body>
</html>" := by decide +kernel

end Verif.Ssr

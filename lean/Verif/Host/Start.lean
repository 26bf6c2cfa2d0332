import Verif.Ssr.Page
/-!
# C76: the program of a page is started once

Sources: `crates/vertigo/src/driver_module/src_js/{index,wasm_init,wasm_module}.ts`, `crates/vertigo-macro/src/main_wrap.rs`,
`crates/vertigo/src/lib.rs:370-395`, `crates/vertigo/src/driver_module/driver.rs:285-301`.

Simplifications: what is printed on the console is left out, except what the program logs. A start that throws is like one that does not.
That `start_app` puts the view into the page is C22 and C49; here it is a step of its own. The documents are those of C32; that the browser reads the
page as such a document is C57.
-/
namespace Verif.Host.Start
open Verif.Dom Verif.Ssr

/-! ## Model: the page -/

mutual
/-- index.ts:30-31: `querySelectorAll('*[data-vertigo-run-wasm]')` and the attribute of each element found, in document order. -/
def modules : HtmlNode → List String
  | .element _ attr children =>
      match attr.data "data-vertigo-run-wasm" with
      | some wasm => wasm :: modulesL children
      | none => modulesL children
  | .text _ => []
  | .comment _ => []
def modulesL : List HtmlNode → List String
  | [] => []
  | n :: l => modules n ++ modulesL l
end

/-- How the browser gets on with a program. `streaming` is `none` if `instantiateStreaming` is missing, otherwise it says whether it worked; `whole` says whether
`fetch`, `arrayBuffer` and `instantiate` work. -/
structure Outcome where
  streaming : Option Bool
  whole : Bool

/-- wasm_init.ts:17-35: whether there is an instance in the end. -/
def fetchModule (o : Outcome) : Bool :=
  match o.streaming with
  | some true => true
  | _ => o.whole

/-- `moduleRun`, the calls of `runModule` that wait at index.ts:23, and the calls of `vertigo_entry_function`: program, major, minor. -/
structure Page where
  moduleRun : List String := []
  waiting : List String := []
  calls : List (String × Nat × Nat) := []

/-- index.ts:4-5 -/
def versionMajor : Nat := 0
def versionMinor : Nat := 6

/-- index.ts:9-23 -/
def runModule (p : Page) (wasm : String) : Page :=
  if wasm ∈ p.moduleRun then p
  else if p.moduleRun.length > 0 then p
  else { p with moduleRun := p.moduleRun ++ [wasm], waiting := p.waiting ++ [wasm] }

/-- index.ts:29-39 -/
def findAndRunModule (p : Page) (document : HtmlNode) : Page := (modules document).foldl runModule p

/-- What happens in the page: the event `load` or the timer of 3 seconds, with the document at that time; and the browser is done with a program. -/
inductive Ev where
  | find (document : HtmlNode)
  | done (wasm : String) (o : Outcome)

/-- index.ts:23-26 for `done`. -/
def step (p : Page) : Ev → Page
  | .find document => findAndRunModule p document
  | .done wasm o =>
      if wasm ∈ p.waiting then
        { p with waiting := p.waiting.erase wasm, calls := p.calls ++ if fetchModule o then [(wasm, versionMajor, versionMinor)] else [] }
      else p

/-- A history of the page. -/
def run (evs : List Ev) : Page := evs.foldl step {}

/-! ## Model: the program -/

/-- What a program does. -/
inductive Did where
  | initEnv
  | initApp
  | fetchStart
  | setRoot
  | fetchStop
  | flush
  | error (message : String)
  | info (message : String)
  | plainResponse (body : String)
  deriving DecidableEq

/-- lib.rs:376-395; `init_env` does something only once (init_env.rs:10-20). -/
def startApp : List Did := [.initEnv, .initApp, .fetchStart, .setRoot, .fetchStop, .flush]

/-- driver.rs:285-301. `server` is the location in the history if there is a server, `plains` the handler that the application has given. -/
def tryGetPlain (server : Option String) (plains : Option (String → Option String)) : List Did :=
  match server with
  | some url =>
      match plains with
      | some callback =>
          match callback url with
          | some body => [.plainResponse body]
          | none => []
      | none => []
  | none => [.info "Browser mode, not invoking try_get_plain"]

/-- main_wrap.rs:20-31; `own` is the version of the crate. -/
def entry (own : Nat × Nat) (server : Option String) (plains : Option (String → Option String)) (version : Nat × Nat) : List Did :=
  startApp ++
  (if version.1 ≠ own.1 ∨ version.2 ≠ own.2 then
    [.error ("Vertigo version mismatch, server " ++ toString version.1 ++ "." ++ toString version.2 ++ " != client " ++ toString own.1 ++ "." ++ toString own.2)]
  else []) ++
  tryGetPlain server plains

/-! ## Specification -/

/-- The browser has an instance of the program. -/
def Works (o : Outcome) : Prop := o.streaming = some true ∨ o.whole = true

mutual
/-- No element in here names a program. -/
inductive Without : HtmlNode → Prop
  | element (name : String) (attr : OrderedMap) (children : List HtmlNode) (h : attr.data "data-vertigo-run-wasm" = none) (hc : WithoutL children) :
      Without (.element name attr children)
  | text (t : String) : Without (.text t)
  | comment (t : String) : Without (.comment t)
inductive WithoutL : List HtmlNode → Prop
  | nil : WithoutL []
  | cons (n : HtmlNode) (l : List HtmlNode) (h : Without n) (hl : WithoutL l) : WithoutL (n :: l)
end

/-- No program is named in the document of this event. -/
def Bare : Ev → Prop
  | .find document => Without document
  | .done _ _ => True

mutual
/-- The first program that is named in here: an element comes before its children, and these come in their order. -/
inductive First : HtmlNode → String → Prop
  | here (name : String) (attr : OrderedMap) (children : List HtmlNode) (wasm : String) (h : attr.data "data-vertigo-run-wasm" = some wasm) :
      First (.element name attr children) wasm
  | inside (name : String) (attr : OrderedMap) (children : List HtmlNode) (wasm : String) (h : attr.data "data-vertigo-run-wasm" = none) (hc : FirstL children wasm) :
      First (.element name attr children) wasm
inductive FirstL : List HtmlNode → String → Prop
  | head (n : HtmlNode) (l : List HtmlNode) (wasm : String) (h : First n wasm) : FirstL (n :: l) wasm
  | tail (n : HtmlNode) (l : List HtmlNode) (wasm : String) (h : Without n) (hl : FirstL l wasm) : FirstL (n :: l) wasm
end

/-! ## Proofs -/

theorem run_append (p : Page) (a b : List Ev) : (a ++ b).foldl step p = b.foldl step (a.foldl step p) := List.foldl_append

mutual
theorem modules_without : ∀ {n : HtmlNode}, Without n → modules n = []
  | _, .element _ _ _ h hc => by rw [modules, h]; exact modulesL_without hc
  | _, .text _ => rfl
  | _, .comment _ => rfl
theorem modulesL_without : ∀ {l : List HtmlNode}, WithoutL l → modulesL l = []
  | _, .nil => rfl
  | _, .cons _ _ h hl => by rw [modulesL, modules_without h, modulesL_without hl]; rfl
end

mutual
theorem modules_first : ∀ {n : HtmlNode} {w : String}, First n w → ∃ others, modules n = w :: others
  | _, _, .here _ _ children _ h => ⟨modulesL children, by rw [modules, h]⟩
  | _, _, .inside _ _ _ _ h hc => by
    obtain ⟨others, e⟩ := modulesL_first hc
    exact ⟨others, by rw [modules, h]; exact e⟩
theorem modulesL_first : ∀ {l : List HtmlNode} {w : String}, FirstL l w → ∃ others, modulesL l = w :: others
  | _, _, .head _ l _ h => by
    obtain ⟨others, e⟩ := modules_first h
    exact ⟨others ++ modulesL l, by rw [modulesL, e]; rfl⟩
  | _, _, .tail _ _ _ h hl => by
    obtain ⟨others, e⟩ := modulesL_first hl
    exact ⟨others, by rw [modulesL, modules_without h, e]; rfl⟩
end

theorem FirstL.skip {l : List HtmlNode} {w : String} (h : FirstL l w) : ∀ {a : List HtmlNode}, WithoutL a → FirstL (a ++ l) w
  | _, .nil => h
  | _, .cons n a hn ha => .tail n (a ++ l) w hn (h.skip ha)

theorem styles_without (css : List (String × String)) :
    WithoutL (css.map fun r => .element "style" {} [.text (r.1 ++ " { " ++ r.2 ++ " }")]) := by
  induction css with
  | nil => exact .nil
  | cons r css ih => exact .cons _ _ (.element _ _ _ rfl (.cons _ _ (.text _) .nil)) ih

theorem bare {pre : List Ev} (h : ∀ e ∈ pre, Bare e) : pre.foldl step {} = {} := by
  induction pre with
  | nil => rfl
  | cons e pre ih =>
    have he : step {} e = {} := by
      cases e with
      | find d =>
        have : modules d = [] := modules_without (h (.find d) (by simp))
        simp [step, findAndRunModule, this]
      | done w o => simp [step]
    rw [List.foldl_cons, he]
    exact ih fun e he => h e (by simp [he])

theorem runModule_busy {p : Page} {w : String} (h : p.moduleRun = [w]) (v : String) : runModule p v = p := by
  unfold runModule
  rw [h]
  by_cases hv : v ∈ [w] <;> simp [hv]

theorem find_busy {p : Page} {w : String} (h : p.moduleRun = [w]) (d : HtmlNode) : findAndRunModule p d = p := by
  unfold findAndRunModule
  induction modules d with
  | nil => rfl
  | cons v l ih => rw [List.foldl_cons, runModule_busy h, ih]

theorem first {d : HtmlNode} {w : String} {others : List String} (h : modules d = w :: others) : findAndRunModule {} d = ⟨[w], [w], []⟩ := by
  have e : runModule {} w = ⟨[w], [w], []⟩ := by simp [runModule]
  have : findAndRunModule {} d = others.foldl runModule ⟨[w], [w], []⟩ := by
    rw [findAndRunModule, h, List.foldl_cons, e]
  rw [this]
  clear this e h
  induction others with
  | nil => rfl
  | cons v l ih => rw [List.foldl_cons, runModule_busy rfl, ih]

theorem waits {w : String} {mid : List Ev} (h : ∀ o, Ev.done w o ∉ mid) : mid.foldl step ⟨[w], [w], []⟩ = ⟨[w], [w], []⟩ := by
  induction mid with
  | nil => rfl
  | cons e mid ih =>
    have he : step ⟨[w], [w], []⟩ e = ⟨[w], [w], []⟩ := by
      cases e with
      | find d => exact find_busy rfl d
      | done v o =>
        have : v ≠ w := by rintro rfl; exact h o (by simp)
        simp [step, this]
    rw [List.foldl_cons, he]
    exact ih fun o ho => h o (by simp [ho])

theorem over {w : String} {calls : List (String × Nat × Nat)} (evs : List Ev) : evs.foldl step ⟨[w], [], calls⟩ = ⟨[w], [], calls⟩ := by
  induction evs with
  | nil => rfl
  | cons e evs ih =>
    have he : step ⟨[w], [], calls⟩ e = ⟨[w], [], calls⟩ := by
      cases e with
      | find d => exact find_busy rfl d
      | done v o => simp [step]
    rw [List.foldl_cons, he, ih]

theorem works_iff (o : Outcome) : fetchModule o = true ↔ Works o := by
  rcases o with ⟨_ | _ | _, _ | _⟩ <;> simp [fetchModule, Works]

theorem modulesL_append (a b : List HtmlNode) : modulesL (a ++ b) = modulesL a ++ modulesL b := by
  induction a with
  | nil => rfl
  | cons n a ih => simp only [List.cons_append, modulesL, ih, List.append_assoc]

theorem modulesL_styles (css : List (String × String)) :
    modulesL (css.map fun r => .element "style" {} [.text (r.1 ++ " { " ++ r.2 ++ " }")]) = [] := by
  induction css with
  | nil => rfl
  | cons r css ih => rw [List.map_cons, modulesL, ih]; rfl

/-! ## Theorems -/

/-- **C76.** Whatever happens in the page and however often it is searched: nothing is started as long as no program is named in it. The program named first in the document, when there is one
for the first time, is started when the browser is done with it, if that worked, with the version of the loader; not before, and never again; no other program is started. -/
theorem C76_started (pre : List Ev) (hpre : ∀ e ∈ pre, Bare e) :
    (run pre).calls = [] ∧
    ∀ document wasm, First document wasm → ∀ mid : List Ev, (∀ o, Ev.done wasm o ∉ mid) →
      (run (pre ++ .find document :: mid)).calls = [] ∧
      ∀ o rest,
        (Works o → (run (pre ++ .find document :: mid ++ .done wasm o :: rest)).calls = [(wasm, 0, 6)]) ∧
        (¬ Works o → (run (pre ++ .find document :: mid ++ .done wasm o :: rest)).calls = []) := by
  refine ⟨by rw [run, bare hpre], fun d w hd mid hmid => ?_⟩
  obtain ⟨others, hd⟩ := modules_first hd
  have e : (pre ++ .find d :: mid).foldl step {} = ⟨[w], [w], []⟩ := by
    rw [run_append, bare hpre, List.foldl_cons]
    show mid.foldl step (findAndRunModule {} d) = _
    rw [first hd, waits hmid]
  refine ⟨by rw [run, e], fun o rest => ?_⟩
  have e2 : (pre ++ .find d :: mid ++ .done w o :: rest).foldl step {} = ⟨[w], [], if fetchModule o then [(w, 0, 6)] else []⟩ := by
    rw [run_append, e, List.foldl_cons]
    have : step ⟨[w], [w], []⟩ (.done w o) = ⟨[w], [], if fetchModule o then [(w, 0, 6)] else []⟩ := by
      simp [step, versionMajor, versionMinor]
    rw [this, over]
  constructor
  · intro h
    rw [run, e2]
    simp [(works_iff o).2 h]
  · intro h
    rw [run, e2]
    simp [show fetchModule o = false by simpa [← works_iff] using h]

/-- **C76, pages.** The only program that is named in a page of the server (C32) is the one at the mount point, if the view of the application names none. -/
theorem C76_page (mount : Mount) (env css : List (String × String)) (attr battr : OrderedMap) (before content after : List HtmlNode)
    (ha : attr.data "data-vertigo-run-wasm" = none) (hb : battr.data "data-vertigo-run-wasm" = none) (h1 : WithoutL before) (h2 : WithoutL content) (h3 : WithoutL after)
    (attr' : OrderedMap) (hattr : ∀ name, (∀ v ∈ env, name ≠ "data-env-" ++ v.1) → attr'.data name = attr.data name) :
    let page : HtmlNode := .element "html" attr' (before ++ .element "body" battr (css.map (fun r => .element "style" {} [.text (r.1 ++ " { " ++ r.2 ++ " }")]) ++
      content ++ [loader mount]) :: after)
    First page mount.wasmPath ∧ modules page = [mount.wasmPath] := by
  intro page
  have hn : attr'.data "data-vertigo-run-wasm" = none := by
    rw [hattr _ fun v _ e => ?_, ha]
    have := congrArg (fun s => s.toList.take 6) e
    simp [String.toList_append] at this
  have hl : modules (loader mount) = [mount.wasmPath] := by
    simp [loader, modules, modulesL, OrderedMap.set]
  have hf : First (loader mount) mount.wasmPath := .here _ _ _ _ (by simp [OrderedMap.set])
  refine ⟨.inside _ _ _ _ hn (FirstL.skip (.head _ _ _ (.inside _ _ _ _ hb ?_)) h1), ?_⟩
  · rw [List.append_assoc]
    exact ((FirstL.head _ _ _ hf).skip h2).skip (styles_without css)
  simp only [page, modules, hn, hb, modulesL_append, modulesL, modulesL_without h1, modulesL_without h2, modulesL_without h3, modulesL_styles, hl]
  rfl

/-- **C76, the program.** It makes its view once, first of all; it says that the versions differ exactly if they do; and it answers with plain text exactly if it is on a
server and the handler of the application has an answer for the location. -/
theorem C76_entry (own : Nat × Nat) (server : Option String) (plains : Option (String → Option String)) (version : Nat × Nat) :
    ((entry own server plains version).take 6 = [.initEnv, .initApp, .fetchStart, .setRoot, .fetchStop, .flush]) ∧
    (entry own server plains version).count .initApp = 1 ∧
    (∀ m, Did.error m ∈ entry own server plains version ↔ version ≠ own ∧ m = "Vertigo version mismatch, server " ++ toString version.1 ++ "." ++ toString version.2 ++
      " != client " ++ toString own.1 ++ "." ++ toString own.2) ∧
    (∀ body, Did.plainResponse body ∈ entry own server plains version ↔ ∃ url callback, server = some url ∧ plains = some callback ∧ callback url = some body) ∧
    (∀ body, (entry own server plains version).count (.plainResponse body) ≤ 1) := by
  have hv : (version.1 ≠ own.1 ∨ version.2 ≠ own.2) ↔ version ≠ own := by
    rcases version with ⟨a, b⟩
    rcases own with ⟨c, d⟩
    simp only [ne_eq, Prod.mk.injEq, Decidable.not_and_iff_or_not]
  have hp : (tryGetPlain server plains = [.info "Browser mode, not invoking try_get_plain"] ∧ server = none) ∨
      (tryGetPlain server plains = [] ∧ ∀ body, ¬ ∃ url callback, server = some url ∧ plains = some callback ∧ callback url = some body) ∨
      (∃ url callback body, tryGetPlain server plains = [.plainResponse body] ∧ server = some url ∧ plains = some callback ∧ callback url = some body) := by
    cases server with
    | none => exact .inl ⟨rfl, rfl⟩
    | some url =>
      cases plains with
      | none => exact .inr (.inl ⟨rfl, by simp⟩)
      | some f =>
        cases hf : f url with
        | none => exact .inr (.inl ⟨by simp [tryGetPlain, hf], by simp [hf]⟩)
        | some body => exact .inr (.inr ⟨url, f, body, by simp [tryGetPlain, hf], rfl, rfl, hf⟩)
  unfold entry
  simp only [hv]
  by_cases h : version = own
  all_goals
    rcases hp with ⟨hp, hs⟩ | ⟨hp, hs⟩ | ⟨url, f, body, hp, hs, hf, he⟩
    · subst hs
      simp [h, hp, startApp]
    · simp only [not_exists, not_and] at hs
      simp [h, hp, startApp]
      intros
      apply_assumption <;> assumption
    · subst hs hf
      simp [h, hp, startApp, he, List.count_cons]
      try grind

/-! ## Cases -/

/-- A page whose view names nothing, and one of an application that names another program. -/
example : modules (.element "html" {} [.element "body" {} [.element "script" ((OrderedMap.set {} "data-vertigo-run-wasm" "/build/app.wasm")) [],
    .element "div" ((OrderedMap.set {} "data-vertigo-run-wasm" "/other.wasm")) []]]) = ["/build/app.wasm", "/other.wasm"] := by
  decide +kernel

/-- The timer, then `load`, then the streaming fails and the whole program is read; the page is searched again. -/
example (children : List HtmlNode) :
    let d : HtmlNode := .element "html" {} [.element "head" {} [], .element "div" (OrderedMap.set {} "data-vertigo-run-wasm" "/build/app.wasm") children,
      .element "div" (OrderedMap.set {} "data-vertigo-run-wasm" "/other.wasm") []]
    (run [.find (.text ""), .find d, .find d, .done "/build/app.wasm" ⟨some false, true⟩, .find d, .done "/other.wasm" ⟨none, true⟩]).calls =
      [("/build/app.wasm", 0, 6)] := by
  intro d
  have h : First d "/build/app.wasm" :=
    .inside _ _ _ _ rfl (.tail _ _ _ (.element _ _ _ rfl .nil) (.head _ _ _ (.here _ _ _ _ (by simp [OrderedMap.set]))))
  exact (((C76_started [.find (.text "")] (by simp [Bare, Without.text])).2 d _ h [.find d] (by simp)).2 ⟨some false, true⟩
    [.find d, .done "/other.wasm" ⟨none, true⟩]).1 (.inr rfl)

example : entry (0, 6) (some "/robots.txt") (some fun url => if url = "/robots.txt" then some "ok" else none) (0, 5) =
    [.initEnv, .initApp, .fetchStart, .setRoot, .fetchStop, .flush, .error "Vertigo version mismatch, server 0.5 != client 0.6", .plainResponse "ok"] := by
  decide +kernel

end Verif.Host.Start

import Verif.View.Takeover
import Verif.Css.Manager
import Verif.Css.Transform
import Verif.Driver.ClassMerge
/-!
# C64: the document has the current classes and styles

The model of C49 leaves out what an element does with `class` and `css`. Here the two are added. In a view the attribute `class` is the
class of the element, and the attribute `css` stands for `css=` in `dom!` (`.css(..)`): its value is the key of a css value, given by
`style`. For these two the commands of C49 are not commands yet: they are the calls of `set_attribute`, `remove_attribute` and `set_css`
(dom_element_class.rs), and the functions below make the commands of them.
-/
namespace Verif.View
open Verif.Dom Verif.Css

/-! ## Model -/

/-- dom_element_class.rs:7-15. The css for suspense is left out (C24 has it). -/
structure ElementClass where
  attrName : Option String := none
  cssName : Option CssValue := none
  lastSent : Option String := none

/-- The state of all elements, and the css manager of the driver (css_manager.rs:14-19). -/
structure Styles where
  elements : Id → ElementClass := fun _ => {}
  manager : Manager := {}

/-- dom_element_class.rs:30-52. The css manager can be changed by the call; `none`: the css panics. -/
def ElementClass.newCommand (e : ElementClass) (m : Manager) : Option (Option String × Manager) :=
  let result : List String := []
  let result := match e.attrName with | some a => result ++ [a] | none => result
  match e.cssName with
  | none => some (if result.isEmpty then none else some (Driver.joinSpace result), m)
  | some css =>
      match m.getClassName css with
      | none => none
      | some (name, m) =>
          let result := result ++ [String.ofList name]
          some (if result.isEmpty then none else some (Driver.joinSpace result), m)

/-- A rule as a command (css_manager.rs:31-39 calls `insert_css` of the driver, driver_module/dom.rs:237-242). -/
def ruleCmd (r : Text × Text) : Cmd := .insertCss (String.ofList r.1) (String.ofList r.2)

/-- dom_element_class.rs:54-70, for an element whose class or css was changed to `e`, and the commands it sends: the rules which the css
manager has added, then the class. -/
def Styles.refresh (s : Styles) (id : Id) (e : ElementClass) : Option (Styles × List Cmd) :=
  match e.newCommand s.manager with
  | none => none
  | some (new, m) =>
      let rules := (m.sent.drop s.manager.sent.length).map ruleCmd
      if e.lastSent ≠ new then
        let value := match new with | some v => v | none => ""
        some (⟨fupd s.elements id { e with lastSent := new }, m⟩, rules ++ [.setAttr id "class" value])
      else some (⟨fupd s.elements id e, m⟩, rules)

/-- One call: dom_element_class.rs:87-106 and 136-160. (A css that is taken away cannot be written; the case is there to have all
commands.) An element gets its state when it is created (dom_element.rs:63-86). -/
def Styles.step (style : String → CssValue) (s : Styles) (c : Cmd) : Option (Styles × List Cmd) :=
  match c with
  | .createNode id _ => some (⟨fupd s.elements id {}, s.manager⟩, [c])
  | .setAttr id name value =>
      if name = "class" then s.refresh id { s.elements id with attrName := some value }
      else if name = "css" then s.refresh id { s.elements id with cssName := some (style value) }
      else some (s, [c])
  | .removeAttr id name =>
      if name = "class" then s.refresh id { s.elements id with attrName := none }
      else if name = "css" then s.refresh id { s.elements id with cssName := none }
      else some (s, [c])
  | _ => some (s, [c])

/-- All commands of an application. -/
def Styles.run (style : String → CssValue) : List Cmd → Styles → Option (Styles × List Cmd)
  | [], s => some (s, [])
  | c :: cs, s =>
      match s.step style c with
      | none => none
      | some (s, out) =>
          match Styles.run style cs s with
          | none => none
          | some (s, out') => some (s, out ++ out')

/-! ## Specification -/

/-- The class of an element: the one that is written, and the classes of its css. -/
def classText (cls : Request → Nat) (className : Option String) (css : Option CssValue) : String :=
  " ".intercalate (className.toList ++ css.toList.map fun v => String.ofList ([' '].intercalate (classParts cls v)))

/-- The attributes of an element on the page are those of the document, where class and css together are the class (no class and the empty
class are the same), for css texts that have rules. -/
structure Attrs (style : String → CssValue) (cls : Request → Nat) (uses : List Request) (attr page : String → Option String) : Prop where
  same : ∀ a, a ≠ "class" → a ≠ "css" → page a = attr a
  noCss : page "css" = none
  classes : (page "class").getD "" = classText cls (attr "class") ((attr "css").map style)
  used : ∀ key, attr "css" = some key → ∀ r ∈ requests (style key), r ∈ uses

/-- The nodes `xs` of the page, with everything below them, are the document `hs` with its styles (as `Shows`). -/
inductive Looks (style : String → CssValue) (cls : Request → Nat) (uses : List Request) (b : Browser) : List Id → List Html → Prop where
  | nil : Looks style cls uses b [] []
  | text {x xs s hs} : b.objects x = some (.text s) → Looks style cls uses b xs hs → Looks style cls uses b (x :: xs) (.text s :: hs)
  | comment {x xs s hs} : b.objects x = some (.comment s) → Looks style cls uses b xs hs → Looks style cls uses b (x :: xs) hs
  | element {x xs name attr page cs hs} : b.objects x = some (.element name page) → Attrs style cls uses attr page →
      Looks style cls uses b (b.children x) cs → Looks style cls uses b xs hs → Looks style cls uses b (x :: xs) (.element name attr cs :: hs)

/-- The rules on the page are those of the css texts in `uses`, each once, with the classes `cls`; no class and no name of an animation belongs to
two of them; and the texts are texts of `style`. -/
structure Sheet (style : String → CssValue) (cls : Request → Nat) (uses : List Request) (css : List (String × String)) : Prop where
  rules : css = uses.flatMap fun r => (rulesOfClass (cls r) r.2).map fun e => (String.ofList e.1, String.ofList e.2)
  once : uses.Nodup
  apart : ∀ r ∈ uses, ∀ r' ∈ uses, r ≠ r' → lastNumber (cls r) r.2 < cls r' ∨ lastNumber (cls r') r'.2 < cls r
  positive : ∀ r ∈ uses, 0 < cls r ∧ cls r ≤ lastNumber (cls r) r.2
  asked : ∀ r ∈ uses, ∃ key, r ∈ requests (style key)

/-- The css texts are in order (otherwise the program panics, C34). -/
def Styling (style : String → CssValue) : Prop := ∀ key, ∀ r ∈ requests (style key), ∀ n, (transformCss r.2 n).isSome = true

/-! ## Proofs -/

theorem classParts_congr {cls cls' : Request → Nat} : ∀ {css : CssValue}, (∀ r ∈ requests css, cls r = cls' r) → classParts cls css = classParts cls' css
  | [], _ => rfl
  | .static v :: gs, h => by
      simp only [classParts]
      rw [h (.static, v) (by simp [requests]), classParts_congr (css := gs) fun r hr => h r (by simp [requests, hr])]
  | .dynamic v :: gs, h => by
      simp only [classParts]
      rw [h (.dynamic, v) (by simp [requests]), classParts_congr (css := gs) fun r hr => h r (by simp [requests, hr])]
  | .media q rs :: gs, h => by
      simp only [classParts]
      rw [classParts_congr (css := gs) fun r hr => h r (by simp [requests, hr])]
      congr 3
      apply List.map_congr_left
      intro r hr
      rw [h (.dynamic, r) (by simp [requests, hr])]

theorem get_total {m : Manager} {k css} (h : ∀ n, (transformCss css n).isSome = true) : ∃ x, m.get k css = some x := by
  unfold Manager.get Manager.insertCss
  split
  · exact ⟨_, rfl⟩
  · have := h m.nextId
    revert this
    cases transformCss css m.nextId with
    | none => intro h; cases h
    | some x => intro _; exact ⟨_, rfl⟩

theorem getRules_total : ∀ {rules : List Text} {m : Manager}, (∀ r ∈ rules, ∀ n, (transformCss r n).isSome = true) →
    ∃ x, Manager.getRules rules m = some x
  | [], m, _ => ⟨_, rfl⟩
  | r :: rs, m, h => by
      obtain ⟨⟨n, m1⟩, h1⟩ := get_total (m := m) (k := .dynamic) (h r (by simp))
      obtain ⟨⟨l, m2⟩, h2⟩ := getRules_total (rules := rs) (m := m1) fun r hr => h r (by simp [hr])
      exact ⟨(n :: l, m2), by simp [Manager.getRules, h1, h2]⟩

theorem getGroups_total : ∀ {css : CssValue} {m : Manager}, (∀ r ∈ requests css, ∀ n, (transformCss r.2 n).isSome = true) →
    ∃ x, Manager.getGroups css m = some x
  | [], m, _ => ⟨_, rfl⟩
  | g :: gs, m, h => by
      have h1 : ∃ x, m.getGroup g = some x := by
        cases g with
        | static v =>
          obtain ⟨x, hx⟩ := get_total (m := m) (k := .static) (h (.static, v) (by simp [requests]))
          exact ⟨_, by simp only [Manager.getGroup, hx, Option.map_some]; rfl⟩
        | dynamic v =>
          obtain ⟨x, hx⟩ := get_total (m := m) (k := .dynamic) (h (.dynamic, v) (by simp [requests]))
          exact ⟨_, by simp only [Manager.getGroup, hx, Option.map_some]; rfl⟩
        | media q rs =>
          obtain ⟨x, hx⟩ := getRules_total (m := m) (rules := rs) fun r hr => h (.dynamic, r) (by simp [requests, hr])
          exact ⟨_, by simp only [Manager.getGroup, hx, Option.map_some]; rfl⟩
      obtain ⟨⟨l, m1⟩, h1⟩ := h1
      obtain ⟨⟨l', m2⟩, h2⟩ := getGroups_total (css := gs) (m := m1) fun r hr => h r (by cases g <;> simp [requests, hr])
      exact ⟨(l ++ l', m2), by simp [Manager.getGroups, h1, h2]⟩

theorem firsts_sub {α : Type} [DecidableEq α] {x : α} : ∀ {l seen : List α}, x ∈ firsts seen l → x ∈ l
  | [], _, h => by simp [firsts] at h
  | y :: l, seen, h => by
      rw [firsts] at h
      split at h
      · exact List.mem_cons_of_mem _ (firsts_sub h)
      · rcases List.mem_cons.mp h with rfl | h
        · simp
        · exact List.mem_cons_of_mem _ (firsts_sub h)

/-- What an element has sent last. -/
def merged (cls : Request → Nat) (className : Option String) (css : Option CssValue) : Option String :=
  if className = none ∧ css = none then none else some (classText cls className css)

theorem merged_getD (cls : Request → Nat) (a : Option String) (c : Option CssValue) : (merged cls a c).getD "" = classText cls a c := by
  unfold merged
  split
  · rename_i h; rw [h.1, h.2]; rfl
  · rfl

theorem newCommand_spec {e : ElementClass} {m : Manager} {tbl} (h : MInv m tbl)
    (hok : ∀ css, e.cssName = some css → ∀ r ∈ requests css, ∀ n, (transformCss r.2 n).isSome = true) :
    ∃ m' ext, e.newCommand m = some (merged (numberIn (tbl ++ ext)) e.attrName e.cssName, m') ∧ MInv m' (tbl ++ ext) ∧
      (∀ css, e.cssName = some css → ∀ r ∈ requests css, ∃ n, (r, n) ∈ tbl ++ ext) ∧
      (∀ x ∈ ext, ∃ css, e.cssName = some css ∧ x.1 ∈ requests css) := by
  unfold ElementClass.newCommand
  cases hc : e.cssName with
  | none =>
    refine ⟨m, [], ?_, by simpa using h, by simp, by simp⟩
    cases ha : e.attrName <;> simp [merged, classText, Driver.joinSpace]
  | some css =>
    obtain ⟨⟨out, m'⟩, h1⟩ := getGroups_total (m := m) (hok css hc)
    obtain ⟨ext, ha, hn⟩ := getGroups_asks css h h1
    have hn' := hn [] (by simpa using ha.inv.nodup)
    rw [List.append_nil] at hn'
    refine ⟨m', ext, ?_, ha.inv, ?_, ?_⟩
    · simp only [Manager.getClassName, h1]
      cases ha : e.attrName <;> simp [merged, classText, Driver.joinSpace, hn', String.intercalate] <;> rfl
    · rintro _ ⟨⟩ r hr; exact ha.found r hr
    · intro x hx
      refine ⟨css, rfl, ?_⟩
      have : x.1 ∈ firsts (tbl.map (·.1)) (requests css) := by rw [← ha.ext_eq]; exact List.mem_map_of_mem hx
      exact firsts_sub this

/-- How the attributes in the browser belong to those of the calls. -/
structure Look (style : String → CssValue) (tbl : List (Request × Nat)) (e : ElementClass) (attr page : String → Option String) : Prop where
  attrName : e.attrName = attr "class"
  cssName : e.cssName = (attr "css").map style
  others : ∀ a, a ≠ "class" → a ≠ "css" → page a = attr a
  noCss : page "css" = none
  asked : ∀ css, e.cssName = some css → ∀ r ∈ requests css, ∃ n, (r, n) ∈ tbl
  lastSent : e.lastSent = merged (numberIn tbl) e.attrName e.cssName
  cls : (page "class").getD "" = e.lastSent.getD ""

theorem classText_congr {cls cls' : Request → Nat} {a : Option String} {c : Option CssValue}
    (h : ∀ css, c = some css → ∀ r ∈ requests css, cls r = cls' r) : classText cls a c = classText cls' a c := by
  cases c with
  | none => rfl
  | some css => simp only [classText, Option.toList_some, List.map_cons, List.map_nil, classParts_congr (h css rfl)]

theorem merged_congr {cls cls' : Request → Nat} {a : Option String} {c : Option CssValue}
    (h : ∀ css, c = some css → ∀ r ∈ requests css, cls r = cls' r) : merged cls a c = merged cls' a c := by
  unfold merged
  rw [classText_congr h]

theorem Look.extend {style tbl e attr page ext} (h : Look style tbl e attr page) (hn : ((tbl ++ ext).map (·.1)).Nodup) :
    Look style (tbl ++ ext) e attr page := by
  refine ⟨h.attrName, h.cssName, h.others, h.noCss, ?_, ?_, h.cls⟩
  · intro css hc r hr
    obtain ⟨n, hn⟩ := h.asked css hc r hr
    exact ⟨n, List.mem_append_left _ hn⟩
  · rw [h.lastSent]
    apply merged_congr
    intro css hc r hr
    obtain ⟨n, hm⟩ := h.asked css hc r hr
    rw [numberIn_append hn hm]

/-- How the objects in the browser belong to those of the calls. -/
inductive Alike (style : String → CssValue) (tbl : List (Request × Nat)) (e : ElementClass) : Option Content → Option Content → Prop where
  | none : Alike style tbl e none none
  | text {v} : Alike style tbl e (some (.text v)) (some (.text v))
  | comment {v} : Alike style tbl e (some (.comment v)) (some (.comment v))
  | element {n attr page} : Look style tbl e attr page → Alike style tbl e (some (.element n attr)) (some (.element n page))

theorem Alike.extend {style tbl e c c' ext} (h : Alike style tbl e c c') (hn : ((tbl ++ ext).map (·.1)).Nodup) :
    Alike style (tbl ++ ext) e c c' := by
  cases h with
  | none => exact .none
  | text => exact .text
  | comment => exact .comment
  | element h => exact .element (h.extend hn)

def strings (r : Text × Text) : String × String := (String.ofList r.1, String.ofList r.2)

/-- The browser that executes the commands (`b'`), and the one that has executed the calls. -/
structure Sim (style : String → CssValue) (tbl : List (Request × Nat)) (b b' : Browser) (s : Styles) : Prop where
  same : b' = { b with objects := b'.objects, css := b'.css }
  objects : ∀ x, Alike style tbl (s.elements x) (b.objects x) (b'.objects x)
  minv : MInv s.manager tbl
  css : b'.css = s.manager.sent.map strings
  roots : ∀ x, isRoot x = true → s.elements x = {}
  used : ∀ e ∈ tbl, ∃ key, e.1 ∈ requests (style key)

theorem Sim.get {style tbl b b' s} (h : Sim style tbl b b' s) (x : Id) : Alike style tbl (s.elements x) (b.get x) (b'.get x) := by
  have : b'.inMap = b.inMap := by rw [h.same]
  unfold Browser.get
  rw [this]
  split
  · exact h.objects x
  · exact .none

theorem Alike.isSome {style tbl e c c'} (h : Alike style tbl e c c') : c'.isSome = c.isSome := by cases h <;> rfl

theorem detach_with (b : Browser) (o : Id → Option Content) (css : List (String × String)) (x : Id) :
    ({ b with objects := o, css := css } : Browser).detach x = { b.detach x with objects := o, css := css } := by
  unfold Browser.detach
  dsimp only
  split <;> rfl

theorem detach_objects (b : Browser) (x : Id) : (b.detach x).objects = b.objects ∧ (b.detach x).css = b.css := by
  unfold Browser.detach
  split <;> exact ⟨rfl, rfl⟩

/-- A rule after the other. -/
theorem run_rules (b : Browser) : ∀ l : List (Text × Text), b.run (l.map ruleCmd) = .ok { b with css := b.css ++ l.map strings }
  | [] => by simp [Browser.run]
  | r :: l => by
      simp only [List.map_cons, Browser.run, ruleCmd, Browser.step]
      rw [run_rules]
      simp [strings]

/-- What a call gives. -/
def Gives (style : String → CssValue) (tbl : List (Request × Nat)) (b1 b' : Browser) (s : Styles) (c : Cmd) : Prop :=
  ∃ s1 cs ext b1', s.step style c = some (s1, cs) ∧ b'.run cs = .ok b1' ∧ Sim style (tbl ++ ext) b1 b1' s1

theorem refresh_sim {style tbl b b' s} (h : Sim style tbl b b' s) (hstyle : Styling style) {id n attr} (hroot : isRoot id = false)
    (hg : b.get id = some (.element n attr)) {attr1 : String → Option String} {e1 : ElementClass}
    (ha : e1.attrName = attr1 "class") (hc : e1.cssName = (attr1 "css").map style) (hl : e1.lastSent = (s.elements id).lastSent)
    (ho : ∀ a, a ≠ "class" → a ≠ "css" → attr1 a = attr a) :
    ∃ s1 cs ext b1', s.refresh id e1 = some (s1, cs) ∧ b'.run cs = .ok b1' ∧
      Sim style (tbl ++ ext) { b with objects := fupd b.objects id (some (.element n attr1)) } b1' s1 := by
  have hg' := h.get id
  rw [hg] at hg'
  generalize hp : b'.get id = p at hg'
  cases hg' with
  | @element _ _ page look =>
  have hbo : b.objects id = some (.element n attr) := by
    unfold Browser.get at hg; split at hg
    · exact hg
    · cases hg
  have hbo' : b'.objects id = some (.element n page) := by
    unfold Browser.get at hp; split at hp
    · exact hp
    · cases hp
  obtain ⟨m', ext, h1, h2, h3, h4⟩ := newCommand_spec (e := e1) h.minv (by
    intro css hcss
    rw [hc] at hcss
    obtain ⟨k, -, rfl⟩ := Option.map_eq_some_iff.mp hcss
    exact hstyle k)
  have hsent : m'.sent = s.manager.sent ++ ext.flatMap fun e => rulesOfClass e.2 e.1.2 := by
    rw [h2.sent, h.minv.sent, List.flatMap_append]
  have hdrop : m'.sent.drop s.manager.sent.length = ext.flatMap fun e => rulesOfClass e.2 e.1.2 := by
    rw [hsent, List.drop_left]
  have hused : ∀ e ∈ tbl ++ ext, ∃ key, e.1 ∈ requests (style key) := by
    intro e he
    rcases List.mem_append.mp he with he | he
    · exact h.used e he
    · obtain ⟨css, hcss, hr⟩ := h4 e he
      rw [hc] at hcss
      obtain ⟨k, -, rfl⟩ := Option.map_eq_some_iff.mp hcss
      exact ⟨k, hr⟩
  have hcss : b'.css ++ (ext.flatMap fun e => rulesOfClass e.2 e.1.2).map strings = m'.sent.map strings := by
    rw [h.css, hsent, List.map_append]
  have hne : ∀ x, isRoot x = true → x ≠ id := by
    rintro x hx rfl
    rw [hroot] at hx; cases hx
  unfold Styles.refresh
  rw [h1]
  dsimp only
  rw [hdrop]
  split
  · rename_i hdiff
    refine ⟨_, _, ext, { b' with css := m'.sent.map strings, objects := fupd b'.objects id (some (.element n fun x =>
      if x = "class" then some ((merged (numberIn (tbl ++ ext)) e1.attrName e1.cssName).getD "") else page x)) }, rfl, ?_, ?_⟩
    · rw [Verif.Dom.run_append, run_rules, hcss]
      dsimp only
      simp only [Browser.run, Browser.step]
      have : ({ b' with css := m'.sent.map strings } : Browser).get id = b'.get id := rfl
      rw [this, hp]
      cases merged (numberIn (tbl ++ ext)) e1.attrName e1.cssName <;> rfl
    · refine ⟨?_, ?_, h2, ?_, ?_, hused⟩
      · rw [h.same]
      · intro x
        dsimp only
        by_cases hx : x = id
        · subst hx
          simp only [fupd, if_true]
          refine .element ⟨ha, hc, ?_, ?_, h3, rfl, ?_⟩
          · intro a h1 h2
            rw [if_neg h1, look.others a h1 h2, ho a h1 h2]
          · rw [if_neg (by decide), look.noCss]
          · rw [if_pos rfl]
            rfl
        · simp only [fupd, hx, if_false]
          exact (h.objects x).extend h2.nodup
      · rfl
      · intro x hx
        simp only [fupd, hne x hx, if_false]
        exact h.roots x hx
  · rename_i hsame
    rw [Decidable.not_not] at hsame
    refine ⟨_, _, ext, _, rfl, run_rules _ _, ?_⟩
    refine ⟨?_, ?_, h2, ?_, ?_, hused⟩
    · rw [h.same]
    · intro x
      dsimp only
      by_cases hx : x = id
      · subst hx
        simp only [fupd, if_true]
        rw [hbo']
        refine .element ⟨ha, hc, ?_, look.noCss, h3, hsame, ?_⟩
        · intro a h1 h2
          rw [look.others a h1 h2, ho a h1 h2]
        · rw [look.cls, hl]
      · simp only [fupd, hx, if_false]
        exact (h.objects x).extend h2.nodup
    · exact hcss
    · intro x hx
      simp only [fupd, hne x hx, if_false]
      exact h.roots x hx

theorem sim_pass {style tbl b b' s b1 c} {o' : Id → Option Content} (h : Sim style tbl b b' s)
    (hstep : s.step style c = some (s, [c]))
    (h1 : b'.step c = .ok { b1 with objects := o', css := b'.css })
    (ho : ∀ x, Alike style tbl (s.elements x) (b1.objects x) (o' x)) : Gives style tbl b1 b' s c := by
  refine ⟨s, [c], [], { b1 with objects := o', css := b'.css }, hstep, ?_, ?_⟩
  · simp only [Browser.run, h1]
  · rw [List.append_nil]
    exact ⟨rfl, ho, h.minv, h.css, h.roots, h.used⟩

theorem sim_remove {style tbl b b' s b1 x} (h : Sim style tbl b b' s) (hb : b.remove x = .ok b1) :
    b'.remove x = .ok { b1 with objects := b'.objects, css := b'.css } ∧ b1.objects = b.objects := by
  have hg := (h.get x).isSome
  unfold Browser.remove at hb ⊢
  cases hgx : b.get x with
  | none => rw [hgx] at hb; cases hb
  | some _ =>
    rw [hgx] at hb hg
    cases hgx' : b'.get x with
    | none => rw [hgx'] at hg; cases hg
    | some _ =>
      cases hb
      dsimp only
      refine ⟨?_, (detach_objects _ _).1⟩
      have e := h.same
      generalize b'.objects = o at e ⊢
      generalize b'.css = cs at e ⊢
      rw [e]
      exact congrArg _ (detach_with { b with inMap := fupd b.inMap x false } o cs x)

theorem sim_insert {style tbl b b' s b1 p x ref} (h : Sim style tbl b b' s) (hb : b.insertBefore p x ref = .ok b1) :
    b'.insertBefore p x ref = .ok { b1 with objects := b'.objects, css := b'.css } ∧ b1.objects = b.objects := by
  have hg := h.objects p
  unfold Browser.insertBefore at hb ⊢
  have e := h.same
  generalize hpo : b.objects p = po at hg hb
  generalize hpo' : b'.objects p = po' at hg
  cases hg with
  | none => cases hb
  | text => cases hb
  | comment => cases hb
  | element look =>
    dsimp only at hb ⊢
    have e1 : b'.parent = b.parent := by rw [e]
    have e2 : b'.objs = b.objs := by rw [e]
    rw [e1, e2]
    clear hpo'
    generalize b'.objects = o at e ⊢
    generalize b'.css = cs at e ⊢
    clear e1 e2
    subst e
    split at hb
    · cases hb
    · rename_i hch
      rw [if_neg hch]
      rw [detach_with]
      split at hb
      · cases hb
        exact ⟨rfl, (detach_objects _ _).1⟩
      · split at hb
        · cases hb
        · rename_i hr
          rw [if_neg hr]
          split at hb
          · rename_i hr'
            rw [if_pos hr']
            cases hb
            exact ⟨rfl, rfl⟩
          · rename_i hr'
            rw [if_neg hr']
            cases hb
            exact ⟨rfl, (detach_objects _ _).1⟩

theorem sim_create {style tbl b b' s b1 x c} (h : Sim style tbl b b' s) (hb : b.create x c = .ok b1)
    (e : ElementClass) (hr : isRoot x = true → e = {}) (hc : Alike style tbl e (some c) (some c)) :
    ∃ b1', b'.create x c = .ok b1' ∧ Sim style tbl b1 b1' ⟨fupd s.elements x e, s.manager⟩ := by
  unfold Browser.create at hb ⊢
  split at hb
  · rename_i hx
    rw [if_pos hx]
    cases hb
    have : fupd s.elements x e = s.elements := by
      funext y
      unfold fupd
      split
      · rename_i hy; rw [hy, hr hx, h.roots x hx]
      · rfl
    rw [this]
    exact ⟨_, rfl, h⟩
  · rename_i hx
    rw [if_neg hx]
    split at hb
    · cases hb
    · rename_i hs
      rw [if_neg (by rw [(h.objects x).isSome]; exact hs)]
      cases hb
      refine ⟨_, rfl, ?_, ?_, h.minv, h.css, ?_, h.used⟩
      · have := h.same
        generalize b'.objects = o at this ⊢
        generalize b'.css = cs at this ⊢
        rw [this]
      · intro y
        dsimp only
        by_cases hy : y = x
        · simp only [fupd, hy, if_true]; exact hc
        · simp only [fupd, hy, if_false]; exact h.objects y
      · intro y hy
        by_cases hyx : y = x
        · subst hyx; exact absurd hy hx
        · simp only [fupd, hyx, if_false]; exact h.roots y hy

theorem fupd_self {α : Type} (f : Id → α) (x : Id) : fupd f x (f x) = f := by
  funext y
  unfold fupd
  split
  · rename_i h; rw [h]
  · rfl

theorem get_objects {b : Browser} {x c} (h : b.get x = some c) : b.objects x = some c := by
  unfold Browser.get at h
  split at h
  · exact h
  · cases h

/-- An attribute that is neither class nor css. -/
theorem sim_attr {style tbl b b' s id n attr} (h : Sim style tbl b b' s) (hg : b.get id = some (.element n attr)) {name : String}
    (h1 : name ≠ "class") (h2 : name ≠ "css") (v : Option String) :
    ∃ page, b'.get id = some (.element n page) ∧
      ∀ x, Alike style tbl (s.elements x) (fupd b.objects id (some (.element n fun a => if a = name then v else attr a)) x)
        (fupd b'.objects id (some (.element n fun a => if a = name then v else page a)) x) := by
  have hg' := h.get id
  rw [hg] at hg'
  generalize hp : b'.get id = p at hg'
  cases hg' with
  | @element _ _ page look =>
  refine ⟨page, rfl, fun x => ?_⟩
  by_cases hx : x = id
  · subst hx
    simp only [fupd, if_true]
    refine .element ⟨?_, ?_, ?_, ?_, look.asked, look.lastSent, ?_⟩
    · rw [if_neg (Ne.symm h1)]; exact look.attrName
    · rw [if_neg (Ne.symm h2)]; exact look.cssName
    · intro a ha hb
      split
      · rfl
      · exact look.others a ha hb
    · rw [if_neg (Ne.symm h2)]; exact look.noCss
    · rw [if_neg (Ne.symm h1)]; exact look.cls
  · simp only [fupd, hx, if_false]
    exact h.objects x

theorem Sim.with {style tbl b b' s} (h : Sim style tbl b b' s) (o : Id → Option Content) :
    ({ b' with objects := o } : Browser) = { b with objects := o, css := b'.css } := by
  have e := h.same
  generalize b'.css = cs at e ⊢
  generalize b'.objects = o' at e
  rw [e]

theorem sim_step {style tbl b b' s c b1} (h : Sim style tbl b b' s) (hstyle : Styling style)
    (hc : Calm c ∨ (∃ id name, c = .createNode id name) ∨ ∃ p x r, c = .insertBefore p x r) (hb : b.step c = .ok b1) : Gives style tbl b1 b' s c := by
  have hpass : ∀ {c b1}, s.step style c = some (s, [c]) → b'.step c = .ok { b1 with objects := b'.objects, css := b'.css } ∧ b1.objects = b.objects →
      Gives style tbl b1 b' s c := fun h1 h2 => sim_pass h h1 h2.1 fun x => by rw [h2.2]; exact h.objects x
  cases c with
  | createNode id name =>
    obtain ⟨b1', h1, h2⟩ := sim_create h hb {} (fun _ => rfl) (.element ⟨rfl, rfl, fun _ _ _ => rfl, rfl, by simp, rfl, rfl⟩)
    refine ⟨_, _, [], b1', rfl, ?_, by rw [List.append_nil]; exact h2⟩
    simp only [Browser.run, Browser.step, h1]
  | createText id v =>
    obtain ⟨b1', h1, h2⟩ := sim_create h hb (s.elements id) (h.roots id) .text
    rw [fupd_self] at h2
    refine ⟨_, _, [], b1', rfl, ?_, by rw [List.append_nil]; exact h2⟩
    simp only [Browser.run, Browser.step, h1]
  | createComment id v =>
    obtain ⟨b1', h1, h2⟩ := sim_create h hb (s.elements id) (h.roots id) .comment
    rw [fupd_self] at h2
    refine ⟨_, _, [], b1', rfl, ?_, by rw [List.append_nil]; exact h2⟩
    simp only [Browser.run, Browser.step, h1]
  | updateText id v =>
    simp only [Browser.step] at hb
    split at hb
    · rename_i w hg
      cases hb
      have hg' := h.get id
      rw [hg] at hg'
      generalize hp : b'.get id = p at hg'
      cases hg' with
      | text =>
      refine sim_pass (o' := fupd b'.objects id (some (.text v))) h rfl ?_ fun x => ?_
      · simp only [Browser.step, hp]
        exact congrArg _ (h.with _)
      · dsimp only
        by_cases hx : x = id
        · simp only [fupd, hx, if_true]; exact .text
        · simp only [fupd, hx, if_false]; exact h.objects x
    · cases hb
  | setAttr id name v =>
    have hroot : isRoot id = false := by
      rcases hc with (h | ⟨_, h, -⟩ | h) | ⟨_, _, h⟩ | ⟨_, _, _, h⟩
      · exact h
      all_goals cases h
    simp only [Browser.step] at hb
    split at hb
    · rename_i n attr hg
      cases hb
      by_cases h1 : name = "class"
      · subst h1
        have hl := (h.get id)
        rw [hg] at hl
        generalize hp : b'.get id = p at hl
        cases hl with
        | element look =>
        have := refresh_sim h hstyle hroot hg (attr1 := fun x => if x = "class" then some v else attr x)
          (e1 := { s.elements id with attrName := some v }) rfl (by rw [if_neg (by decide)]; exact look.cssName) rfl
          (fun a ha _ => by rw [if_neg ha])
        simpa only [Gives, Styles.step, if_true] using this
      · by_cases h2 : name = "css"
        · subst h2
          have hl := (h.get id)
          rw [hg] at hl
          generalize hp : b'.get id = p at hl
          cases hl with
          | element look =>
          have := refresh_sim h hstyle hroot hg (attr1 := fun x => if x = "css" then some v else attr x)
            (e1 := { s.elements id with cssName := some (style v) }) (by rw [if_neg (by decide)]; exact look.attrName) rfl rfl
            (fun a _ ha => by rw [if_neg ha])
          simpa only [Gives, Styles.step, h1, if_false, if_true] using this
        · obtain ⟨page, hp, ha⟩ := sim_attr h hg h1 h2 (some v)
          refine sim_pass (o' := fupd b'.objects id (some (.element n fun a => if a = name then some v else page a))) h ?_ ?_ ha
          · simp only [Styles.step, h1, h2, if_false]
          · simp only [Browser.step, hp]
            exact congrArg _ (h.with _)
    · cases hb
  | removeAttr id name =>
    have hroot : isRoot id = false := by
      rcases hc with (h | ⟨_, h, -⟩ | h) | ⟨_, _, h⟩ | ⟨_, _, _, h⟩
      · exact h
      all_goals cases h
    simp only [Browser.step] at hb
    split at hb
    · rename_i n attr hg
      cases hb
      by_cases h1 : name = "class"
      · subst h1
        have hl := (h.get id)
        rw [hg] at hl
        generalize hp : b'.get id = p at hl
        cases hl with
        | element look =>
        have := refresh_sim h hstyle hroot hg (attr1 := fun x => if x = "class" then none else attr x)
          (e1 := { s.elements id with attrName := none }) rfl (by rw [if_neg (by decide)]; exact look.cssName) rfl
          (fun a ha _ => by rw [if_neg ha])
        simpa only [Gives, Styles.step, if_true] using this
      · by_cases h2 : name = "css"
        · subst h2
          have hl := (h.get id)
          rw [hg] at hl
          generalize hp : b'.get id = p at hl
          cases hl with
          | element look =>
          have := refresh_sim h hstyle hroot hg (attr1 := fun x => if x = "css" then none else attr x)
            (e1 := { s.elements id with cssName := none }) (by rw [if_neg (by decide)]; exact look.attrName) rfl rfl
            (fun a _ ha => by rw [if_neg ha])
          simpa only [Gives, Styles.step, h1, if_false, if_true] using this
        · obtain ⟨page, hp, ha⟩ := sim_attr h hg h1 h2 none
          refine sim_pass (o' := fupd b'.objects id (some (.element n fun a => if a = name then none else page a))) h ?_ ?_ ha
          · simp only [Styles.step, h1, h2, if_false]
          · simp only [Browser.step, hp]
            exact congrArg _ (h.with _)
    · cases hb
  | removeNode id => exact hpass rfl (sim_remove h hb)
  | removeText id => exact hpass rfl (sim_remove h hb)
  | removeComment id => exact hpass rfl (sim_remove h hb)
  | insertBefore p x ref =>
    simp only [Browser.step] at hb
    have hp := (h.get p).isSome
    have hx := (h.get x).isSome
    split at hb
    · rename_i cp cx e1 e2
      rw [e1] at hp
      rw [e2] at hx
      obtain ⟨_, e1'⟩ := Option.isSome_iff_exists.mp hp
      obtain ⟨_, e2'⟩ := Option.isSome_iff_exists.mp hx
      refine hpass rfl ?_
      simp only [Browser.step, e1', e2']
      split at hb
      · exact sim_insert h hb
      · rename_i r
        have hr := (h.get r).isSome
        split at hb
        · cases hb
        · rename_i hn
          rw [if_neg (by cases hh : b.get r <;> cases hh' : b'.get r <;> simp_all)]
          exact sim_insert h hb
    · cases hb
  | insertCss _ _ => rcases hc with (h | ⟨_, h, -⟩ | h) | ⟨_, _, h⟩ | ⟨_, _, _, h⟩ <;> cases h
  | callbackAdd _ _ _ => rcases hc with (h | ⟨_, h, -⟩ | h) | ⟨_, _, h⟩ | ⟨_, _, _, h⟩ <;> cases h
  | callbackRemove _ _ _ => rcases hc with (h | ⟨_, h, -⟩ | h) | ⟨_, _, h⟩ | ⟨_, _, _, h⟩ <;> cases h

theorem sim_run {style} (hstyle : Styling style) : ∀ {cs : List Cmd} {tbl b b' s b1}, Sim style tbl b b' s →
    (∀ c ∈ cs, Calm c ∨ (∃ id name, c = .createNode id name) ∨ ∃ p x r, c = .insertBefore p x r) → b.run cs = .ok b1 →
    ∃ s1 out tbl1 b1', Styles.run style cs s = some (s1, out) ∧ b'.run out = .ok b1' ∧ Sim style tbl1 b1 b1' s1
  | [], tbl, b, b', s, b1, h, _, hb => by cases hb; exact ⟨s, [], tbl, b', rfl, rfl, h⟩
  | c :: cs, tbl, b, b', s, b1, h, hc, hb => by
      rw [Browser.run] at hb
      split at hb
      · cases hb
      · rename_i b2 h2
        obtain ⟨s1, out, ext, b1', h3, h4, h5⟩ := sim_step h hstyle (hc c (by simp)) h2
        obtain ⟨s2, out', tbl2, b2', h6, h7, h8⟩ := sim_run hstyle h5 (fun c hm => hc c (by simp [hm])) hb
        refine ⟨s2, out ++ out', tbl2, b2', ?_, ?_, h8⟩
        · simp only [Styles.run, h3, h6]
        · rw [Verif.Dom.run_append, h4]; exact h7

theorem sim_init (style : String → CssValue) : Sim style [] Browser.init Browser.init {} where
  same := rfl
  objects x := by
    simp only [Browser.init]
    split
    · exact .element ⟨rfl, rfl, fun _ _ _ => rfl, rfl, by simp, rfl, rfl⟩
    · split
      · exact .element ⟨rfl, rfl, fun _ _ _ => rfl, rfl, by simp, rfl, rfl⟩
      · split
        · exact .element ⟨rfl, rfl, fun _ _ _ => rfl, rfl, by simp, rfl, rfl⟩
        · exact .none
  minv := minv_init
  css := rfl
  roots _ _ := rfl
  used := by simp

theorem Look.attrs {style tbl e attr page} (h : Look style tbl e attr page) :
    Attrs style (numberIn tbl) (tbl.map (·.1)) attr page := by
  refine ⟨h.others, h.noCss, ?_, ?_⟩
  · rw [h.cls, h.lastSent, merged_getD, h.attrName, h.cssName]
  · intro key hk r hr
    obtain ⟨n, hn⟩ := h.asked (style key) (by rw [h.cssName, hk]; rfl) r hr
    exact List.mem_map.mpr ⟨_, hn, rfl⟩

theorem Sim.looks {style tbl b b' s} (h : Sim style tbl b b' s) {xs hs} (hsh : Shows b xs hs) :
    Looks style (numberIn tbl) (tbl.map (·.1)) b' xs hs := by
  have hch : b'.children = b.children := by rw [h.same]
  induction hsh with
  | nil => exact .nil
  | text e _ ih =>
    rename_i x _ _ _ _
    have := h.objects x
    rw [e] at this
    generalize hp : b'.objects x = p at this
    cases this
    exact .text hp ih
  | comment e _ ih =>
    rename_i x _ _ _ _
    have := h.objects x
    rw [e] at this
    generalize hp : b'.objects x = p at this
    cases this
    exact .comment hp ih
  | element e _ _ ih1 ih2 =>
    rename_i x _ _ _ _ _ _ _
    have := h.objects x
    rw [e] at this
    generalize hp : b'.objects x = p at this
    cases this with
    | element look => exact .element hp look.attrs (by rw [hch]; exact ih1) ih2

theorem Sim.sheet {style tbl b b' s} (h : Sim style tbl b b' s) : Sheet style (numberIn tbl) (tbl.map (·.1)) b'.css := by
  have hn := h.minv.nodup
  have hnum : ∀ e ∈ tbl, numberIn tbl e.1 = e.2 := fun e he => by
    simp [numberIn, lookup_of_mem hn he]
  refine ⟨?_, hn, ?_, ?_, ?_⟩
  · rw [h.css, h.minv.sent, List.map_flatMap, List.flatMap_map]
    apply List.flatMap_congr
    intro e he
    rw [hnum e he]
    rfl
  · intro r hr r' hr' hne
    obtain ⟨⟨r, n1⟩, h1, rfl⟩ := List.mem_map.mp hr
    obtain ⟨⟨r', n2⟩, h2, rfl⟩ := List.mem_map.mp hr'
    rw [hnum _ h1, hnum _ h2]
    dsimp only at hne ⊢
    have hp := h.minv.ordered
    rcases List.append_of_mem h1 with ⟨x, y, hxy⟩
    have h2' := h2
    rw [hxy] at h2'
    rcases List.mem_append.mp h2' with h2' | h2'
    · right
      rw [hxy, List.pairwise_append] at hp
      exact hp.2.2 _ h2' (r, n1) (by simp)
    · rcases List.mem_cons.mp h2' with h2' | h2'
      · have := congrArg Prod.fst h2'; exact absurd this.symm hne
      · left
        rw [hxy, List.pairwise_append, List.pairwise_cons] at hp
        exact hp.2.1.1 _ h2'
  · intro r hr
    obtain ⟨e, he, rfl⟩ := List.mem_map.mp hr
    rw [hnum _ he]
    have := h.minv.ranges _ he
    exact ⟨this.1, this.2.1⟩
  · intro r hr
    obtain ⟨e, he, rfl⟩ := List.mem_map.mp hr
    exact h.used e he

/-- Rules and classes. -/
def Plainly (d : Cmd) : Prop := (∃ a b, d = .insertCss a b) ∨ ∃ id v, d = .setAttr id "class" v

theorem refresh_plainly {s : Styles} {id e s1 cs} (h : s.refresh id e = some (s1, cs)) : ∀ d ∈ cs, Plainly d := by
  have hr : ∀ (l : List (Text × Text)), ∀ d ∈ l.map ruleCmd, Plainly d := by
    intro l d hd
    obtain ⟨r, -, rfl⟩ := List.mem_map.mp hd
    exact Or.inl ⟨_, _, rfl⟩
  unfold Styles.refresh at h
  split at h
  · cases h
  · dsimp only at h
    split at h
    · cases h
      intro d hd
      rcases List.mem_append.mp hd with hd | hd
      · exact hr _ d hd
      · rw [List.mem_singleton.mp hd]; exact Or.inr ⟨_, _, rfl⟩
    · cases h; exact hr _

theorem step_out {style} {s : Styles} {c s1 cs} (h : s.step style c = some (s1, cs)) : cs = [c] ∨ ∀ d ∈ cs, Plainly d := by
  unfold Styles.step at h
  split at h
  · cases h; exact Or.inl rfl
  · split at h
    · exact Or.inr (refresh_plainly h)
    · split at h
      · exact Or.inr (refresh_plainly h)
      · cases h; exact Or.inl rfl
  · split at h
    · exact Or.inr (refresh_plainly h)
    · split at h
      · exact Or.inr (refresh_plainly h)
      · cases h; exact Or.inl rfl
  · cases h; exact Or.inl rfl

theorem run_out {style} : ∀ {cs : List Cmd} {s s1 out}, Styles.run style cs s = some (s1, out) → ∀ d ∈ out, d ∈ cs ∨ Plainly d
  | [], s, s1, out, h, d, hd => by cases h; cases hd
  | c :: cs, s, s1, out, h, d, hd => by
      rw [Styles.run] at h
      split at h
      · cases h
      · rename_i s2 o1 h1
        split at h
        · cases h
        · rename_i s3 o2 h2
          cases h
          rcases List.mem_append.mp hd with hd | hd
          · rcases step_out h1 with rfl | h3
            · rw [List.mem_singleton.mp hd]; exact Or.inl (by simp)
            · exact Or.inr (h3 d hd)
          · rcases run_out h2 d hd with h3 | h3
            · exact Or.inl (by simp [h3])
            · exact Or.inr h3

theorem inserts_plainly : ∀ {cs : List Cmd} {b : Browser}, (∀ d ∈ cs, Plainly d) → Inserts b cs
  | [], _, _ => trivial
  | c :: cs, b, h => by
      refine ⟨fun p x ref e => ?_, fun b1 _ => inserts_plainly fun d hd => h d (by simp [hd])⟩
      rcases h c (by simp) with ⟨_, _, h⟩ | ⟨_, _, h⟩ <;> rw [h] at e <;> cases e

/-- Inserting stays in order. -/
theorem sim_inserts {style} (hstyle : Styling style) : ∀ {cs : List Cmd} {tbl b b' s b1 s1 out}, Sim style tbl b b' s →
    (∀ c ∈ cs, Calm c ∨ (∃ id name, c = .createNode id name) ∨ ∃ p x r, c = .insertBefore p x r) → b.run cs = .ok b1 → Inserts b cs →
    Styles.run style cs s = some (s1, out) → Inserts b' out
  | [], tbl, b, b', s, b1, s1, out, h, _, hb, _, hr => by cases hr; trivial
  | c :: cs, tbl, b, b', s, b1, s1, out, h, hc, hb, hi, hr => by
      rw [Browser.run] at hb
      split at hb
      · cases hb
      · rename_i b2 h2
        obtain ⟨s2, o1, ext, b1', h3, h4, h5⟩ := sim_step h hstyle (hc c (by simp)) h2
        rw [Styles.run, h3] at hr
        dsimp only at hr
        split at hr
        · cases hr
        · rename_i s3 o2 h6
          cases hr
          refine inserts_append.mpr ⟨?_, fun b3 hb3 => ?_⟩
          · rcases step_out h3 with rfl | h7
            · refine ⟨fun p x ref e => ?_, fun _ _ => trivial⟩
              obtain ⟨h8, h9⟩ := hi.1 p x ref e
              have e1 : b'.parent = b.parent := by rw [h.same]
              have e2 : b'.inMap = b.inMap := by rw [h.same]
              refine ⟨fun y q hy => ?_, ?_⟩
              · rw [e1] at hy; rw [e2]; exact h8 y q hy
              · rw [e2]; exact h9
            · exact inserts_plainly h7
          · rw [h4] at hb3
            cases hb3
            exact sim_inserts hstyle h5 (fun c hm => hc c (by simp [hm])) hb (hi.2 _ h2) h6

/-- Css that is written from declarations, animations, pseudo selectors and media queries (C34) is in order. -/
theorem styling_items {style : String → CssValue} (h : ∀ key, ∀ r ∈ requests (style key), ∃ items : List Item,
    (∀ i ∈ items, i.Ok ∧ Shallow i.text) ∧ r.2 = [';'].intercalate (items.map Item.text)) : Styling style := by
  intro key r hr n
  obtain ⟨items, h1, h2⟩ := h key r hr
  have := C34_rules_partial items h1 [] r.2 (by simp) (Or.inl h2) n
  dsimp only at this
  rw [this]
  rfl

section
variable {S V : Type} [DecidableEq V]

/-- What is known about the commands of an application with styles. -/
structure Styled (style : String → CssValue) (ds : List Html) (calls out : List Cmd) (b : Browser) (cls : Request → Nat)
    (uses : List Request) : Prop where
  run : Browser.init.run out = .ok b
  removes : ∀ c ∈ out, ∀ id, c.removes = some id → isRoot id = false
  inserts : Inserts Browser.init out
  made : ∀ c ∈ out, c ∈ calls ∨ Plainly c
  html : b.children 1 = [2, 3]
  head : b.children 2 = []
  free : ∀ y, y ≠ 1 → ∀ x ∈ b.children y, isRoot x = false
  looks : Looks style cls uses b (b.children 3) ds
  sheet : Sheet style cls uses b.css

omit [DecidableEq V] in
theorem styled_of {style : String → CssValue} (hstyle : Styling style) {all next b} (hs : Stays all next b) {ds} (hd : Shows b (b.children 3) ds) :
    ∃ s out b cls uses, Styles.run style all {} = some (s, out) ∧ Styled style ds all out b cls uses := by
  have hcs : ∀ c ∈ all, Calm c ∨ (∃ id name, c = .createNode id name) ∨ ∃ p x r, c = .insertBefore p x r := by
    obtain ⟨rest, e, hr, -⟩ := hs.split
    intro c hm
    rw [e] at hm
    rcases List.mem_append.mp hm with hm | hm
    · simp only [opening, List.mem_cons, List.not_mem_nil, or_false] at hm
      rcases hm with rfl | rfl | rfl | rfl
      · exact Or.inr (Or.inl ⟨_, _, rfl⟩)
      · exact Or.inr (Or.inl ⟨_, _, rfl⟩)
      · exact Or.inr (Or.inr ⟨_, _, _, rfl⟩)
      · exact Or.inr (Or.inl ⟨_, _, rfl⟩)
    · exact Or.inl (hr c hm)
  obtain ⟨s1, out, tbl, b', h1, h2, h3⟩ := sim_run hstyle (sim_init style) hcs hs.run
  have hch : b'.children = b.children := by rw [h3.same]
  refine ⟨s1, out, b', _, _, h1, h2, ?_, sim_inserts hstyle (sim_init style) hcs hs.run hs.inserts h1, run_out h1, ?_, ?_, ?_, ?_, h3.sheet⟩
  · intro c hm id hid
    rcases run_out h1 c hm with h4 | ⟨_, _, rfl⟩ | ⟨_, _, rfl⟩
    · exact hs.removes c h4 id hid
    · cases hid
    · cases hid
  · rw [hch]; exact hs.html
  · rw [hch]; exact hs.bare.head
  · intro y hy x hx
    rw [hch] at hx
    exact hs.free y hy x hx
  · rw [hch]
    exact h3.looks hd

theorem styled {style : String → CssValue} (hstyle : Styling style) {views : List (View S V)} (hok : ∀ v ∈ views, v.Fine)
    {order : List (Inst S V) → List (Inst S V)} (hord : ∀ l, (order l).Perm l) {σ : S} {h : List (S × List Sub)}
    (hc : Complete order h (App.start σ views).1) :
    ∃ s out b cls uses, Styles.run style (App.sent σ views order h) {} = some (s, out) ∧
      Styled style (htmls (lastState σ h) views) (App.sent σ views order h) out b cls uses := by
  obtain ⟨b, hs⟩ := sends hok hord hc
  refine styled_of hstyle hs.stays ?_
  have := showsAll_of _ hs.agree.holds hs.agree.fits hs.due Shows.nil
  rw [hs.agree.body]
  simpa using this

/-- **C64** (partial: `View.Fine`, as C49). The application starts in the state `σ` and goes through any number of transactions, after each of
which the subscriptions whose value has changed are run, in any order. Then nothing panics, the browser has executed all commands without
an error, and the page looks like the view in the last state: every element has the class that is written, with the classes of its css;
and the page has the rules of these classes, one time each, which are not those of another css. -/
theorem C64_looks_partial (style : String → CssValue) (hstyle : Styling style) (views : List (View S V)) (hok : ∀ v ∈ views, v.Fine)
    (order : List (Inst S V) → List (Inst S V)) (hord : ∀ l, (order l).Perm l) (σ : S) (h : List (S × List Sub))
    (hc : Complete order h (App.start σ views).1) :
    ∃ s out b cls uses, Styles.run style ((App.start σ views).2 ++ ((App.start σ views).1.history order h).2) {} = some (s, out) ∧
      Browser.init.run out = .ok b ∧ b.children 1 = [2, 3] ∧
      Looks style cls uses b (b.children 3) (htmls (lastState σ h) views) ∧ Sheet style cls uses b.css := by
  obtain ⟨s, out, b, cls, uses, h1, h2⟩ := styled hstyle hok hord hc
  exact ⟨s, out, b, cls, uses, h1, h2.run, h2.html, h2.looks, h2.sheet⟩

omit [DecidableEq V] in
theorem Styled.batches {style : String → CssValue} {ds : List Html} {calls out b cls uses}
    (h : Styled style ds calls out b cls uses) {batches : List (List Cmd)} (hb : batches.flatten = out) :
    Browser.init.run (batches.map sortCommands).flatten = .ok b := by
  refine C21_sorted_session ⟨[], rfl⟩ (by rw [hb]; exact h.run) (by rw [hb]; exact h.removes) ?_
  intro pre batch post b1 e hb1
  have hi := h.inserts
  rw [← hb, e, List.flatten_append, List.flatten_cons] at hi
  have := (inserts_append.mp ((inserts_append.mp hi).2 b1 hb1)).1
  refine this.above fun c hc => h.removes c ?_
  rw [← hb, e]
  simp [hc]

/-- **C64 with C21** (partial: `View.Fine`). The same when the commands are sent in batches, each of them sorted. -/
theorem C64_batches_partial (style : String → CssValue) (hstyle : Styling style) (views : List (View S V)) (hok : ∀ v ∈ views, v.Fine)
    (order : List (Inst S V) → List (Inst S V)) (hord : ∀ l, (order l).Perm l) (σ : S) (h : List (S × List Sub))
    (hc : Complete order h (App.start σ views).1) :
    ∃ s out b cls uses, Styles.run style ((App.start σ views).2 ++ ((App.start σ views).1.history order h).2) {} = some (s, out) ∧
      b.children 1 = [2, 3] ∧ Looks style cls uses b (b.children 3) (htmls (lastState σ h) views) ∧ Sheet style cls uses b.css ∧
      ∀ batches : List (List Cmd), batches.flatten = out → Browser.init.run (batches.map sortCommands).flatten = .ok b := by
  obtain ⟨s, out, b, cls, uses, h1, h2⟩ := styled hstyle hok hord hc
  exact ⟨s, out, b, cls, uses, h1, h2.html, h2.looks, h2.sheet, fun batches hb => h2.batches hb⟩

theorem Looks.frame {style : String → CssValue} {cls uses} {b p : Browser} {ok : Id → Prop} {xs hs} (h : Looks style cls uses b xs hs)
    (hok : ∀ x, ok x → p.objects x = b.objects x ∧ p.children x = b.children x)
    (hch : ∀ x, ok x → ∀ y ∈ b.children x, b.objects y ≠ none → ok y) (hxs : ∀ x ∈ xs, b.objects x ≠ none → ok x) :
    Looks style cls uses p xs hs := by
  induction h with
  | nil => exact .nil
  | text e _ ih =>
    have := hok _ (hxs _ List.mem_cons_self (by rw [e]; simp))
    exact .text (by rw [this.1, e]) (ih fun x hx => hxs x (by simp [hx]))
  | comment e _ ih =>
    have := hok _ (hxs _ List.mem_cons_self (by rw [e]; simp))
    exact .comment (by rw [this.1, e]) (ih fun x hx => hxs x (by simp [hx]))
  | element e ha _ _ ih1 ih2 =>
    have h0 := hxs _ List.mem_cons_self (by rw [e]; simp)
    have := hok _ h0
    exact .element (by rw [this.1, e]) ha (by rw [this.2]; exact ih1 fun y hy hn => hch _ h0 y hy hn)
      (ih2 fun x hx => hxs x (by simp [hx]))

omit [DecidableEq V] in
/-- Whatever the page looks like, it does so in the place of the page that was there. -/
theorem styledTakeover_of {page : Browser} (hp : Arrived page) {style : String → CssValue} {all next b0} (h0 : Stays all next b0) {ds s out b cls uses}
    (h1 : Styles.run style all {} = some (s, out)) (hs : Styled style ds all out b cls uses)
    (hids : ∀ c ∈ all, ∀ x, makes c = some x → ¬ Old page x) (batches : List (List Cmd)) (hb : batches.flatten = out) :
    let p := ((batches.map sortCommands).foldl Driver.update ⟨page, false⟩).page
    Looks style cls uses p (p.children 3) ds ∧ Sheet style cls uses p.css ∧ p.children 2 = [] ∧
      (p.children 1).filter isRoot = [2, 3] ∧ ∀ x, x ∈ page.children 2 ∨ x ∈ page.children 3 → p.parent x = none := by
  have hrun := hs.batches hb
  have hne : batches.map sortCommands ≠ [] := by
    intro e
    rw [e] at hrun
    cases hrun
    have hs' := hs.run
    rw [List.map_eq_nil_iff] at e
    rw [e] at hb
    have he : out = [] := hb.symm
    rw [he] at h1
    obtain ⟨rest, e', -⟩ := h0.split
    rw [e', opening] at h1
    simp only [List.cons_append, List.nil_append, Styles.run, Styles.step] at h1
    repeat' split at h1
    all_goals simp at h1
  have hids' : ∀ c ∈ (batches.map sortCommands).flatten, ∀ x, makes c = some x → ¬ Old page x := by
    intro c hc x hx
    have hm : c ∈ out := by
      rw [← hb]
      simp only [List.mem_flatten, List.mem_map] at hc ⊢
      obtain ⟨_, ⟨l, hl, rfl⟩, hc⟩ := hc
      refine ⟨l, hl, ?_⟩
      rw [C21_sort_is_stable] at hc
      rcases List.mem_append.mp hc with hc | hc
      · exact (List.mem_filter.mp hc).1
      · exact (List.mem_filter.mp hc).1
    rcases hs.made c hm with h4 | ⟨_, _, rfl⟩ | ⟨_, _, rfl⟩
    · exact hids c h4 x hx
    · cases hx
    · cases hx
  obtain ⟨h1, h2, h3, h4, h5, h6, h7, h8⟩ := C58_replaced hp _ hne hrun hids'
  generalize ((batches.map sortCommands).foldl Driver.update ⟨page, false⟩).page = p at h1 h2 h3 h4 h5 h6 h7 h8
  have hnew : ∀ x, b.objects x ≠ none → isRoot x = false → ¬ Old page x := by
    intro x hx hr
    rcases makes_run hrun hx with h | ⟨c, hc, e⟩
    · intro ho
      have := (over_init hp).new x h
      rw [old_iff.mpr ho] at this; cases this
    · exact hids' c hc x e
  refine ⟨?_, ?_, ?_, ?_, fun x hx => (h6 x hx).2⟩
  · rw [h3]
    refine hs.looks.frame (ok := fun x => isRoot x = false ∧ ¬ Old page x) ?_ ?_ ?_
    · intro x hx
      have := h1 x hx.1 hx.2
      exact ⟨this.1, this.2.2.2⟩
    · intro x hx y hy hn
      have hr := hs.free x (by rintro rfl; exact absurd hx.1 (by decide)) y hy
      exact ⟨hr, hnew y hn hr⟩
    · intro x hx hn
      have hr := hs.free 3 (by decide) x hx
      exact ⟨hr, hnew x hn hr⟩
  · rw [h8]; exact hs.sheet
  · rw [h2]; exact hs.head
  · have : ((p.children 1).filter (fun x => isRoot x || decide (x ∉ page.objs))).filter isRoot = [2, 3] := by
      rw [h4, hs.html]; rfl
    rw [List.filter_filter] at this
    rw [← this]
    exact List.filter_congr fun y _ => by cases isRoot y <;> simp

/-- **C64 with C58** (partial: `View.Fine`). The same when the page came from the server: whatever it has in its head and body is replaced. -/
theorem C64_takeover_partial {page : Browser} (hp : Arrived page) (style : String → CssValue) (hstyle : Styling style) (views : List (View S V))
    (hok : ∀ v ∈ views, v.Fine) (order : List (Inst S V) → List (Inst S V)) (hord : ∀ l, (order l).Perm l) (σ : S) (h : List (S × List Sub))
    (hc : Complete order h (App.start σ views).1)
    (hids : ∀ c ∈ (App.start σ views).2 ++ ((App.start σ views).1.history order h).2, ∀ x, makes c = some x → ¬ Old page x) :
    ∃ s out cls uses, Styles.run style ((App.start σ views).2 ++ ((App.start σ views).1.history order h).2) {} = some (s, out) ∧
      ∀ batches : List (List Cmd), batches.flatten = out →
        let p := ((batches.map sortCommands).foldl Driver.update ⟨page, false⟩).page
        Looks style cls uses p (p.children 3) (htmls (lastState σ h) views) ∧ Sheet style cls uses p.css ∧ p.children 2 = [] ∧
          (p.children 1).filter isRoot = [2, 3] ∧ ∀ x, x ∈ page.children 2 ∨ x ∈ page.children 3 → p.parent x = none := by
  obtain ⟨b0, h0⟩ := sends hok hord hc
  obtain ⟨s, out, b, cls, uses, h1, hs⟩ := styled hstyle hok hord hc
  exact ⟨s, out, cls, uses, h1, fun batches hb => styledTakeover_of hp h0.stays h1 hs hids batches hb⟩

end

/-! ## An example -/

/-- Two css values: a colour, and the colour with an animation. -/
def exampleStyle (key : String) : CssValue :=
  if key = "a" then [.static "color: red".toList]
  else [.static "color: red".toList, .dynamic "animation: 1s { from { top: 0 } }".toList]

theorem exampleStyle_styling : Styling exampleStyle := by
  intro key r hr n
  have h : r = (.static, "color: red".toList) ∨ r = (.dynamic, "animation: 1s { from { top: 0 } }".toList) := by
    unfold exampleStyle at hr
    split at hr
    · simp only [requests, List.mem_cons, List.not_mem_nil, or_false] at hr
      exact Or.inl hr
    · simpa only [requests, List.mem_cons, List.not_mem_nil, or_false] using hr
  rcases h with rfl | rfl
  · rfl
  · rfl

/-- A counter whose class is there when it is positive and whose css depends on it, and a list of elements with css. -/
def styledView : List (View Nat Nat) :=
  [.element "p" [("class", fun n => if 0 < n then some "on" else none), ("css", fun n => some (if n = 3 then "b" else "a")), ("id", fun _ => some "x")]
      [.computedText fun n => toString n],
   .element "ul" [] [.list (fun n => List.range n) (fun v => v) fun v => .element "li" [("css", fun _ => some "b")] [.text (toString v)]]]

theorem styledView_fine : ∀ v ∈ styledView, v.Fine := by
  intro v hv
  simp only [styledView, List.mem_cons, List.not_mem_nil, or_false] at hv
  rcases hv with rfl | rfl
  · refine .element (by decide) (by decide) fun c hc => ?_
    rw [List.mem_singleton.mp hc]; exact .computedText
  · refine .element (by decide) (by decide) fun c hc => ?_
    rw [List.mem_singleton.mp hc]
    refine .list (fun v => .element (by decide) (by decide) fun c hc => ?_) (fun _ => rfl) (fun _ _ e => by rw [show _ = _ from e])
    rw [List.mem_singleton.mp hc]; exact .text

/-- 0, then 3, then 2. -/
def styledHistory : List (Nat × List Sub) :=
  [(3, (dueAll 3 (App.start 0 styledView).1.body).reverse),
   (2, (dueAll 2 ((App.start 0 styledView).1.change 3 List.reverse (dueAll 3 (App.start 0 styledView).1.body).reverse).1.body).reverse)]

theorem styledHistory_complete : Complete List.reverse styledHistory (App.start 0 styledView).1 :=
  ⟨fun _ h => by simpa using h, fun _ h => by simpa using h, trivial⟩

def styledCalls : List Cmd := (App.start 0 styledView).2 ++ ((App.start 0 styledView).1.history List.reverse styledHistory).2

example : ∃ s out b cls uses, Styles.run exampleStyle styledCalls {} = some (s, out) ∧
      Browser.init.run out = .ok b ∧ b.children 1 = [2, 3] ∧
      Looks exampleStyle cls uses b (b.children 3) (htmls 2 styledView) ∧ Sheet exampleStyle cls uses b.css :=
  C64_looks_partial exampleStyle exampleStyle_styling styledView styledView_fine List.reverse List.reverse_perm 0 styledHistory styledHistory_complete

/-- The rules and the classes that are sent: three elements have the colour and the animation, and each of these has its rules once. -/
example : ((Styles.run exampleStyle styledCalls {}).map fun x => x.2.filter fun
    | .insertCss _ _ => true | .setAttr _ _ _ => true | _ => false) =
  some [.insertCss ".autocss_1" "color: red", .setAttr 4 "class" "autocss_1", .setAttr 4 "id" "x",
    .insertCss "@keyframes autocss_3" "from { top: 0 }", .insertCss ".autocss_2" "animation: 1s autocss_3 ",
    .setAttr 8 "class" "autocss_1 autocss_2", .setAttr 10 "class" "autocss_1 autocss_2", .setAttr 12 "class" "autocss_1 autocss_2",
    .setAttr 4 "class" "autocss_1 autocss_2", .setAttr 4 "class" "on autocss_1 autocss_2", .setAttr 4 "class" "on autocss_1"] := by
  decide +kernel

/-- On the page of a server. -/
example : ∃ s out cls uses, Styles.run exampleStyle styledCalls {} = some (s, out) ∧
      ∀ batches : List (List Cmd), batches.flatten = out →
        let p := ((batches.map sortCommands).foldl Driver.update ⟨sentPage, false⟩).page
        Looks exampleStyle cls uses p (p.children 3) (htmls 2 styledView) ∧ Sheet exampleStyle cls uses p.css ∧ p.children 2 = [] ∧
          (p.children 1).filter isRoot = [2, 3] ∧ ∀ x, x ∈ sentPage.children 2 ∨ x ∈ sentPage.children 3 → p.parent x = none :=
  C64_takeover_partial sentPage_arrived exampleStyle exampleStyle_styling styledView styledView_fine List.reverse List.reverse_perm 0
    styledHistory styledHistory_complete (sentPage_ids (l := styledCalls) (by decide +kernel))

/-- **An empty class stays.** When the class of an element is taken away, the element is left with the empty class, where a page that is built anew
has none: `[class]` in a style sheet still matches it. -/
theorem C64_empty_class_violated : ∃ (view : List (View Nat Nat)) (s : Styles) (out : List Cmd) (b : Browser) (attr : String → Option String),
    (∀ v ∈ view, v.Fine) ∧
    Styles.run exampleStyle ((App.start 1 view).2 ++ ((App.start 1 view).1.history id [(0, [(4, some "class")])]).2) {} = some (s, out) ∧
    Browser.init.run out = .ok b ∧ b.objects 4 = some (.element "p" attr) ∧ attr "class" = some "" ∧
    htmls 0 view = [.element "p" (fun _ => none) []] := by
  refine ⟨[.element "p" [("class", fun n => if n = 0 then none else some "on")] []], _, _, _, _, ?_, rfl, rfl, rfl, rfl, ?_⟩
  · intro v hv
    rw [List.mem_singleton.mp hv]
    exact .element (by decide) (by decide) (by simp)
  · simp only [htmls, html, List.append_nil, List.cons.injEq, and_true, Html.element.injEq, true_and]
    funext a
    by_cases h : "class" = a <;> simp [h]

end Verif.View

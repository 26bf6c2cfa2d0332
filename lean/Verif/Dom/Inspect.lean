import Verif.Dom.ServerProps
/-!
# The debug rendering of a command log (C45)

Model of `crates/vertigo/src/inspect.rs`: `DomDebugFragment::from_cmds` and `to_pseudo_html`.
-/
namespace Verif.Dom

/-- inspect.rs:28-36 (`DomDebugNode`; the field `id` is the key of the map). -/
structure DNode where
  parentId : Id := 0
  name : String := ""
  attrs : String → Option String := fun _ => none
  callbacks : String → Option Nat := fun _ => none
  children : List Id := []
  text : Option String := none

/-- inspect.rs:20-24 (`DomDebugFragment`, without the root). -/
structure Debug where
  map : Id → Option DNode := fun _ => none
  css : String → Option String := fun _ => none

/-- `map.entry(id).and_modify(f)` and `if let Some(node) = map.get_mut(&id)`. -/
def Debug.modify (d : Debug) (id : Id) (f : DNode → DNode) : Debug :=
  match d.map id with
  | none => d
  | some n => { d with map := fupd d.map id (some (f n)) }

def Debug.insert (d : Debug) (id : Id) (n : DNode) : Debug := { d with map := fupd d.map id (some n) }

/-- `attrs.insert` and `callbacks.insert`. -/
def supd {α : Type} (f : String → Option α) (x : String) (a : Option α) : String → Option α :=
  fun y => if y = x then a else f y

/-- inspect.rs:60-78, the attributes of the node. -/
def setAttrDebug (css : String → Option String) (name value : String) (n : DNode) : DNode :=
  if name = "class" then
    match css ("." ++ value) with
    | some new => { n with attrs := supd n.attrs "style" (some ((n.attrs "style").getD "" ++ new)) }
    | none => { n with attrs := supd n.attrs name (some value) }
  else { n with attrs := supd n.attrs name (some value) }

/-- inspect.rs:88-99. -/
def Debug.remove (d : Debug) (id : Id) : Debug :=
  let d := match d.map id with
    | some n => d.modify n.parentId fun p => { p with children := p.children.filter (· ≠ id) }
    | none => d
  { d with map := fupd d.map id none }

/-- inspect.rs:122-141: `position` and `insert`, or `push`. -/
def insertChild (l : List Id) (ref : Option Id) (child : Id) : List Id :=
  match ref with
  | some r => if r ∈ l then l.insertIdx (l.idxOf r) child else l ++ [child]
  | none => l ++ [child]

/-- inspect.rs:100-143. -/
def Debug.insertBefore (d : Debug) (parent child : Id) (ref : Option Id) : Debug :=
  match d.map child with
  | none => d
  | some n =>
      let d := d.modify child fun n => { n with parentId := parent }
      let d := d.modify n.parentId fun p => { p with children := p.children.filter (· ≠ child) }
      d.modify parent fun p => { p with children := insertChild p.children ref child }

/-- inspect.rs:49-165, one command. -/
def Debug.step (d : Debug) : Cmd → Debug
  | .createNode id name => d.insert id { name }
  | .createText id value => d.insert id { text := some value }
  | .updateText id value => d.modify id fun n => { n with text := some value }
  | .setAttr id name value => d.modify id (setAttrDebug d.css name value)
  | .removeAttr id name =>
      d.modify id fun n => if name = "class" then n else { n with attrs := supd n.attrs name none }
  | .removeNode id => d.remove id
  | .removeText id => d.remove id
  | .removeComment id => d.remove id
  | .insertBefore parent child ref => d.insertBefore parent child ref
  | .insertCss selector value => { d with css := supd d.css selector (some value) }
  | .createComment id value => d.insert id { text := some ("<!-- " ++ value ++ " -->") }
  | .callbackAdd id event cb => d.modify id fun n => { n with callbacks := supd n.callbacks event (some cb) }
  | .callbackRemove id event _ => d.modify id fun n => { n with callbacks := supd n.callbacks event none }

def Debug.run (d : Debug) (cs : List Cmd) : Debug := cs.foldl Debug.step d

/-- inspect.rs:168-182: the first node with the parent html in the order of the hash map, or else the first
without a parent. -/
def Debug.root (d : Debug) (order : List Id) : Option Id :=
  let at_ (p : Id) := order.find? fun x => match d.map x with
    | some n => decide (n.parentId = p)
    | none => false
  (at_ 1).or (at_ 0)

def concat : List String → String
  | [] => ""
  | s :: l => s ++ concat l

/-- inspect.rs:208-213 and 214-219, with the entries in the order of the hash map. -/
def entries {α : Type} (order : List String) (m : String → Option α) : List (String × α) :=
  order.filterMap fun k => (m k).map fun v => (k, v)

def attrText (e : String × String) : String := " " ++ e.1 ++ "='" ++ e.2 ++ "'"

def callbackText (e : String × Nat) : String := " " ++ e.1 ++ "=" ++ toString e.2

/-- inspect.rs:196-228 (`render`).  `attrOrder` and `callOrder` are the orders of the hash maps of each node;
the recursion is bounded by `n`, `none` means that this was not enough. -/
def Debug.render (d : Debug) (attrOrder callOrder : Id → List String) : Nat → Id → Option String
  | 0, _ => none
  | n + 1, id =>
      match d.map id with
      | none => some ""
      | some node =>
          if node.name = "" then some (node.text.getD "")
          else
            match collect (d.render attrOrder callOrder n) node.children with
            | none => none
            | some children =>
                some ("<" ++ node.name ++ concat ((entries (attrOrder id) node.attrs).map attrText) ++
                  concat ((entries (callOrder id) node.callbacks).map callbackText) ++ ">" ++ concat children ++
                  "</" ++ node.name ++ ">")

/-- inspect.rs:190-194 (`to_pseudo_html`). -/
def Debug.pseudoHtml (d : Debug) (order : List Id) (attrOrder callOrder : Id → List String) (n : Nat) :
    Option String :=
  match d.root order with
  | none => some ""
  | some x => d.render attrOrder callOrder n x

/-- The orders list each entry of the hash maps once. -/
structure Orders (d : Debug) (order : List Id) (attrOrder callOrder : Id → List String) : Prop where
  nodes : ∀ x, x ∈ order ↔ d.map x ≠ none
  attrNodup : ∀ x, (attrOrder x).Nodup
  attrs : ∀ x n, d.map x = some n → ∀ k, k ∈ attrOrder x ↔ n.attrs k ≠ none
  callNodup : ∀ x, (callOrder x).Nodup
  callbacks : ∀ x n, d.map x = some n → ∀ k, k ∈ callOrder x ↔ n.callbacks k ≠ none

/-! ## Specification -/

/-- The declarations of a class, if there is a rule for it: the last rule counts. -/
def ruleOf (css : List (String × String)) (cls : String) : Option String :=
  (css.reverse.find? fun e => e.1 = "." ++ cls).map (·.2)

/-- The attributes to show: a class with a rule is shown as a style. -/
def shownAttrs (css : List (String × String)) (attr : String → Option String) (name : String) : Option String :=
  match (attr "class").bind (ruleOf css) with
  | none => attr name
  | some style => if name = "class" then none else if name = "style" then some style else attr name

/-- The list has exactly the entries of the map, each once. -/
def Lists {α : Type} (l : List (String × α)) (m : String → Option α) : Prop :=
  (l.map (·.1)).Nodup ∧ ∀ k v, (k, v) ∈ l ↔ m k = some v

/-- A text shows these nodes of the page, one after the other. -/
inductive Shows (b : Browser) : List Id → String → Prop where
  | nil : Shows b [] ""
  | text {x t rest s} : b.objects x = some (.text t) → Shows b rest s → Shows b (x :: rest) (t ++ s)
  | comment {x t rest s} : b.objects x = some (.comment t) → Shows b rest s →
      Shows b (x :: rest) ("<!-- " ++ t ++ " -->" ++ s)
  | element {x name attr attrs inner rest s} {callbacks : List (String × Nat)} :
      b.objects x = some (.element name attr) →
      Lists attrs (shownAttrs b.css attr) →
      ((callbacks.map (·.1)).Nodup ∧ ∀ e cb, (e, cb) ∈ callbacks ↔ (cb, x, e) ∈ b.listeners) →
      Shows b (b.children x) inner → Shows b rest s →
      Shows b (x :: rest) ("<" ++ name ++ concat (attrs.map fun a => " " ++ a.1 ++ "='" ++ a.2 ++ "'") ++
        concat (callbacks.map fun c => " " ++ c.1 ++ "=" ++ toString c.2) ++ ">" ++ inner ++ "</" ++ name ++ ">" ++ s)

/-- The nodes of the log: created and not removed. -/
def Live (b : Browser) (x : Id) : Prop := isRoot x = false ∧ b.inMap x = true

/-- The topmost nodes of the log: those in html, or if there are none those without a parent. -/
def Top (b : Browser) (x : Id) : Prop :=
  Live b x ∧ (b.parent x = some 1 ∨ (b.parent x = none ∧ ∀ y, Live b y → b.parent y ≠ some 1))

/-- Commands of a fragment: html, head and body were there before and stay, a node is not its own reference,
a node has one listener for an event, and listeners that were added are removed. -/
def fragment (b : Browser) : Cmd → Bool
  | .createNode id name => !isRoot id && id ≠ 0 && name ≠ ""
  | .createText id _ => !isRoot id && id ≠ 0
  | .createComment id _ => !isRoot id && id ≠ 0
  | .insertBefore _ c ref => !isRoot c && ref ≠ some c
  | .removeNode id => !isRoot id
  | .removeText id => !isRoot id
  | .removeComment id => !isRoot id
  | .callbackAdd id e cb => (b.get id).isSome && b.listeners.all fun l => l.1 ≠ cb && l.2 ≠ (id, e)
  | .callbackRemove id e cb => (cb, id, e) ∈ b.listeners
  | _ => true

def classOf : Option Content → Option String
  | some (.element _ attr) => attr "class"
  | _ => none

def styleOf : Option Content → Option String
  | some (.element _ attr) => attr "style"
  | _ => none

/-- The class of a node is set once, after its rule; the style of a node with a rule is not touched. -/
def styled (b : Browser) : Cmd → Bool
  | .setAttr id name value =>
      if name = "class" then
        classOf (b.objects id) = none && ((ruleOf b.css value).isNone || styleOf (b.objects id) = none)
      else if name = "style" then ((classOf (b.objects id)).bind (ruleOf b.css)).isNone
      else true
  | .removeAttr id name =>
      if name = "class" then false
      else if name = "style" then ((classOf (b.objects id)).bind (ruleOf b.css)).isNone
      else true
  | .insertCss selector _ =>
      b.objs.all fun x => (classOf (b.objects x)).all fun cls => selector ≠ "." ++ cls
  | _ => true

/-- All commands of a log satisfy a condition on the page they meet. -/
def Along (cond : Browser → Cmd → Bool) : Browser → List Cmd → Prop
  | _, [] => True
  | b, c :: cs => cond b c = true ∧ ∀ b', b.step c = .ok b' → Along cond b' cs

theorem insertIdx_idxOf (l : List Id) {r : Id} (c : Id) (h : r ∈ l) :
    l.insertIdx (l.idxOf r) c = insertBeforeIn c r l := by
  induction l with
  | nil => cases h
  | cons y l ih =>
    rw [List.idxOf_cons, insertBeforeIn]
    by_cases e : y = r
    · simp [e]
    · have : r ∈ l := by
        rcases List.mem_cons.1 h with h | h
        · exact absurd h.symm e
        · exact h
      rw [show (y == r) = false from by simp [e]]
      simp [e, ih this]

theorem insertChild_eq (l : List Id) (ref : Option Id) (c : Id) (hr : ∀ r, ref = some r → r ∈ l ∧ r ≠ c) :
    insertChild (l.filter (· ≠ c)) ref c = listInsert l ref c := by
  cases ref with
  | none => rfl
  | some r =>
    obtain ⟨h1, h2⟩ := hr r rfl
    have : r ∈ l.filter (· ≠ c) := by simp [h1, h2]
    simp only [insertChild, listInsert]
    rw [if_pos this, insertIdx_idxOf _ _ this]

/-! ## Simulation -/

/-- The same node; with `full` also its class and style. -/
def DSame (full : Bool) (css : List (String × String)) (n : DNode) : Content → Prop
  | .element name attr => n.name = name ∧ name ≠ "" ∧ (∀ k, k ≠ "class" → k ≠ "style" → n.attrs k = attr k) ∧
      (full = true → n.attrs = shownAttrs css attr ∧ (((attr "class").bind (ruleOf css)).isSome → attr "style" = none))
  | .text t => n.name = "" ∧ n.text = some t
  | .comment t => n.name = "" ∧ n.text = some ("<!-- " ++ t ++ " -->")

structure NodeSim (full : Bool) (b : Browser) (x : Id) (n : DNode) : Prop where
  content : ∃ o, b.objects x = some o ∧ DSame full b.css n o
  children : n.children = b.children x
  parent : n.parentId = (b.parent x).getD 0
  callbacks : ∀ e cb, n.callbacks e = some cb ↔ (cb, x, e) ∈ b.listeners

structure DSim (full : Bool) (d : Debug) (b : Browser) : Prop where
  root : ∀ x, isRoot x = true → d.map x = none
  live : ∀ x, isRoot x = false → (d.map x ≠ none ↔ b.inMap x = true)
  node : ∀ x n, d.map x = some n → NodeSim full b x n
  rootPar : ∀ x, isRoot x = true → b.parent x = none ∨ b.parent x = some 1
  zero : b.objects 0 = none
  css : ∀ cls, d.css ("." ++ cls) = ruleOf b.css cls
  heard : ∀ l ∈ b.listeners, b.objects l.2.1 ≠ none
  ids : (b.listeners.map (·.1)).Nodup

theorem NodeSim.congr {full b b' x n} (h : NodeSim full b x n) (ho : b'.objects x = b.objects x)
    (hc : b'.css = b.css) (hch : b'.children x = b.children x) (hp : b'.parent x = b.parent x)
    (hl : b'.listeners = b.listeners) : NodeSim full b' x n := by
  refine ⟨?_, ?_, ?_, ?_⟩
  · rw [ho, hc]; exact h.content
  · rw [hch]; exact h.children
  · rw [hp]; exact h.parent
  · rw [hl]; exact h.callbacks

theorem dsim_init (full : Bool) : DSim full {} Browser.init := by
  refine ⟨fun _ _ => rfl, by simp [Browser.init], by simp,
    fun x _ => by simp only [Browser.init]; split <;> simp, by simp [Browser.init], ?_, by simp [Browser.init],
    by simp [Browser.init]⟩
  intro cls; simp [ruleOf, Browser.init]

theorem DSim.create {full d b b'} (h : DSim full d b) (hb : BInv b) {id n o} (hr : isRoot id = false)
    (h0 : id ≠ 0) (hs : b.create id o = .ok b') (hsame : DSame full b.css n o) (hch : n.children = [])
    (hp : n.parentId = 0) (hcb : n.callbacks = fun _ => none) : DSim full (d.insert id n) b' := by
  unfold Browser.create at hs
  rw [hr] at hs
  simp only [Bool.false_eq_true, if_false] at hs
  split at hs
  · cases hs
  rename_i ho
  have ho' : b.objects id = none := by simpa using ho
  cases hs
  have hne : ∀ x, isRoot x = true → x ≠ id := fun x hx e => by rw [e, hr] at hx; cases hx
  refine ⟨?_, ?_, ?_, h.rootPar, ?_, h.css, ?_, h.ids⟩
  · intro x hx
    simp only [Debug.insert, fupd, hne x hx, if_false]; exact h.root x hx
  · intro x hx
    simp only [Debug.insert, fupd]
    split
    · simp
    · exact h.live x hx
  · intro x m hx
    simp only [Debug.insert, fupd] at hx
    split at hx
    · rename_i e; subst e; cases hx
      refine ⟨⟨o, by simp [fupd], hsame⟩, ?_, ?_, ?_⟩
      · rw [hch]
        symm
        apply List.eq_nil_iff_forall_not_mem.mpr
        intro c hc
        obtain ⟨_, n, a, e⟩ := hb.par _ _ ((hb.link _ _).mp hc)
        rw [ho'] at e; cases e
      · rw [hp]
        cases hpp : b.parent x with
        | none => rfl
        | some q =>
          rcases (hb.par _ _ hpp).1 with h1 | h1
          · rw [hr] at h1; cases h1
          · exact absurd ho' ((hb.objs x).mp (hb.inMap x h1))
      · intro e cb
        rw [hcb]
        simp only [reduceCtorEq, false_iff]
        intro hm
        exact h.heard _ hm ho'
    · rename_i e
      exact (h.node x m hx).congr (by simp [fupd, e]) rfl rfl rfl rfl
  · simp only [fupd, Ne.symm h0, if_false]; exact h.zero
  · intro l hl
    simp only [fupd]
    split
    · simp
    · exact h.heard l hl

theorem DSim.remove {full d b b'} (h : DSim full d b) (hb : BInv b) {id} (hr : isRoot id = false)
    (hs : b.remove id = .ok b') : DSim full (d.remove id) b' := by
  unfold Browser.remove at hs
  split at hs
  · cases hs
  rename_i o hg
  cases hs
  have e : ({ b with inMap := fupd b.inMap id false } : Browser).detach id =
      { b.detach id with inMap := fupd b.inMap id false } := by
    unfold Browser.detach
    simp only
    cases b.parent id <;> rfl
  rw [e]
  have hin : b.inMap id = true := by
    rcases (get_of hg).2 with h | h
    · rw [hr] at h; cases h
    · exact h
  obtain ⟨n, hn⟩ := Option.ne_none_iff_exists'.mp ((h.live id hr).mpr hin)
  have hnode := h.node id n hn
  -- the map afterwards
  have hmap : ∀ x, (d.remove id).map x = if x = id then none else
      (d.map x).map fun m => { m with children := m.children.filter (· ≠ id) } := by
    intro x
    simp only [Debug.remove, hn, fupd]
    split
    · rfl
    rename_i hx
    unfold Debug.modify
    cases hp : d.map n.parentId with
    | none =>
      simp only
      cases hm : d.map x with
      | none => rfl
      | some m =>
        simp only [Option.map_some, Option.some.injEq]
        have hmm := h.node x m hm
        have : id ∉ m.children := by
          rw [hmm.children]
          intro hc
          have := (hb.link _ _).mp hc
          have e1 := hnode.parent
          rw [this] at e1
          simp only [Option.getD_some] at e1
          rw [e1, hm] at hp; cases hp
        rw [filter_ne_of_not_mem this]
    | some q =>
      simp only [fupd]
      split
      · rename_i e; rw [e, hp]; rfl
      · rename_i hxp
        cases hm : d.map x with
        | none => rfl
        | some m =>
          simp only [Option.map_some, Option.some.injEq]
          have hmm := h.node x m hm
          have : id ∉ m.children := by
            rw [hmm.children]
            intro hc
            have := (hb.link _ _).mp hc
            have e1 := hnode.parent
            rw [this] at e1
            exact hxp (by rw [e1]; rfl)
          rw [filter_ne_of_not_mem this]
  have hcss : (d.remove id).css = d.css := by
    simp only [Debug.remove, hn, Debug.modify]
    cases d.map n.parentId <;> rfl
  refine ⟨?_, ?_, ?_, ?_, ?_, ?_, ?_, ?_⟩
  · intro x hx
    rw [hmap]
    split
    · rfl
    · rw [h.root x hx]; rfl
  · intro x hx
    rw [hmap]
    simp only [fupd]
    split
    · simp
    · rw [← h.live x hx]; simp
  · intro x m hx
    rw [hmap] at hx
    split at hx
    · cases hx
    rename_i hxe
    obtain ⟨m0, hm0, rfl⟩ := Option.map_eq_some_iff.1 hx
    have hmm := h.node x m0 hm0
    refine ⟨?_, ?_, ?_, ?_⟩
    · obtain ⟨o, ho, hs⟩ := hmm.content
      refine ⟨o, by simp only [detach_objects]; exact ho, ?_⟩
      simp only [detach_css]
      cases o <;> exact hs
    · simp only
      rw [hb.detach_children, hmm.children]
    · simp only [detach_parent, fupd, hxe, if_false]; exact hmm.parent
    · simp only [detach_listeners]; exact hmm.callbacks
  · intro x hx
    simp only [detach_parent, fupd]
    split
    · exact .inl rfl
    · exact h.rootPar x hx
  · simp only [detach_objects]; exact h.zero
  · rw [hcss]; simp only [detach_css]; exact h.css
  · simp only [detach_objects, detach_listeners]; exact h.heard
  · simp only [detach_listeners]; exact h.ids

theorem modify_map (d : Debug) (id : Id) (f : DNode → DNode) (x : Id) :
    (d.modify id f).map x = if x = id then (d.map id).map f else d.map x := by
  unfold Debug.modify
  cases hm : d.map id with
  | none => simp only; split
            · rename_i e; rw [e, hm]; rfl
            · rfl
  | some n => simp only [fupd]; rfl

theorem modify_css (d : Debug) (id : Id) (f : DNode → DNode) : (d.modify id f).css = d.css := by
  unfold Debug.modify
  cases d.map id <;> rfl

/-- A node is in no other list than that of its parent. -/
theorem DSim.not_child {full d b} (h : DSim full d b) (hb : BInv b) {c n x m} (hn : d.map c = some n)
    (hm : d.map x = some m) (hx : x ≠ n.parentId) : c ∉ m.children := by
  rw [(h.node x m hm).children]
  intro hc
  have e1 := (h.node c n hn).parent
  rw [(hb.link _ _).mp hc] at e1
  exact hx (by rw [e1]; rfl)

/-- A change of one node. -/
theorem DSim.modify {full d b b'} (h : DSim full d b) {id : Id} {f : DNode → DNode}
    (hin : b'.inMap = b.inMap) (hcss : b'.css = b.css) (hch : b'.children = b.children)
    (hpar : b'.parent = b.parent) (hobj : ∀ x, x ≠ id → b'.objects x = b.objects x)
    (hobj' : b.objects id = none → b'.objects id = none) (hobj2 : b'.objects id = none → b.objects id = none)
    (hother : ∀ x e cb, x ≠ id → d.map x ≠ none → ((cb, x, e) ∈ b'.listeners ↔ (cb, x, e) ∈ b.listeners))
    (hheard : ∀ l ∈ b'.listeners, b'.objects l.2.1 ≠ none) (hids : (b'.listeners.map (·.1)).Nodup)
    (hnode : ∀ n, d.map id = some n → NodeSim full b' id (f n)) : DSim full (d.modify id f) b' := by
  have hmap : ∀ x, (d.modify id f).map x = if x = id then (d.map id).map f else d.map x := by
    intro x
    unfold Debug.modify
    cases hm : d.map id with
    | none => simp only; split
              · rename_i e; rw [e, hm]; rfl
              · rfl
    | some n => simp only [fupd]; rfl
  have hc : (d.modify id f).css = d.css := by
    unfold Debug.modify
    cases d.map id <;> rfl
  refine ⟨?_, ?_, ?_, ?_, ?_, ?_, hheard, hids⟩
  · intro x hx
    rw [hmap]
    split
    · rename_i e; subst e; rw [h.root x hx]; rfl
    · exact h.root x hx
  · intro x hx
    rw [hmap, hin, ← h.live x hx]
    split
    · rename_i e; subst e; simp
    · rfl
  · intro x m hx
    rw [hmap] at hx
    split at hx
    · rename_i e; subst e
      obtain ⟨n, hn, rfl⟩ := Option.map_eq_some_iff.1 hx
      exact hnode n hn
    · rename_i e
      have hmm := h.node x m hx
      refine ⟨?_, ?_, ?_, ?_⟩
      · rw [hobj x e, hcss]; exact hmm.content
      · rw [hch]; exact hmm.children
      · rw [hpar]; exact hmm.parent
      · intro ev cb
        rw [hother x ev cb e (by rw [hx]; simp)]; exact hmm.callbacks ev cb
  · rw [hpar]; exact h.rootPar
  · by_cases e : (0 : Nat) = id
    · subst e; exact hobj' h.zero
    · rw [hobj 0 e]; exact h.zero
  · rw [hc, hcss]; exact h.css

theorem ruleOf_append (css : List (String × String)) (sel v cls : String) :
    ruleOf (css ++ [(sel, v)]) cls = if sel = "." ++ cls then some v else ruleOf css cls := by
  unfold ruleOf
  rw [List.reverse_append]
  simp only [List.reverse_cons, List.reverse_nil, List.nil_append, List.singleton_append, List.find?_cons]
  by_cases h : sel = "." ++ cls
  · simp [h]
  · simp [h]

theorem shownAttrs_none {css attr} (h : (attr "class").bind (ruleOf css) = none) (k : String) :
    shownAttrs css attr k = attr k := by
  simp only [shownAttrs, h]

theorem shownAttrs_some {css attr t} (h : (attr "class").bind (ruleOf css) = some t) (k : String) :
    shownAttrs css attr k = if k = "class" then none else if k = "style" then some t else attr k := by
  simp only [shownAttrs, h]

theorem DSim.live_iff {full d b} (h : DSim full d b) (x : Id) : d.map x ≠ none ↔ Live b x := by
  unfold Live
  cases hx : isRoot x with
  | false => simpa using h.live x hx
  | true => simp [h.root x hx]

theorem setAttr_same {full css n name attr} {dcss : String → Option String} (k v : String)
    (hcss : ∀ cls, dcss ("." ++ cls) = ruleOf css cls)
    (h : DSame full css n (.element name attr))
    (hst : full = true → (if k = "class" then attr "class" = none ∧ ((ruleOf css v).isNone ∨ attr "style" = none)
      else if k = "style" then ((attr "class").bind (ruleOf css)).isNone = true else True)) :
    DSame full css (setAttrDebug dcss k v n) (.element name fun x => if x = k then some v else attr x) := by
  obtain ⟨h1, h2, h3, h4⟩ := h
  have hname : (setAttrDebug dcss k v n).name = name := by
    unfold setAttrDebug; split
    · split <;> exact h1
    · exact h1
  refine ⟨hname, h2, ?_, ?_⟩
  · intro x hx1 hx2
    unfold setAttrDebug
    split
    · rename_i hk
      split
      · simp only [supd, hx2, if_false]
        rw [if_neg (by rw [hk]; exact hx1)]; exact h3 x hx1 hx2
      · simp only [supd]
        split
        · rfl
        · exact h3 x hx1 hx2
    · simp only [supd]
      split
      · rfl
      · exact h3 x hx1 hx2
  · intro hf
    obtain ⟨h5, h6⟩ := h4 hf
    have hst := hst hf
    by_cases hk : k = "class"
    · subst hk
      simp only [if_true] at hst
      obtain ⟨hc, hst⟩ := hst
      have hold : ∀ x, n.attrs x = attr x := fun x => by rw [h5, shownAttrs_none (by rw [hc]; rfl)]
      unfold setAttrDebug
      rw [if_pos rfl, hcss]
      cases hr : ruleOf css v with
      | none =>
        simp only
        refine ⟨?_, by simp [hr]⟩
        funext x
        rw [shownAttrs_none (by simp [hr])]
        simp only [supd, hold]
      | some t =>
        have hs0 : attr "style" = none := by
          rcases hst with h | h
          · rw [hr] at h; cases h
          · exact h
        simp only
        refine ⟨?_, fun _ => by simp [hs0]⟩
        funext x
        rw [shownAttrs_some (t := t) (by simp [hr])]
        simp only [supd, hold, hs0, Option.getD_none, String.empty_append]
        by_cases hx : x = "style"
        · simp [hx]
        · by_cases hx2 : x = "class"
          · simp [hx2, hc]
          · simp [hx, hx2]
    · have hattrs : (setAttrDebug dcss k v n).attrs = supd n.attrs k (some v) := by
        unfold setAttrDebug; rw [if_neg hk]
      have hcl : (fun x => if x = k then some v else attr x) "class" = attr "class" := by
        simp [Ne.symm hk]
      rw [hattrs]
      cases hr : (attr "class").bind (ruleOf css) with
      | none =>
        refine ⟨?_, by rw [hcl, hr]; simp⟩
        funext x
        rw [shownAttrs_none (by simpa only [if_neg (Ne.symm hk)] using hr)]
        simp only [supd, h5, shownAttrs_none hr]
      | some t =>
        have hks : k ≠ "style" := by
          intro e; subst e
          rw [if_neg hk, if_pos rfl, hr] at hst; cases hst
        refine ⟨?_, fun _ => by simp [Ne.symm hks]; exact h6 (by rw [hr]; rfl)⟩
        funext x
        rw [shownAttrs_some (t := t) (by simpa only [if_neg (Ne.symm hk)] using hr)]
        simp only [supd, h5, shownAttrs_some hr]
        by_cases hx : x = k
        · subst hx; simp [hk, hks]
        · simp [hx]

theorem removeAttr_same {full css n name attr} (k : String)
    (h : DSame full css n (.element name attr))
    (hst : full = true → k ≠ "class" ∧ (k = "style" → ((attr "class").bind (ruleOf css)).isNone = true)) :
    DSame full css (if k = "class" then n else { n with attrs := supd n.attrs k none })
      (.element name fun x => if x = k then none else attr x) := by
  obtain ⟨h1, h2, h3, h4⟩ := h
  refine ⟨by split <;> exact h1, h2, ?_, ?_⟩
  · intro x hx1 hx2
    split
    · rename_i hk
      simp only
      rw [if_neg (by rw [hk]; exact hx1)]; exact h3 x hx1 hx2
    · simp only [supd]
      split
      · rfl
      · exact h3 x hx1 hx2
  · intro hf
    obtain ⟨h5, h6⟩ := h4 hf
    obtain ⟨hk, hst⟩ := hst hf
    rw [if_neg hk]
    have hcl : (fun x => if x = k then none else attr x) "class" = attr "class" := by
      simp [Ne.symm hk]
    cases hr : (attr "class").bind (ruleOf css) with
    | none =>
      refine ⟨?_, by rw [hcl, hr]; simp⟩
      funext x
      rw [shownAttrs_none (by simpa only [if_neg (Ne.symm hk)] using hr)]
      simp only [supd, h5, shownAttrs_none hr]
    | some t =>
      have hks : k ≠ "style" := fun e => by have := hst e; rw [hr] at this; cases this
      refine ⟨?_, fun _ => by simp [Ne.symm hks]; exact h6 (by rw [hr]; rfl)⟩
      funext x
      rw [shownAttrs_some (t := t) (by simpa only [if_neg (Ne.symm hk)] using hr)]
      simp only [supd, h5, shownAttrs_some hr]
      by_cases hx : x = k
      · subst hx; simp [hk, hks]
      · simp [hx]

theorem DSim.step {full d b b'} (h : DSim full d b) (hb : BInv b) {c} (hf : fragment b c = true)
    (hst : full = true → styled b c = true) (hs : b.step c = .ok b') : DSim full (d.step c) b' := by
  cases c with
  | createNode id name =>
    simp only [fragment, Bool.and_eq_true, Bool.not_eq_true', decide_eq_true_eq] at hf
    refine h.create hb hf.1.1 hf.1.2 hs ⟨rfl, hf.2, fun _ _ _ => rfl, fun _ => ⟨?_, by simp⟩⟩ rfl rfl rfl
    funext k
    rw [shownAttrs_none (by simp)]
  | createText id v =>
    simp only [fragment, Bool.and_eq_true, Bool.not_eq_true', decide_eq_true_eq] at hf
    exact h.create hb hf.1 hf.2 hs ⟨rfl, rfl⟩ rfl rfl rfl
  | createComment id v =>
    simp only [fragment, Bool.and_eq_true, Bool.not_eq_true', decide_eq_true_eq] at hf
    exact h.create hb hf.1 hf.2 hs ⟨rfl, rfl⟩ rfl rfl rfl
  | removeNode id => exact h.remove hb (by simpa [fragment] using hf) hs
  | removeText id => exact h.remove hb (by simpa [fragment] using hf) hs
  | removeComment id => exact h.remove hb (by simpa [fragment] using hf) hs
  | updateText id v =>
    simp only [Browser.step] at hs
    split at hs
    rotate_left
    · cases hs
    rename_i t hg
    cases hs
    have ho := (get_of hg).1
    refine h.modify rfl rfl rfl rfl (fun x hx => by simp [fupd, hx]) (fun e => by rw [ho] at e; cases e)
      (by simp [fupd]) (fun _ _ _ _ _ => Iff.rfl) ?_ h.ids ?_
    · intro l hl
      simp only [fupd]; split
      · simp
      · exact h.heard l hl
    · intro n hn
      have hm := h.node id n hn
      obtain ⟨o, ho2, hsame⟩ := hm.content
      rw [ho] at ho2; cases ho2
      exact ⟨⟨.text v, by simp [fupd], hsame.1, rfl⟩, hm.children, hm.parent, hm.callbacks⟩
  | setAttr id k v =>
    simp only [Browser.step] at hs
    split at hs
    rotate_left
    · cases hs
    rename_i name attr hg
    cases hs
    have ho := (get_of hg).1
    refine h.modify rfl rfl rfl rfl (fun x hx => by simp [fupd, hx]) (fun e => by rw [ho] at e; cases e)
      (by simp [fupd]) (fun _ _ _ _ _ => Iff.rfl) ?_ h.ids ?_
    · intro l hl
      simp only [fupd]; split
      · simp
      · exact h.heard l hl
    · intro n hn
      have hm := h.node id n hn
      obtain ⟨o, ho2, hsame⟩ := hm.content
      rw [ho] at ho2; cases ho2
      have hkeep : (setAttrDebug d.css k v n).children = n.children ∧
          (setAttrDebug d.css k v n).parentId = n.parentId ∧
          (setAttrDebug d.css k v n).callbacks = n.callbacks := by
        unfold setAttrDebug; split
        · split <;> exact ⟨rfl, rfl, rfl⟩
        · exact ⟨rfl, rfl, rfl⟩
      refine ⟨⟨_, by simp only [fupd, if_true], setAttr_same k v h.css hsame ?_⟩, hkeep.1 ▸ hm.children,
        hkeep.2.1 ▸ hm.parent, hkeep.2.2 ▸ hm.callbacks⟩
      intro hfull
      have := hst hfull
      simp only [styled, ho, classOf, styleOf] at this
      split
      · rename_i hk
        rw [if_pos hk] at this
        simpa using this
      · rename_i hk
        rw [if_neg hk] at this
        split
        · rename_i hk2; rw [if_pos hk2] at this; exact this
        · trivial
  | removeAttr id k =>
    simp only [Browser.step] at hs
    split at hs
    rotate_left
    · cases hs
    rename_i name attr hg
    cases hs
    have ho := (get_of hg).1
    refine h.modify rfl rfl rfl rfl (fun x hx => by simp [fupd, hx]) (fun e => by rw [ho] at e; cases e)
      (by simp [fupd]) (fun _ _ _ _ _ => Iff.rfl) ?_ h.ids ?_
    · intro l hl
      simp only [fupd]; split
      · simp
      · exact h.heard l hl
    · intro n hn
      have hm := h.node id n hn
      obtain ⟨o, ho2, hsame⟩ := hm.content
      rw [ho] at ho2; cases ho2
      have hkeep : (if k = "class" then n else { n with attrs := supd n.attrs k none }).children = n.children ∧
          (if k = "class" then n else { n with attrs := supd n.attrs k none }).parentId = n.parentId ∧
          (if k = "class" then n else { n with attrs := supd n.attrs k none }).callbacks = n.callbacks := by
        split <;> exact ⟨rfl, rfl, rfl⟩
      refine ⟨⟨_, by simp only [fupd, if_true], removeAttr_same k hsame ?_⟩, hkeep.1.trans hm.children,
        hkeep.2.1.trans hm.parent, fun e cb => by rw [hkeep.2.2]; exact hm.callbacks e cb⟩
      intro hfull
      have := hst hfull
      simp only [styled, ho, classOf] at this
      split at this
      · cases this
      · rename_i hk
        refine ⟨hk, fun hk2 => ?_⟩
        rw [if_pos hk2] at this; exact this
  | insertCss sel v =>
    cases hs
    refine ⟨h.root, h.live, ?_, h.rootPar, h.zero, ?_, h.heard, h.ids⟩
    · intro x n hx
      have hm := h.node x n hx
      refine ⟨?_, hm.children, hm.parent, hm.callbacks⟩
      obtain ⟨o, ho, hsame⟩ := hm.content
      refine ⟨o, ho, ?_⟩
      cases o with
      | text t => exact hsame
      | comment t => exact hsame
      | element name attr =>
        obtain ⟨h1, h2, h3, h4⟩ := hsame
        refine ⟨h1, h2, h3, fun hfull => ?_⟩
        obtain ⟨h5, h6⟩ := h4 hfull
        have hall := hst hfull
        simp only [styled, List.all_eq_true] at hall
        have hx' := hall x ((hb.objs x).mpr (by rw [ho]; simp))
        rw [ho] at hx'
        simp only [classOf] at hx'
        have heq : (attr "class").bind (ruleOf (b.css ++ [(sel, v)])) = (attr "class").bind (ruleOf b.css) := by
          cases hc : attr "class" with
          | none => rfl
          | some cls =>
            rw [hc] at hx'
            simp only [Option.bind_some, ruleOf_append]
            rw [if_neg (by simpa using hx')]
        have hshown : shownAttrs (b.css ++ [(sel, v)]) attr = shownAttrs b.css attr := by
          funext k; simp only [shownAttrs, heq]
        simp only
        rw [hshown, heq]
        exact ⟨h5, h6⟩
    · intro cls
      simp only [Debug.step, supd, ruleOf_append]
      by_cases e : "." ++ cls = sel
      · rw [if_pos e, if_pos e.symm]
      · rw [if_neg e, if_neg (Ne.symm e)]; exact h.css cls
  | callbackAdd id ev cb =>
    simp only [fragment, Bool.and_eq_true, List.all_eq_true, decide_eq_true_eq] at hf
    obtain ⟨hg, hnew⟩ := hf
    simp only [Browser.step] at hs
    rw [if_neg (by simp only [List.any_eq_true, decide_eq_true_eq, not_exists, not_and]
                   exact fun l hl => (hnew l hl).1), if_pos (by simp [hg])] at hs
    cases hs
    obtain ⟨o, ho⟩ := Option.isSome_iff_exists.1 hg
    have ho := (get_of ho).1
    refine h.modify rfl rfl rfl rfl (fun x hx => rfl) (fun x => x) (fun x => x) ?_ ?_ ?_ ?_
    · intro x e c hx _
      simp [hx]
    · intro l hl
      simp only [List.mem_append, List.mem_singleton] at hl
      rcases hl with hl | rfl
      · exact h.heard l hl
      · simp [ho]
    · rw [List.map_append, List.nodup_append]
      refine ⟨h.ids, by simp, ?_⟩
      intro a ha c hc
      simp only [List.map_cons, List.map_nil, List.mem_singleton] at hc
      obtain ⟨l, hl, rfl⟩ := List.mem_map.1 ha
      rw [hc]; exact (hnew l hl).1
    · intro n hn
      have hm := h.node id n hn
      refine ⟨hm.content.imp fun o ho => ⟨ho.1, ?_⟩, hm.children, hm.parent, ?_⟩
      · cases o <;> exact ho.2
      · intro e c
        simp only [supd, List.mem_append, List.mem_singleton, Prod.mk.injEq, true_and]
        by_cases he : e = ev
        · subst he
          simp only [if_true, Option.some.injEq, and_true]
          constructor
          · rintro rfl; exact .inr rfl
          · rintro (hl | rfl)
            · exact absurd rfl (hnew _ hl).2
            · rfl
        · simp only [he, if_false, and_false, or_false]; exact hm.callbacks e c
  | callbackRemove id ev cb =>
    simp only [fragment, decide_eq_true_eq] at hf
    simp only [Browser.step] at hs
    rw [if_pos (by simp only [List.any_eq_true, decide_eq_true_eq]; exact ⟨_, hf, rfl⟩)] at hs
    split at hs
    rotate_left
    · cases hs
    cases hs
    have huniq : ∀ l ∈ b.listeners, l.1 = cb → l = (cb, id, ev) := by
      intro l hl e
      exact List.inj_on_of_nodup_map h.ids hl hf e
    refine h.modify rfl rfl rfl rfl (fun x hx => rfl) (fun x => x) (fun x => x) ?_ ?_ ?_ ?_
    · intro x e c hx _
      simp only [List.mem_filter, decide_eq_true_eq, and_iff_left_iff_imp]
      intro hm hc
      have := huniq _ hm hc
      simp only [Prod.mk.injEq] at this
      exact hx this.2.1
    · intro l hl
      exact h.heard l (List.mem_of_mem_filter hl)
    · exact h.ids.sublist (List.filter_sublist.map _)
    · intro n hn
      have hm := h.node id n hn
      refine ⟨hm.content.imp fun o ho => ⟨ho.1, ?_⟩, hm.children, hm.parent, ?_⟩
      · cases o <;> exact ho.2
      · intro e c
        simp only [supd, List.mem_filter, decide_eq_true_eq]
        by_cases he : e = ev
        · subst he
          simp only [if_true, reduceCtorEq, false_iff, not_and, not_not]
          intro hc
          have h1 := (hm.callbacks e c).mpr hc
          have h2 := (hm.callbacks e cb).mpr hf
          rw [h1] at h2; simpa using h2
        · simp only [he, if_false]
          rw [hm.callbacks e c]
          simp only [iff_self_and]
          intro hc e2
          have := huniq _ hc e2
          simp only [Prod.mk.injEq] at this
          exact he this.2.2
  | insertBefore p c ref =>
    simp only [fragment, Bool.and_eq_true, Bool.not_eq_true', decide_eq_true_eq] at hf
    obtain ⟨hcr, href⟩ := hf
    have hbr : ∃ po co, b.get p = some po ∧ b.get c = some co ∧ b.insertBefore p c ref = .ok b' := by
      simp only [Browser.step] at hs
      split at hs
      · rename_i po co hp hc
        split at hs
        · exact ⟨po, co, hp, hc, hs⟩
        · split at hs
          · cases hs
          · exact ⟨po, co, hp, hc, hs⟩
      · cases hs
    obtain ⟨po, co, hp, hc, hins⟩ := hbr
    obtain ⟨I, hnochain, ⟨n0, a0, hpo⟩, hrp⟩ := hb.inserted href hins
    have hpc : p ≠ c := by
      rintro rfl
      exact hnochain (hb.chain_eq ((hb.objs p).mpr (by rw [hpo]; simp))).head
    have hin : b.inMap c = true := by
      rcases (get_of hc).2 with h | h
      · rw [hcr] at h; cases h
      · exact h
    obtain ⟨n, hn⟩ := Option.ne_none_iff_exists'.mp ((h.live c hcr).mpr hin)
    have hnode := h.node c n hn
    have hmap : ∀ x, (d.insertBefore p c ref).map x = (d.map x).map fun m =>
        { m with
          parentId := if x = c then p else m.parentId
          children := if x = p then insertChild (m.children.filter (· ≠ c)) ref c else m.children.filter (· ≠ c) } := by
      intro x
      simp only [Debug.insertBefore, hn]
      have hold : ∀ m, d.map x = some m → x ≠ n.parentId → m.children.filter (· ≠ c) = m.children :=
        fun m hm hx => filter_ne_of_not_mem (h.not_child hb hn hm hx)
      simp only [modify_map]
      cases hm : d.map x with
      | none =>
        have hxc : x ≠ c := by rintro rfl; rw [hn] at hm; cases hm
        by_cases hxp : x = p
        · subst hxp
          by_cases hxq : x = n.parentId
          · simp only [if_true, hxq.symm, hxc, if_false, hm, Option.map_none]
          · simp only [if_true, hxq, hxc, if_false, hm, Option.map_none]
        · by_cases hxq : x = n.parentId
          · simp only [hxp, hxq.symm, hxc, if_false, if_true, hm, Option.map_none]
          · simp only [hxp, hxq, hxc, if_false, Option.map_none]
      | some m =>
        have hold := hold m hm
        by_cases hxp : x = p
        · subst hxp
          by_cases hxq : x = n.parentId
          · simp only [if_true, hxq.symm, hpc, if_false, hm, Option.map_some]
          · simp only [if_true, hxq, hpc, if_false, hm, Option.map_some, hold hxq]
        · by_cases hxc : x = c
          · subst hxc
            rw [hn] at hm; cases hm
            by_cases hxq : x = n.parentId
            · simp only [hxp, if_true, ← hxq, if_false, hn, Option.map_some]
            · simp only [hxp, if_true, hxq, if_false, hn, Option.map_some, hold hxq]
          · by_cases hxq : x = n.parentId
            · simp only [hxp, if_true, ← hxq, hxc, if_false, hm, Option.map_some]
            · simp only [hxp, hxq, hxc, if_false, Option.map_some, hold hxq]
    have hcss : (d.insertBefore p c ref).css = d.css := by
      simp only [Debug.insertBefore, hn, modify_css]
    refine ⟨?_, ?_, ?_, ?_, ?_, ?_, ?_, ?_⟩
    · intro x hx
      simp only [Debug.step, hmap, h.root x hx, Option.map_none]
    · intro x hx
      simp only [Debug.step, hmap]
      rw [I.inMap, ← h.live x hx]; simp
    · intro x m hx
      simp only [Debug.step, hmap] at hx
      obtain ⟨m0, hm0, rfl⟩ := Option.map_eq_some_iff.1 hx
      have hmm := h.node x m0 hm0
      refine ⟨?_, ?_, ?_, ?_⟩
      · rw [I.objects, I.css]
        obtain ⟨o, ho, hsame⟩ := hmm.content
        refine ⟨o, ho, ?_⟩
        cases o <;> exact hsame
      · simp only
        rw [I.children]
        split
        · rename_i e; subst e
          rw [hmm.children, insertChild_eq]
          intro r hr
          exact ⟨(hb.link _ _).mpr (hrp r hr), fun e => href (by rw [hr, e])⟩
        · rw [hmm.children]
      · simp only [I.parent, fupd]
        split
        · rfl
        · exact hmm.parent
      · rw [I.listeners]; exact hmm.callbacks
    · intro x hx
      have : x ≠ c := by rintro rfl; rw [hcr] at hx; cases hx
      simp only [I.parent, fupd, this, if_false]; exact h.rootPar x hx
    · rw [I.objects]; exact h.zero
    · simp only [Debug.step, hcss, I.css]; exact h.css
    · rw [I.objects, I.listeners]; exact h.heard
    · rw [I.listeners]; exact h.ids

theorem DSim.run {full d b b'} (h : DSim full d b) (hb : BInv b) : ∀ cs, Along fragment b cs →
    (full = true → Along styled b cs) → b.run cs = .ok b' → DSim full (d.run cs) b' ∧ BInv b' := by
  intro cs
  induction cs generalizing d b with
  | nil => intro _ _ hr; cases hr; exact ⟨h, hb⟩
  | cons c cs ih =>
    intro hf hst hr
    simp only [Browser.run] at hr
    split at hr
    · cases hr
    rename_i b1 hb1
    exact ih (h.step hb hf.1 (fun e => (hst e).1) hb1) (hb.step hb1) (hf.2 b1 hb1) (fun e => (hst e).2 b1 hb1) hr

/-- **C45** (structure).  For every log of a fragment: the debug fragment has exactly the nodes of the page that
were created and not removed, with the same kind, name and text, the same children in the same order, the same
parent and the same listeners, and the same attributes other than class and style. -/
theorem C45_structure {cs b} (hrun : Browser.init.run cs = .ok b) (hf : Along fragment Browser.init cs) :
    let d := Debug.run {} cs
    (∀ x, d.map x ≠ none ↔ Live b x) ∧
    ∀ x n, d.map x = some n →
      n.children = b.children x ∧ n.parentId = (b.parent x).getD 0 ∧
      (∀ e cb, n.callbacks e = some cb ↔ (cb, x, e) ∈ b.listeners) ∧
      ((∃ attr, b.objects x = some (.element n.name attr) ∧ n.name ≠ "" ∧
          ∀ k, k ≠ "class" → k ≠ "style" → n.attrs k = attr k) ∨
        (n.name = "" ∧ ∃ t, b.objects x = some (.text t) ∧ n.text = some t) ∨
        (n.name = "" ∧ ∃ t, b.objects x = some (.comment t) ∧ n.text = some ("<!-- " ++ t ++ " -->"))) := by
  obtain ⟨h, _⟩ := (dsim_init false).run binv_init cs hf (by simp) hrun
  refine ⟨h.live_iff, fun x n hn => ?_⟩
  have hm := h.node x n hn
  refine ⟨hm.children, hm.parent, hm.callbacks, ?_⟩
  obtain ⟨o, ho, hs⟩ := hm.content
  cases o with
  | element name attr => obtain ⟨rfl, h1, h2, _⟩ := hs; exact .inl ⟨attr, ho, h1, h2⟩
  | text t => exact .inr (.inl ⟨hs.1, t, ho, hs.2⟩)
  | comment t => exact .inr (.inr ⟨hs.1, t, ho, hs.2⟩)

theorem entries_lists {α : Type} (order : List String) (m : String → Option α) (hn : order.Nodup)
    (ho : ∀ k, k ∈ order ↔ m k ≠ none) : Lists (entries order m) m := by
  refine ⟨?_, ?_⟩
  · have hsub : ((entries order m).map (·.1)).Sublist order := by
      unfold entries
      clear hn ho
      induction order with
      | nil => simp
      | cons k l ih =>
        rw [List.filterMap_cons]
        cases m k with
        | none => exact ih.cons k
        | some v => exact ih.cons_cons k
    exact hn.sublist hsub
  · intro k v
    simp only [entries, List.mem_filterMap, Option.map_eq_some_iff, Prod.mk.injEq]
    constructor
    · rintro ⟨a, _, v', hv, rfl, rfl⟩; exact hv
    · intro hv
      exact ⟨k, (ho k).mpr (by rw [hv]; simp), v, hv, rfl, rfl⟩

theorem Shows.append {b : Browser} {x : Id} {s : String} {l : List Id} {t : String} (h : Shows b [x] s)
    (hl : Shows b l t) : Shows b (x :: l) (s ++ t) := by
  cases h with
  | text ho hr => cases hr; simpa using Shows.text ho hl
  | comment ho hr => cases hr; simpa using Shows.comment ho hl
  | element ho ha hc hi hr => cases hr; simpa using Shows.element ho ha hc hi hl

/-- The recursion of `render` ends, and shows the page. -/
theorem DSim.render {d b order ao co} (h : DSim true d b) (hb : BInv b) (hord : Orders d order ao co) :
    ∀ n x l, d.map x ≠ none → Up b.parent x l → b.objs.length < n + l.length →
      ∃ s, d.render ao co n x = some s ∧ Shows b [x] s := by
  intro n
  induction n with
  | zero =>
    intro x l hx hl hlen
    obtain ⟨m, hm⟩ := Option.ne_none_iff_exists'.mp hx
    obtain ⟨o, ho, _⟩ := (h.node x m hm).content
    have h1 := hl.unique (hb.chain_eq ((hb.objs x).mpr (by rw [ho]; simp)))
    have h2 : ∀ n y, (chain b.parent n y).length ≤ n := by
      intro n
      induction n with
      | zero => intro y; simp [chain]
      | succ n ih =>
        intro y; simp only [chain]
        cases b.parent y with
        | none => simp
        | some p => simp [ih p]
    have := h2 b.objs.length x
    rw [← h1] at this
    omega
  | succ n ih =>
    intro x l hx hl hlen
    obtain ⟨m, hm⟩ := Option.ne_none_iff_exists'.mp hx
    have hnode := h.node x m hm
    obtain ⟨o, ho, hs⟩ := hnode.content
    simp only [Debug.render, hm]
    cases o with
    | text t =>
      rw [if_pos hs.1, hs.2]
      exact ⟨_, rfl, by simpa using Shows.text ho .nil⟩
    | comment t =>
      rw [if_pos hs.1, hs.2]
      exact ⟨_, rfl, by simpa using Shows.comment ho .nil⟩
    | element name attr =>
      obtain ⟨rfl, hne, _, hfull⟩ := hs
      rw [if_neg hne]
      have hkids : ∀ l', (∀ c ∈ l', c ∈ b.children x) →
          ∃ ss, collect (d.render ao co n) l' = some ss ∧ Shows b l' (concat ss) := by
        intro l'
        induction l' with
        | nil => intro _; exact ⟨[], rfl, .nil⟩
        | cons c l' ihl =>
          intro hsub
          have hc := hsub c (by simp)
          have hpar := (hb.link _ _).mp hc
          have hlive : d.map c ≠ none := by
            have hcr : isRoot c = false := by
              cases hcr : isRoot c with
              | false => rfl
              | true =>
                rcases h.rootPar c hcr with e | e
                · rw [e] at hpar; cases hpar
                · rw [e] at hpar; cases hpar
                  exact absurd (h.root 1 rfl) hx
            rcases (hb.par _ _ hpar).1 with h1 | h1
            · rw [hcr] at h1; cases h1
            · exact (h.live c hcr).mpr h1
          obtain ⟨s, e1, s1⟩ := ih c (c :: l) hlive (.up hpar hl) (by simp only [List.length_cons]; omega)
          obtain ⟨ss, e2, s2⟩ := ihl fun y hy => hsub y (by simp [hy])
          exact ⟨s :: ss, by simp only [collect, e1, e2], s1.append s2⟩
      rw [hnode.children]
      obtain ⟨ss, e1, s1⟩ := hkids _ fun _ h => h
      simp only [e1]
      refine ⟨_, rfl, ?_⟩
      have ha := entries_lists (ao x) m.attrs (hord.attrNodup x) (hord.attrs x m hm)
      rw [(hfull rfl).1] at ha
      have hc := entries_lists (co x) m.callbacks (hord.callNodup x) (hord.callbacks x m hm)
      have := Shows.element ho ha ⟨hc.1, fun e cb => (hc.2 e cb).trans (hnode.callbacks e cb)⟩ s1 .nil
      rw [(hfull rfl).1]
      rw [String.append_empty] at this
      exact this

theorem root_spec {d : Debug} {order : List Id} (ho : ∀ x, x ∈ order ↔ d.map x ≠ none) :
    match d.root order with
    | some x => ∃ n, d.map x = some n ∧ (n.parentId = 1 ∨
        (n.parentId = 0 ∧ ∀ y m, d.map y = some m → m.parentId ≠ 1))
    | none => ∀ y m, d.map y = some m → m.parentId ≠ 1 ∧ m.parentId ≠ 0 := by
  unfold Debug.root
  simp only
  have key : ∀ p, match order.find? fun x => match d.map x with
      | some n => decide (n.parentId = p)
      | none => false with
    | some x => ∃ n, d.map x = some n ∧ n.parentId = p
    | none => ∀ y m, d.map y = some m → m.parentId ≠ p := by
    intro p
    split
    · rename_i x hx
      have := List.find?_some hx
      cases hm : d.map x with
      | none => simp [hm] at this
      | some n => exact ⟨n, rfl, by simpa [hm] using this⟩
    · rename_i hx
      intro y m hm he
      have := List.find?_eq_none.1 hx y ((ho y).mpr (by rw [hm]; simp))
      simp [hm, he] at this
  have k1 := key 1
  have k0 := key 0
  revert k0 k1
  generalize (order.find? fun x => match d.map x with
      | some n => decide (n.parentId = 1)
      | none => false) = a
  generalize (order.find? fun x => match d.map x with
      | some n => decide (n.parentId = 0)
      | none => false) = c
  intro k1 k0
  cases a with
  | some x =>
    obtain ⟨n, h1, h2⟩ := k1
    exact ⟨n, h1, .inl h2⟩
  | none =>
    cases c with
    | some x =>
      obtain ⟨n, h1, h2⟩ := k0
      exact ⟨n, h1, .inr ⟨h2, k1⟩⟩
    | none => exact fun y m hm => ⟨k1 y m hm, k0 y m hm⟩

/-- **C45** (text).  For every log of a fragment in which the class of a node is set once and after its rule:
whatever the orders of the hash maps are, the text ends and shows a topmost node of the page with everything
below it, or is empty if there is none.
Missing: classes that change (`C45_class_violated`), several listeners for the same event
(`C45_listeners_violated`), logs that create html, head and body (`C45_app_violated`). -/
theorem C45_text_partial {cs b order ao co} (hrun : Browser.init.run cs = .ok b)
    (hf : Along fragment Browser.init cs) (hst : Along styled Browser.init cs)
    (ho : Orders (Debug.run {} cs) order ao co) :
    ∃ text, (∀ n, b.objs.length ≤ n → (Debug.run {} cs).pseudoHtml order ao co n = some text) ∧
      ((∃ x, Top b x ∧ Shows b [x] text) ∨ ((∀ x, ¬ Top b x) ∧ text = "")) := by
  obtain ⟨h, hb⟩ := (dsim_init true).run binv_init cs hf (fun _ => hst) hrun
  generalize Debug.run {} cs = d at *
  have hmono : ∀ n x t, d.render ao co n x = some t → ∀ m, n ≤ m → d.render ao co m x = some t := by
    intro n
    induction n with
    | zero => intro x t h; cases h
    | succ n ih =>
      intro x t h m hm
      cases m with
      | zero => omega
      | succ m =>
        simp only [Debug.render] at h ⊢
        split at h
        · exact h
        · rename_i node e
          split at h
          · rename_i e2; rw [if_pos e2]; exact h
          · rename_i e2
            rw [if_neg e2]
            split at h
            · cases h
            · rename_i ks ek
              have : ∀ (l : List Id) ks, collect (d.render ao co n) l = some ks → collect (d.render ao co m) l = some ks := by
                intro l
                induction l with
                | nil => intro ks h; exact h
                | cons y l ihl =>
                  intro ks h
                  simp only [collect] at h ⊢
                  split at h
                  · rename_i a bs e1 e2
                    rw [ih y a e1 m (by omega), ihl bs e2]; exact h
                  · cases h
              rw [this _ ks ek]; exact h
  have hlive : ∀ y, Live b y → ∃ m, d.map y = some m := fun y hy =>
    Option.ne_none_iff_exists'.mp ((h.live_iff y).mpr hy)
  have hp1 : ∀ y m, d.map y = some m → (m.parentId = 1 ↔ b.parent y = some 1) := by
    intro y m hm
    rw [(h.node y m hm).parent]
    cases b.parent y with
    | none => simp
    | some q => simp
  have hp0 : ∀ y m, d.map y = some m → (m.parentId = 0 ↔ b.parent y = none) := by
    intro y m hm
    rw [(h.node y m hm).parent]
    cases hq : b.parent y with
    | none => simp
    | some q =>
      simp only [Option.getD_some, reduceCtorEq, iff_false]
      rintro rfl
      obtain ⟨_, n, a, e⟩ := hb.par _ _ hq
      rw [h.zero] at e; cases e
  have hs := root_spec ho.nodes
  unfold Debug.pseudoHtml
  cases hr : d.root order with
  | none =>
    rw [hr] at hs
    refine ⟨"", fun _ _ => rfl, .inr ⟨?_, rfl⟩⟩
    rintro x ⟨hx, ht⟩
    obtain ⟨m, hm⟩ := hlive x hx
    obtain ⟨h1, h0⟩ := hs x m hm
    rcases ht with e | ⟨e, _⟩
    · exact h1 ((hp1 x m hm).mpr e)
    · exact h0 ((hp0 x m hm).mpr e)
  | some x =>
    rw [hr] at hs
    obtain ⟨n, hn, hs⟩ := hs
    obtain ⟨l, hl⟩ := hb.forest x
    have hlen : 0 < l.length := by cases hl <;> simp
    obtain ⟨s, e, hsh⟩ := h.render hb ho b.objs.length x l (by rw [hn]; simp) hl (by omega)
    refine ⟨s, fun m hm => hmono _ _ _ e m hm, .inl ⟨x, ⟨(h.live_iff x).mp (by rw [hn]; simp), ?_⟩, hsh⟩⟩
    rcases hs with e | ⟨e, hno⟩
    · exact .inl ((hp1 x n hn).mp e)
    · refine .inr ⟨(hp0 x n hn).mp e, fun y hy he => ?_⟩
      obtain ⟨m, hm⟩ := hlive y hy
      exact hno y m hm ((hp1 y m hm).mpr he)

/-! ## Where the debug rendering differs -/

/-- The class of a node changes: the page has the class `b`, the debug rendering the styles of both. -/
theorem C45_class_violated : ∃ cs b, Browser.init.run cs = .ok b ∧ Along fragment Browser.init cs ∧
    ((b.objects 4).map fun o => classOf (some o)) = some (some "b") ∧
    (((Debug.run {} cs).map 4).map fun n => (n.attrs "class", n.attrs "style")) =
      some (none, some "color: red; color: blue;") := by
  refine ⟨[.insertCss ".a" "color: red; ", .insertCss ".b" "color: blue;", .createNode 4 "div",
    .setAttr 4 "class" "a", .setAttr 4 "class" "b"], _, rfl, ?_, by decide +kernel, by decide +kernel⟩
  refine ⟨rfl, fun _ h => ?_⟩; cases h
  refine ⟨rfl, fun _ h => ?_⟩; cases h
  refine ⟨rfl, fun _ h => ?_⟩; cases h
  refine ⟨rfl, fun _ h => ?_⟩; cases h
  refine ⟨rfl, fun _ h => trivial⟩

/-- The class of a node is removed: the debug rendering keeps it. -/
theorem C45_class_removed_violated : ∃ cs b, Browser.init.run cs = .ok b ∧ Along fragment Browser.init cs ∧
    ((b.objects 4).map fun o => classOf (some o)) = some none ∧
    (((Debug.run {} cs).map 4).map fun n => n.attrs "class") = some (some "a") := by
  refine ⟨[.createNode 4 "div", .setAttr 4 "class" "a", .removeAttr 4 "class"], _, rfl, ?_, by decide +kernel,
    by decide +kernel⟩
  refine ⟨rfl, fun _ h => ?_⟩; cases h
  refine ⟨rfl, fun _ h => ?_⟩; cases h
  refine ⟨rfl, fun _ h => trivial⟩

/-- Two listeners for the same event: the page has both, the debug rendering the last one. -/
theorem C45_listeners_violated : ∃ cs b, Browser.init.run cs = .ok b ∧
    b.listeners = [(1, 4, "click"), (2, 4, "click")] ∧
    (((Debug.run {} cs).map 4).map fun n => n.callbacks "click") = some (some 2) := by
  refine ⟨[.createNode 4 "div", .callbackAdd 4 "click" 1, .callbackAdd 4 "click" 2], _, rfl, by decide +kernel,
    by decide +kernel⟩

/-- The log of a whole application: depending on the order of the hash map, only the head or only the body is
shown. -/
theorem C45_app_violated : ∃ cs b, Browser.init.run cs = .ok b ∧ b.parent 2 = some 1 ∧ b.parent 3 = some 1 ∧
    (Debug.run {} cs).pseudoHtml [1, 2, 3] (fun _ => []) (fun _ => []) 5 = some "<head></head>" ∧
    (Debug.run {} cs).pseudoHtml [3, 2, 1] (fun _ => []) (fun _ => []) 5 = some "<body></body>" := by
  refine ⟨[.createNode 1 "html", .createNode 2 "head", .createNode 3 "body", .insertBefore 1 2 none,
    .insertBefore 1 3 none], _, rfl, by decide +kernel, by decide +kernel, by decide +kernel, by decide +kernel⟩

/-! ## A concrete log -/

/-- A list with two entries that are swapped, a style, a listener, a comment and a removed node. -/
def debugLog : List Cmd :=
  [.createNode 4 "ul", .insertCss ".a" "color: red", .setAttr 4 "class" "a", .setAttr 4 "id" "x",
   .callbackAdd 4 "click" 7, .createNode 5 "li", .createText 6 "one", .insertBefore 5 6 none,
   .insertBefore 4 5 none, .createComment 8 "c", .insertBefore 4 8 (some 5), .createText 9 "gone",
   .insertBefore 4 9 none, .insertBefore 4 5 (some 8), .updateText 6 "two", .removeText 9]

def isOkRun : Except Fail Browser → Bool
  | .ok _ => true
  | .error _ => false

/-- The condition, decided. -/
def along (cond : Browser → Cmd → Bool) : Browser → List Cmd → Bool
  | _, [] => true
  | b, c :: cs => cond b c && match b.step c with
      | .ok b => along cond b cs
      | .error _ => true

theorem along_iff (cond : Browser → Cmd → Bool) : ∀ (cs : List Cmd) (b : Browser),
    along cond b cs = true → Along cond b cs := by
  intro cs
  induction cs with
  | nil => intro _ _; trivial
  | cons c cs ih =>
    intro b h
    simp only [along, Bool.and_eq_true] at h
    refine ⟨h.1, fun b' hb' => ih b' ?_⟩
    rw [hb'] at h; exact h.2

example : isOkRun (Browser.init.run debugLog) = true ∧ Along fragment Browser.init debugLog ∧
    Along styled Browser.init debugLog :=
  ⟨by decide +kernel, along_iff _ _ _ (by decide +kernel), along_iff _ _ _ (by decide +kernel)⟩

example : (Debug.run {} debugLog).pseudoHtml [4, 5, 6, 8] (fun x => if x = 4 then ["style", "id"] else [])
    (fun x => if x = 4 then ["click"] else []) 10 =
    some "<ul style='color: red' id='x' click=7><li>two</li><!-- c --></ul>" := by decide +kernel

end Verif.Dom

/-!
# C90: what the fields of a form show

Sources: `crates/vertigo/src/driver_module/src_js/api_browser/dom/dom.ts:129-165, 211-231, 297-365` (`set_attribute`, `remove_attribute`, `callback_input`, `callback_change`, `callback_add`),
`crates/vertigo/src/dom/dom_element.rs:85-122, 284-312` (`add_attr`, `on_input`, `on_change`), `crates/vertigo/src/dom/dom_element_class.rs:136-160` (`set_attr_value`),
`crates/vertigo/src/computed/computed_box.rs:100-124` (`subscribe`).

An application has fields: `<input>` with plain text (types text, search, tel, password), `<textarea>` and `<select>`, the attribute `value` of which comes from its state, and check boxes with the attribute `checked`.
What a field shows is not its attribute: it is modelled from the HTML Standard (4.10.5.1, 4.10.5.4, 4.10.7, 4.10.11).

Simplifications: the contents of the values of the program are one state; a subscriber is called exactly if the contents it depends on have changed (C07, C70), in the transaction in which the callback runs. An update has been
carried out when the callback returns (C22). The user can only enter what a field can hold. Check boxes are used with `on_change`, not with `on_click`, which prevents the default (C55).
-/
namespace Verif.Host.Fields

/-! ## Model: the browser -/

/-- The kinds of fields. A `<select>` has an option that is selected at first. -/
inductive Kind where
  | input
  | textarea
  | select (first : String)

/-- Replaces `\r\n` and `\r` by `\n` (Infra Standard, normalize newlines). -/
def normalize : List Char → List Char
  | [] => []
  | '\r' :: '\n' :: s => '\n' :: normalize s
  | '\r' :: s => '\n' :: normalize s
  | c :: s => c :: normalize s

/-- What becomes of a text that a field is given: the value sanitization algorithm of plain text (4.10.5.1.2) removes newlines, the API value of a text area (4.10.11) has normalized ones. -/
def Kind.clean : Kind → String → String
  | .input, s => String.ofList (s.toList.filter fun c => c ≠ '\n' ∧ c ≠ '\r')
  | .textarea, s => String.ofList (normalize s.toList)
  | .select _, s => s

/-- A field: its attribute, the value it shows, the dirty value flag, the place of the cursor, and for a text area its default value. -/
structure Field where
  attr : Option String := none
  text : String
  dirty : Bool := false
  cursor : Nat := 0
  default : String := ""

/-- A new field. -/
def Kind.new : Kind → Field
  | .input => { text := "" }
  | .textarea => { text := "" }
  | .select first => { text := first }

/-- `setAttribute("value", v)` and `removeAttribute("value")`: the value of an input follows its attribute until it is dirty (4.10.5.4); the other elements do not have such an attribute. -/
def Field.setAttribute (k : Kind) (f : Field) (v : Option String) : Field :=
  match k with
  | .input => { f with attr := v, text := if f.dirty then f.text else Kind.clean .input (v.getD "") }
  | .textarea => { f with attr := v }
  | .select _ => { f with attr := v }

/-- `node.value = v` (4.10.5.4 mode value, 4.10.11): the value is dirty; if it is another one, the cursor goes to its end. -/
def Field.setValue (k : Kind) (f : Field) (v : String) : Field :=
  let new := k.clean v
  { f with text := new, dirty := true, cursor := if new = f.text then f.cursor else new.length }

/-- `node.defaultValue = v` of a text area (4.10.11). -/
def Field.setDefault (f : Field) (v : String) : Field :=
  { f with default := v, text := if f.dirty then f.text else Kind.clean .textarea v }

/-- `set_attribute` with the name `value`: dom.ts:129-145. -/
def Field.setCommand (k : Kind) (f : Field) (v : String) : Field :=
  let f := f.setAttribute k (some v)
  match k with
  | .input => f.setValue .input v
  | .textarea => (f.setValue .textarea v).setDefault v
  | .select _ => f

/-- `remove_attribute` with the name `value`: dom.ts:147-165. -/
def Field.removeCommand (k : Kind) (f : Field) : Field :=
  let f := f.setAttribute k none
  match k with
  | .input => f.setValue .input ""
  | .textarea => (f.setValue .textarea "").setDefault ""
  | .select _ => f

/-- `set_attr_value`: dom_element_class.rs:148-159. -/
def Field.attrValue (k : Kind) (f : Field) : Option String → Field
  | some v => f.setCommand k v
  | none => f.removeCommand k

/-- The user enters a text, or selects an option. -/
def Field.enter (f : Field) (text : String) (cursor : Nat) : Field := { f with text, cursor, dirty := true }

/-! ## Model: the program -/

/-- An element in the view of the program, for states in `S`: the attribute `value`, `on_input` and `on_change`. -/
structure Element (S : Type) where
  kind : Kind
  value : S → Option String
  onInput : S → String → S
  onChange : S → String → S

/-- The state of the program and the fields. -/
structure Page (S I : Type) where
  state : S
  field : I → Field

/-- The end of a transaction: the subscribers of the attributes that have changed are called (computed_box.rs:106-117). -/
def Page.become (view : I → Element S) (p : Page S I) (state : S) : Page S I :=
  { state, field := fun i => if (view i).value state = (view i).value p.state then p.field i else (p.field i).attrValue (view i).kind ((view i).value state) }

/-- What happens. -/
inductive Step (S I : Type) where
  /-- The user enters something in a field. -/
  | enter (i : I) (text : String) (cursor : Nat)
  /-- The user leaves a field whose text they have changed. -/
  | leave (i : I)
  /-- Any other callback. -/
  | other (f : S → S)

/-- `callback_input` (dom.ts:211-220) does not call the handler of a `<select>`; when an option is selected, `change` follows `input`. -/
def Page.step [DecidableEq I] (view : I → Element S) (p : Page S I) : Step S I → Page S I
  | .enter i text cursor =>
      let q : Page S I := { p with field := fun j => if j = i then (p.field i).enter text cursor else p.field j }
      match (view i).kind with
      | .select _ => q.become view ((view i).onChange p.state text)
      | _ => q.become view ((view i).onInput p.state text)
  | .leave i =>
      match (view i).kind with
      | .select _ => p
      | _ => p.become view ((view i).onChange p.state (p.field i).text)
  | .other f => p.become view (f p.state)

/-- The page when it has been built: each subscriber is called once. -/
def Page.start (view : I → Element S) (state : S) : Page S I :=
  { state, field := fun i => ((view i).kind.new).attrValue (view i).kind ((view i).value state) }

/-- One after the other. -/
def Page.run [DecidableEq I] (view : I → Element S) (p : Page S I) : List (Step S I) → Page S I
  | [] => p
  | s :: l => (p.step view s).run view l

/-! ## Model: check boxes -/

/-- A check box: whether it has the attribute `checked`, whether it is checked, and the dirty checkedness flag (4.10.5.4). -/
structure Box where
  attr : Bool := false
  checked : Bool := false
  dirty : Bool := false

/-- `set_attribute` and `remove_attribute` with the name `checked`: dom.ts:129-131, 147-150. The box follows the attribute until it is dirty. -/
def Box.setAttribute (b : Box) (v : Option String) : Box := { b with attr := v.isSome, checked := if b.dirty then b.checked else v.isSome }

/-- A check box in the view of the program: the attributes `checked` and `value`, and `on_change`. -/
structure BoxElement (S : Type) where
  checked : S → Option String
  value : String
  onChange : S → String → S

/-- The state of the program and the box. -/
structure BoxPage (S : Type) where
  state : S
  box : Box

/-- The end of a transaction, as in `Page.become`. -/
def BoxPage.become (e : BoxElement S) (p : BoxPage S) (state : S) : BoxPage S :=
  { state, box := if e.checked state = e.checked p.state then p.box else p.box.setAttribute (e.checked state) }

/-- What happens: the user clicks the box, or another callback is called. -/
inductive BoxStep (S : Type) where
  | click
  | other (f : S → S)

/-- The handler is given the value of the box, not whether it is checked (dom.ts:222-231). -/
def BoxPage.step (e : BoxElement S) (p : BoxPage S) : BoxStep S → BoxPage S
  | .click => ({ p with box := { p.box with checked := !p.box.checked, dirty := true } } : BoxPage S).become e (e.onChange p.state e.value)
  | .other f => p.become e (f p.state)

/-- The page when it has been built. -/
def BoxPage.start (e : BoxElement S) (state : S) : BoxPage S := { state, box := ({} : Box).setAttribute (e.checked state) }

/-- One after the other. -/
def BoxPage.run (e : BoxElement S) (p : BoxPage S) : List (BoxStep S) → BoxPage S
  | [] => p
  | s :: l => (p.step e s).run e l

/-! ## Model: the page that the server sends -/

/-- A field as the parser of the browser builds it from what the server sends: `value` is written as an attribute (C57), a text area has no text inside and a list its options. -/
def Kind.parsed (k : Kind) (v : Option String) : Field := k.new.setAttribute k v

/-- `From<K: ToString> for AttrValue` (attr_value.rs:11-15) for a truth value: the attribute is set to its text. -/
def flagAttr (b : Bool) : Option String := some (if b then "true" else "false")

/-! ## Specification -/

/-- A field for text. -/
def Kind.IsText : Kind → Prop
  | .select _ => False
  | _ => True

/-- The field shows what the program says. -/
def Shows (view : I → Element S) (p : Page S I) (i : I) : Prop := (p.field i).text = (view i).kind.clean (((view i).value p.state).getD "")

/-- What the program does with a text that is entered in a field for text: afterwards its value is another one than before, or the text that was entered. -/
def Answered (view : I → Element S) (state : S) : Step S I → Prop
  | .enter i text _ =>
      (view i).value ((view i).onInput state text) ≠ (view i).value state ∨ text = (view i).kind.clean (((view i).value ((view i).onInput state text)).getD "")
  | _ => True

/-- All steps of a history are answered. -/
def AllAnswered [DecidableEq I] (view : I → Element S) (p : Page S I) (l : List (Step S I)) : Prop :=
  ∀ l1 s l2, l = l1 ++ s :: l2 → Answered view (p.run view l1).state s

/-- A field that is bound to the state: what is entered becomes its value. -/
def Bound (e : Element S) : Prop := ∀ state text, e.value (e.onInput state text) = some text

/-- The user can enter this. -/
def CanEnter (view : I → Element S) : Step S I → Prop
  | .enter i text _ => (view i).kind.clean text = text
  | _ => True

/-- What the user has selected last. -/
def selected [DecidableEq I] (i : I) (first : String) : List (Step S I) → String
  | [] => first
  | .enter j text _ :: l => if j = i then selected i text l else selected i first l
  | _ :: l => selected i first l

/-- The number of clicks. -/
def clicks : List (BoxStep S) → Nat
  | [] => 0
  | .click :: l => clicks l + 1
  | .other _ :: l => clicks l

/-- The program keeps track of the box: each click changes what it says, and once the box was clicked nothing else does. -/
def Tracks (e : BoxElement S) (clicked : Bool) (state : S) : List (BoxStep S) → Prop
  | [] => True
  | .click :: l => (e.checked (e.onChange state e.value)).isSome = !(e.checked state).isSome ∧ Tracks e true (e.onChange state e.value) l
  | .other f :: l => (clicked = true → (e.checked (f state)).isSome = (e.checked state).isSome) ∧ Tracks e clicked (f state) l

/-! ## Proofs -/

theorem attrValue_text {k : Kind} (hk : k.IsText) (f : Field) (v : Option String) : (f.attrValue k v).text = k.clean (v.getD "") := by
  cases k with
  | select _ => cases hk
  | input => cases v <;> rfl
  | textarea => cases v <;> rfl

theorem attrValue_select {first : String} (f : Field) (v : Option String) : (f.attrValue (.select first) v).text = f.text := by
  cases v <;> rfl

/-- The cursor is only moved if the text changes. -/
theorem attrValue_cursor {k : Kind} (f : Field) (v : Option String) (h : (f.attrValue k v).text = f.text) : (f.attrValue k v).cursor = f.cursor := by
  cases k with
  | select _ => cases v <;> rfl
  | input =>
    cases v with
    | none =>
      simp only [Field.attrValue, Field.removeCommand, Field.setAttribute, Field.setValue] at h ⊢
      apply if_pos
      rw [h]
      split
      · rfl
      · exact h.symm
    | some v =>
      simp only [Field.attrValue, Field.setCommand, Field.setAttribute, Field.setValue] at h ⊢
      apply if_pos
      rw [h]
      split
      · rfl
      · exact h.symm
  | textarea =>
    cases v with
    | none =>
      simp only [Field.attrValue, Field.removeCommand, Field.setAttribute, Field.setValue, Field.setDefault] at h ⊢
      simp_all
    | some v =>
      simp only [Field.attrValue, Field.setCommand, Field.setAttribute, Field.setValue, Field.setDefault] at h ⊢
      simp_all

/-- In a dirty field the cursor goes to the end if the text changes. -/
theorem attrValue_jump {k : Kind} (f : Field) (hd : f.dirty = true) (v : Option String) (h : (f.attrValue k v).text ≠ f.text) :
    (f.attrValue k v).cursor = (f.attrValue k v).text.length := by
  cases k with
  | select _ => exact absurd (attrValue_select f v) h
  | input =>
    cases v with
    | none =>
      simp only [Field.attrValue, Field.removeCommand, Field.setAttribute, Field.setValue] at h ⊢
      simp_all
    | some v =>
      simp only [Field.attrValue, Field.setCommand, Field.setAttribute, Field.setValue] at h ⊢
      simp_all
  | textarea =>
    cases v with
    | none =>
      simp only [Field.attrValue, Field.removeCommand, Field.setAttribute, Field.setValue, Field.setDefault] at h ⊢
      simp_all
    | some v =>
      simp only [Field.attrValue, Field.setCommand, Field.setAttribute, Field.setValue, Field.setDefault] at h ⊢
      simp_all

theorem become_field (view : I → Element S) (p : Page S I) (state : S) (i : I) :
    ((view i).value state = (view i).value p.state ∧ (p.become view state).field i = p.field i) ∨
    ((view i).value state ≠ (view i).value p.state ∧ (p.become view state).field i = (p.field i).attrValue (view i).kind ((view i).value state)) := by
  simp only [Page.become]
  split
  · rename_i h; exact .inl ⟨h, rfl⟩
  · rename_i h; exact .inr ⟨h, rfl⟩

theorem become_shows {view : I → Element S} {p : Page S I} (state : S) {i : I} (hk : (view i).kind.IsText) (h : Shows view p i) : Shows view (p.become view state) i := by
  rcases become_field view p state i with ⟨h1, h2⟩ | ⟨h1, h2⟩
  · unfold Shows at h ⊢
    rw [h2, h]
    show _ = (view i).kind.clean (((view i).value state).getD "")
    rw [h1]
  · unfold Shows
    rw [h2, attrValue_text hk]
    rfl

theorem step_shows [DecidableEq I] {view : I → Element S} {p : Page S I} {s : Step S I} (ha : Answered view p.state s) {i : I} (hk : (view i).kind.IsText) (h : Shows view p i) :
    Shows view (p.step view s) i := by
  cases s with
  | other f => exact become_shows _ hk h
  | leave j =>
    simp only [Page.step]
    split
    · exact h
    · exact become_shows _ hk h
  | enter j text cursor =>
    simp only [Page.step]
    by_cases e : i = j
    · subst e
      have hq : ∀ q : Page S I, q.state = p.state → (q.field i).text = text → Shows view (q.become view ((view i).onInput p.state text)) i := by
        intro q e1 e2
        rcases become_field view q ((view i).onInput p.state text) i with ⟨h1, h2⟩ | ⟨h1, h2⟩
        · unfold Shows
          rw [h2, e2]
          rcases ha with ha | ha
          · rw [e1] at h1; exact absurd h1 ha
          · exact ha
        · unfold Shows
          rw [h2, attrValue_text hk]
          rfl
      split
      · rename_i first e; rw [e] at hk; cases hk
      · apply hq
        · rfl
        · simp [Field.enter]
    · have hq : ∀ state, Shows view ((({ p with field := fun x => if x = j then (p.field j).enter text cursor else p.field x } : Page S I)).become view state) i := by
        intro state
        apply become_shows _ hk
        simp only [Shows, e, if_false]
        exact h
      split <;> exact hq _

theorem run_append [DecidableEq I] (view : I → Element S) (p : Page S I) (l1 l2 : List (Step S I)) : p.run view (l1 ++ l2) = (p.run view l1).run view l2 := by
  induction l1 generalizing p with
  | nil => rfl
  | cons s l ih => exact ih _

theorem enter_field [DecidableEq I] (view : I → Element S) (p : Page S I) (i : I) (text : String) (cursor : Nat) (hk : (view i).kind.IsText) :
    ((view i).value ((view i).onInput p.state text) = (view i).value p.state ∧ (p.step view (.enter i text cursor)).field i = (p.field i).enter text cursor) ∨
    ((view i).value ((view i).onInput p.state text) ≠ (view i).value p.state ∧ (p.step view (.enter i text cursor)).field i =
      ((p.field i).enter text cursor).attrValue (view i).kind ((view i).value ((view i).onInput p.state text))) := by
  simp only [Page.step]
  split
  · rename_i first e; rw [e] at hk; cases hk
  · rcases become_field view { p with field := fun j => if j = i then (p.field i).enter text cursor else p.field j } ((view i).onInput p.state text) i with ⟨h1, h2⟩ | ⟨h1, h2⟩
    · refine .inl ⟨h1, ?_⟩; rw [h2]; simp
    · refine .inr ⟨h1, ?_⟩; rw [h2]; simp

theorem become_still {view : I → Element S} {p : Page S I} {state : S} {i : I} (h : (view i).value state = (view i).value p.state) : (p.become view state).field i = p.field i := by
  rcases become_field view p state i with ⟨_, h2⟩ | ⟨h1, _⟩
  · exact h2
  · exact absurd h h1

/-! ## Theorems -/

/-- **C90**, fields for text: in all histories in which the program answers what is entered, each field shows the value of the program, whatever else happens. -/
theorem C90_shows_partial [DecidableEq I] (view : I → Element S) (state : S) (l : List (Step S I)) (ha : AllAnswered view (Page.start view state) l) {i : I} (hk : (view i).kind.IsText) :
    Shows view ((Page.start view state).run view l) i := by
  have h0 : Shows view (Page.start view state) i := by
    unfold Shows
    simp only [Page.start]
    exact attrValue_text hk _ _
  revert h0 ha
  generalize Page.start view state = p
  induction l generalizing p with
  | nil => intro _ h; exact h
  | cons s l ih =>
    intro ha h
    refine ih (p.step view s) ?_ (step_shows (ha [] s l rfl) hk h)
    intro l1 s' l2 e
    exact ha (s :: l1) s' l2 (by rw [e]; rfl)

/-- **C90**, fields bound to the state (`value={v} on_input={|t| v.set(t)}`), any number of them for the same value: if all fields for text are bound, they show the value of the program in all histories. -/
theorem C90_bound [DecidableEq I] (view : I → Element S) (hb : ∀ i, (view i).kind.IsText ∧ Bound (view i)) (state : S) (l : List (Step S I)) (hl : ∀ s ∈ l, CanEnter view s) (i : I) :
    Shows view ((Page.start view state).run view l) i := by
  apply C90_shows_partial
  · intro l1 s l2 e
    have hs := hl s (by rw [e]; simp)
    cases s with
    | enter j text cursor =>
      right
      rw [(hb j).2]
      exact (show (view j).kind.clean text = text from hs).symm
    | leave j => trivial
    | other f => trivial
  · exact (hb i).1

/-- **C90**, typing: what is entered in a bound field stays as it is, and the cursor stays where it is, in any state of the page. -/
theorem C90_typing [DecidableEq I] (view : I → Element S) (p : Page S I) (i : I) (hk : (view i).kind.IsText) (hb : Bound (view i)) (text : String) (cursor : Nat) (he : CanEnter view (.enter i text cursor)) :
    ((p.step view (.enter i text cursor)).field i).text = text ∧ ((p.step view (.enter i text cursor)).field i).cursor = cursor := by
  rcases enter_field view p i text cursor hk with ⟨_, h⟩ | ⟨_, h⟩
  · rw [h]; exact ⟨rfl, rfl⟩
  · rw [hb] at h
    have ht : ((p.step view (.enter i text cursor)).field i).text = text := by
      rw [h, attrValue_text hk]; exact he
    refine ⟨ht, ?_⟩
    rw [h] at ht ⊢
    exact attrValue_cursor _ _ ht

/-- **C90**, what the program is told: the text that was entered, the text that is in the field when the user leaves it, the option that was selected. -/
theorem C90_told [DecidableEq I] (view : I → Element S) (p : Page S I) (i : I) (text : String) (cursor : Nat) :
    ((view i).kind.IsText → (p.step view (.enter i text cursor)).state = (view i).onInput p.state text ∧
      (p.step view (.leave i)).state = (view i).onChange p.state (p.field i).text) ∧
    (∀ first, (view i).kind = .select first → (p.step view (.enter i text cursor)).state = (view i).onChange p.state text) := by
  constructor
  · intro hk
    simp only [Page.step]
    split
    · rename_i first e; rw [e] at hk; cases hk
    · exact ⟨rfl, rfl⟩
  · intro first e
    simp only [Page.step, e]
    rfl

/-- **C90**, the cursor: whatever the program does by itself, the cursor of a field is only moved if its text changes. -/
theorem C90_cursor [DecidableEq I] (view : I → Element S) (p : Page S I) (i : I) (f : S → S) (h : ((p.step view (.other f)).field i).text = (p.field i).text) :
    ((p.step view (.other f)).field i).cursor = (p.field i).cursor := by
  simp only [Page.step] at h ⊢
  rcases become_field view p (f p.state) i with ⟨_, e⟩ | ⟨_, e⟩
  · rw [e]
  · rw [e] at h ⊢
    exact attrValue_cursor _ _ h

/-- **C90**, violated: a text that the program does not accept, so that its value is the same as before, stays in the field: the field shows something else than the program says, until the value changes or the user enters
something in it, whatever else happens. -/
theorem C90_rejected_violated [DecidableEq I] (view : I → Element S) (p : Page S I) (i : I) (hk : (view i).kind.IsText) (text : String) (cursor : Nat) (hn : ¬ Answered view p.state (.enter i text cursor))
    (l : List (Step S I)) (hl : ∀ text cursor, .enter i text cursor ∉ l)
    (hs : ∀ l1 l2, l = l1 ++ l2 → (view i).value ((p.step view (.enter i text cursor)).run view l1).state = (view i).value p.state) :
    (((p.step view (.enter i text cursor)).run view l).field i).text = text ∧ ¬ Shows view ((p.step view (.enter i text cursor)).run view l) i := by
  simp only [Answered, not_or, Classical.not_not] at hn
  obtain ⟨hn1, hn2⟩ := hn
  have ht : ∀ (l : List (Step S I)) (q : Page S I), (view i).value q.state = (view i).value p.state → (q.field i).text = text → (∀ text cursor, Step.enter i text cursor ∉ l) →
      (∀ l1 l2, l = l1 ++ l2 → (view i).value (q.run view l1).state = (view i).value p.state) → ((q.run view l).field i).text = text := by
    intro l
    induction l with
    | nil => intro q _ h _ _; exact h
    | cons s l ih =>
      intro q hq h hl hs
      have h1 := hs [s] l rfl
      simp only [Page.run] at h1
      refine ih _ h1 ?_ (fun t c hm => hl t c (List.mem_cons_of_mem _ hm)) (fun l1 l2 e => hs (s :: l1) l2 (by rw [e]; rfl))
      have h2 : (view i).value (q.step view s).state = (view i).value q.state := by rw [h1, hq]
      cases s with
      | other f => rw [← h]; exact congrArg Field.text (become_still h2)
      | leave j =>
        simp only [Page.step] at h2 ⊢
        split
        · exact h
        · rename_i hne
          rw [← h]
          refine congrArg Field.text (become_still ?_)
          revert h2
          split
          · rename_i first e; exact absurd e (hne first)
          · exact id
      | enter j t c =>
        have hj : i ≠ j := fun e => hl t c (by rw [e]; simp)
        simp only [Page.step] at h2 ⊢
        split
        · rename_i first e
          rw [e] at h2
          rw [become_still (by exact h2)]
          simp only [hj, if_false]
          exact h
        · rename_i hne
          have h3 : (view i).value ((view j).onInput q.state t) = (view i).value q.state := by
            revert h2
            split
            · rename_i first e; exact absurd e (hne first)
            · exact id
          rw [become_still (by exact h3)]
          simp only [hj, if_false]
          exact h
  have h0 : ((p.step view (.enter i text cursor)).field i).text = text := by
    rcases enter_field view p i text cursor hk with ⟨_, h⟩ | ⟨h, _⟩
    · rw [h]; rfl
    · exact absurd hn1 h
  have h1 := ht l (p.step view (.enter i text cursor)) (hs [] l rfl) h0 hl hs
  refine ⟨h1, ?_⟩
  unfold Shows
  rw [h1, hs l [] (by simp), ← hn1]
  exact hn2

/-- **C90**, violated: if the program changes the text that is entered, the cursor goes to its end. -/
theorem C90_jump_violated [DecidableEq I] (view : I → Element S) (p : Page S I) (i : I) (hk : (view i).kind.IsText) (text : String) (cursor : Nat)
    (hv : (view i).value ((view i).onInput p.state text) ≠ (view i).value p.state)
    (hn : text ≠ (view i).kind.clean (((view i).value ((view i).onInput p.state text)).getD "")) :
    ((p.step view (.enter i text cursor)).field i).cursor = ((p.step view (.enter i text cursor)).field i).text.length := by
  rcases enter_field view p i text cursor hk with ⟨h, _⟩ | ⟨_, h⟩
  · exact absurd h hv
  · rw [h]
    refine attrValue_jump _ rfl _ ?_
    rw [attrValue_text hk]
    exact fun e => hn e.symm

/-- **C90**, violated: a `<select>` shows what the user has selected, or its first option, whatever the program says, in all histories. -/
theorem C90_select_violated [DecidableEq I] (view : I → Element S) (state : S) (i : I) {first : String} (hk : (view i).kind = .select first) (l : List (Step S I)) :
    (((Page.start view state).run view l).field i).text = selected i first l := by
  have hb : ∀ (p : Page S I) state, ((p.become view state).field i).text = (p.field i).text := by
    intro p state
    rcases become_field view p state i with ⟨_, h⟩ | ⟨_, h⟩
    · rw [h]
    · rw [h, hk, attrValue_select]
  have h0 : ((Page.start view state).field i).text = first := by
    simp only [Page.start, hk]
    rw [attrValue_select]
    rfl
  have hg : ∀ (l : List (Step S I)) (q : Page S I) x, (q.field i).text = x → ((q.run view l).field i).text = selected i x l := by
    intro l
    induction l with
    | nil => intro q x hx; exact hx
    | cons s l ih =>
      intro q x hx
      simp only [Page.run]
      cases s with
      | other f => exact ih _ _ (by simp only [Page.step]; rw [hb]; exact hx)
      | leave j =>
        refine ih _ _ ?_
        simp only [Page.step]
        split
        · exact hx
        · rw [hb]; exact hx
      | enter j t c =>
        simp only [selected]
        by_cases e : j = i
        · rw [if_pos e]
          refine ih _ _ ?_
          simp only [Page.step]
          split <;> rw [hb] <;> simp [e, Field.enter]
        · rw [if_neg e]
          refine ih _ _ ?_
          simp only [Page.step]
          split <;> rw [hb] <;> simp only [Ne.symm e, if_false] <;> exact hx
  exact hg l _ _ h0

theorem become_dirty (e : BoxElement S) (p : BoxPage S) (state : S) (hd : p.box.dirty = true) :
    (p.become e state).box.checked = p.box.checked ∧ (p.become e state).box.dirty = true := by
  simp only [BoxPage.become]
  split
  · exact ⟨rfl, hd⟩
  · simp [Box.setAttribute, hd]

theorem become_clean (e : BoxElement S) (p : BoxPage S) (state : S) (hd : p.box.dirty = false) (hc : p.box.checked = (e.checked p.state).isSome) :
    (p.become e state).box.checked = (e.checked state).isSome ∧ (p.become e state).box.dirty = false := by
  simp only [BoxPage.become]
  split
  · rename_i h; rw [h]; exact ⟨hc, hd⟩
  · simp [Box.setAttribute, hd]

/-- **C90**, violated: when the user has clicked a check box, it shows the parity of the clicks, whatever the program says, in all histories. -/
theorem C90_box_violated (e : BoxElement S) (p : BoxPage S) (l : List (BoxStep S)) :
    ((p.step e .click).run e l).box.checked = ((!p.box.checked) ^^ (clicks l % 2 == 1)) := by
  have h : ∀ (l : List (BoxStep S)) (q : BoxPage S), q.box.dirty = true → (q.run e l).box.checked = (q.box.checked ^^ (clicks l % 2 == 1)) := by
    intro l
    induction l with
    | nil => intro q _; simp [BoxPage.run, clicks]
    | cons s l ih =>
      intro q hq
      simp only [BoxPage.run]
      cases s with
      | other f =>
        obtain ⟨h1, h2⟩ := become_dirty e q (f q.state) hq
        rw [ih _ (by simp only [BoxPage.step]; exact h2)]
        simp only [BoxPage.step, h1, clicks]
      | click =>
        obtain ⟨h1, h2⟩ := become_dirty e { q with box := { q.box with checked := !q.box.checked, dirty := true } } (e.onChange q.state e.value) rfl
        rw [ih _ (by simp only [BoxPage.step]; exact h2)]
        simp only [BoxPage.step, h1, clicks]
        rcases Nat.mod_two_eq_zero_or_one (clicks l) with hm | hm
        · have : (clicks l + 1) % 2 = 1 := by omega
          rw [hm, this]; cases q.box.checked <;> rfl
        · have : (clicks l + 1) % 2 = 0 := by omega
          rw [hm, this]; cases q.box.checked <;> rfl
  obtain ⟨h1, h2⟩ := become_dirty e { p with box := { p.box with checked := !p.box.checked, dirty := true } } (e.onChange p.state e.value) rfl
  rw [h l _ (by simp only [BoxPage.step]; exact h2)]
  simp only [BoxPage.step, h1]

/-- **C90**, check boxes: a box is checked exactly if the program says so, in all histories in which the program keeps track of the clicks and does not change the box by itself after the first one. -/
theorem C90_box_partial (e : BoxElement S) (state : S) (l : List (BoxStep S)) (ht : Tracks e false state l) :
    ((BoxPage.start e state).run e l).box.checked = (e.checked ((BoxPage.start e state).run e l).state).isSome := by
  have h : ∀ (l : List (BoxStep S)) (q : BoxPage S), q.box.checked = (e.checked q.state).isSome → Tracks e q.box.dirty q.state l →
      (q.run e l).box.checked = (e.checked (q.run e l).state).isSome := by
    intro l
    induction l with
    | nil => intro q h _; exact h
    | cons s l ih =>
      intro q h ht
      simp only [BoxPage.run]
      cases s with
      | click =>
        obtain ⟨h1, h2⟩ := become_dirty e { q with box := { q.box with checked := !q.box.checked, dirty := true } } (e.onChange q.state e.value) rfl
        apply ih
        · simp only [BoxPage.step]
          rw [h1]
          show (!q.box.checked) = _
          rw [h]
          exact ht.1.symm
        · simp only [BoxPage.step]
          rw [h2]
          exact ht.2
      | other f =>
        cases hd : q.box.dirty with
        | true =>
          obtain ⟨h1, h2⟩ := become_dirty e q (f q.state) hd
          apply ih
          · simp only [BoxPage.step]
            rw [h1, h]
            exact (ht.1 hd).symm
          · simp only [BoxPage.step]
            rw [h2]
            have := ht.2
            rwa [hd] at this
        | false =>
          obtain ⟨h1, h2⟩ := become_clean e q (f q.state) hd h
          apply ih
          · simp only [BoxPage.step]
            exact h1
          · simp only [BoxPage.step]
            rw [h2]
            have := ht.2
            rwa [hd] at this
  refine h l _ ?_ ht
  simp [BoxPage.start, Box.setAttribute]

/-- **C90**, the page of the server: an input shows the value of the program. -/
theorem C90_served_partial (v : Option String) : (Kind.parsed .input v).text = Kind.clean .input (v.getD "") := rfl

/-- **C90**, violated: a text area of the page that the server sends is empty, whatever its value. -/
theorem C90_served_violated (v : Option String) : (Kind.parsed .textarea v).text = "" := rfl

/-- **C90**, violated: `checked={b}` checks the box, also if `b` is false. -/
theorem C90_flag_violated (e : BoxElement S) (b : Bool) (h : ∀ state, e.checked state = flagAttr b) (state : S) : (BoxPage.start e state).box.checked = true := by
  simp [BoxPage.start, Box.setAttribute, h, flagAttr]

/-! ## The theorems apply -/

/-- A box that is never to be checked. -/
example : (BoxPage.start { checked := fun _ : Unit => flagAttr false, value := "on", onChange := fun s _ => s } ()).box.checked = true := by decide +kernel

/-- A field and a text area for one value, as in the demo (input/mod.rs). -/
def both : Bool → Element String := fun i =>
  { kind := if i then .input else .textarea, value := some, onInput := fun _ t => t, onChange := fun s _ => s }

example : ∀ i, (both i).kind.IsText ∧ Bound (both i) := by intro i; cases i <;> exact ⟨trivial, fun _ _ => rfl⟩

example : ∀ s ∈ [Step.enter true "abc" 3, .other (fun s => s ++ "\r\n!"), .enter false "abc\n!?" 6], CanEnter both s := by
  intro s hs
  simp only [List.mem_cons, List.not_mem_nil, or_false] at hs
  rcases hs with rfl | rfl | rfl
  · show Kind.clean .input "abc" = "abc"; decide +kernel
  · trivial
  · show Kind.clean .textarea "abc\n!?" = "abc\n!?"; decide +kernel

example : (((Page.start both "").run both [.enter true "abc" 3, .other (fun s => s ++ "\r\n!")]).field true).text = "abc!" ∧
    (((Page.start both "").run both [.enter true "abc" 3, .other (fun s => s ++ "\r\n!")]).field false).text = "abc\n!" := by decide +kernel

/-- A field that takes at most three characters. -/
def short : Unit → Element String := fun _ =>
  { kind := .input, value := some, onInput := fun s t => if t.length ≤ 3 then t else s, onChange := fun s _ => s }

example : ¬ Answered short "abc" (.enter () "abcd" 4) := by
  show ¬ (some (if "abcd".length ≤ 3 then "abcd" else "abc") ≠ some "abc" ∨ "abcd" = Kind.clean .input (if "abcd".length ≤ 3 then "abcd" else "abc"))
  decide +kernel

example : (((Page.start short "abc").run short [.enter () "abcd" 4]).field ()).text = "abcd" ∧ ((Page.start short "abc").run short [.enter () "abcd" 4]).state = "abc" := by decide +kernel

/-- A field that answers with capital letters: the text is right, the cursor is at its end. -/
def capitals : Unit → Element String := fun _ =>
  { kind := .input, value := some, onInput := fun _ t => t.map Char.toUpper, onChange := fun s _ => s }

example : (((Page.start capitals "AC").run capitals [.enter () "AbC" 2]).field ()).text = "ABC" ∧
    (((Page.start capitals "AC").run capitals [.enter () "AbC" 2]).field ()).cursor = 3 := by decide +kernel

/-- A list to select from: the program says `b`. -/
def choice : Unit → Element String := fun _ => { kind := .select "a", value := some, onInput := fun s _ => s, onChange := fun _ t => t }

example : (((Page.start choice "b").run choice []).field ()).text = "a" := by decide +kernel

/-- A task that is done or not. -/
def done : BoxElement Bool := { checked := fun s => if s then some "checked" else none, value := "on", onChange := fun s _ => !s }

example : Tracks done false false [.other (fun _ => true), .click, .click] := by
  simp [Tracks, done]

/-- Unchecking all tasks does not uncheck this one. -/
example : ((BoxPage.start done false).run done [.click, .other (fun _ => false)]).box.checked = true ∧ ((BoxPage.start done false).run done [.click, .other (fun _ => false)]).state = false := by decide +kernel

end Verif.Host.Fields

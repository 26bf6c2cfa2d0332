/-!
# C90: the options of a select

A select has no working attribute `value` (`C90_select_violated`).  A program chooses the option that is shown by the
attribute `selected` of the options, each of which follows the state (demo/app/src/app/todo/select.rs:3-13, 30-45 is such a
program).  The commands for it are `set_attribute` and `remove_attribute` of dom.ts:130-157, which do not treat the name
specially.  The options are modelled from the HTML Standard (4.10.7 and 4.10.10): `selected` is followed by an option until
the user has picked it.
-/
namespace Verif.Host.Options

variable {S I : Type} [DecidableEq I]

/-! ## Model -/

/-- A select with one line. `shown` is the option whose selectedness is true; `dirty` are the options that the user has
picked (the dirtiness); `attr` are the options with the attribute `selected`. -/
structure Select (I : Type) where
  shown : Option I
  dirty : I → Bool := fun _ => false
  attr : I → Bool := fun _ => false

/-- `set_attribute` with the name `selected` (dom.ts:130-146; HTML Standard 4.10.10): an option that is not dirty is
selected, and the others are not any more. -/
def Select.setSelected (s : Select I) (i : I) : Select I :=
  { s with
    attr := fun j => if j = i then true else s.attr j
    shown := if s.dirty i then s.shown else some i }

/-- `remove_attribute` with the name `selected` (dom.ts:148-157): an option that is not dirty is not selected any more. If
it was the one that was shown, the browser shows a default: the first option in the browsers in use, none by the
letter of the standard. -/
def Select.removeSelected (default : Option I) (s : Select I) (i : I) : Select I :=
  { s with
    attr := fun j => if j = i then false else s.attr j
    shown := if s.dirty i ∨ s.shown ≠ some i then s.shown else default }

/-- The program: which option is the selected one (at most one), and the handler `on_change` of the select, which is told
the option (dom.ts:222-231). -/
structure Program (S I : Type) where
  value : S → Option I
  onChange : S → I → S

/-- The state and the select. -/
structure Page (S I : Type) where
  state : S
  select : Select I

/-- The attribute is taken from the option that was the selected one, if there was one. -/
def Select.take (default : Option I) (s : Select I) : Option I → Select I
  | none => s
  | some i => s.removeSelected default i

/-- The attribute is given to the option that is the selected one. -/
def Select.give (s : Select I) : Option I → Select I
  | none => s
  | some i => s.setSelected i

/-- The end of a transaction: the subscriptions of the attributes whose value is another one are called
(dom_element.rs:101-107), in an order that depends on their ids (`first` says whether the new option comes first). -/
def Page.become (default : Option I) (prog : Program S I) (first : Bool) (p : Page S I) (state : S) : Page S I :=
  { state
    select :=
      if prog.value state = prog.value p.state then p.select
      else if first then (p.select.give (prog.value state)).take default (prog.value p.state)
      else (p.select.take default (prog.value p.state)).give (prog.value state) }

/-- What happens: the user picks another option than the one shown, or another callback is called. -/
inductive Event (S I : Type) where
  | pick (i : I) (first : Bool)
  | other (f : S → S) (first : Bool)

/-- The user agent selects the option that is picked and makes it dirty, then reports `change` (HTML Standard 4.10.7). -/
def Page.step (default : Option I) (prog : Program S I) (p : Page S I) : Event S I → Page S I
  | .pick i first =>
      ({ p with
          select := { p.select with shown := some i, dirty := fun j => if j = i then true else p.select.dirty j } } :
        Page S I).become default prog first (prog.onChange p.state i)
  | .other f first => p.become default prog first (f p.state)

/-- The select when it has been built: the options are inserted with their attributes. -/
def Page.start (default : Option I) (prog : Program S I) (state : S) : Page S I :=
  { state
    select :=
      { shown := match prog.value state with
          | none => default
          | some i => some i
        attr := fun i => decide (prog.value state = some i) } }

/-- One after the other. -/
def Page.run (default : Option I) (prog : Program S I) (p : Page S I) : List (Event S I) → Page S I
  | [] => p
  | e :: l => (p.step default prog e).run default prog l

/-! ## Specification -/

/-- The program accepts what the user picks. -/
def Program.Accepts (prog : Program S I) : Prop := ∀ s i, prog.value (prog.onChange s i) = some i

/-- Whether an option was picked by the user. -/
def picked (i : I) : List (Event S I) → Bool
  | [] => false
  | .pick j _ :: l => decide (i = j) || picked i l
  | .other _ _ :: l => picked i l

/-- The last thing that happened is that the user picked an option. -/
def endsWithPick : List (Event S I) → Bool
  | [] => false
  | [.pick _ _] => true
  | [.other _ _] => false
  | _ :: l => endsWithPick l

/-! ## Proofs -/

theorem become_dirty (default : Option I) (prog : Program S I) (first : Bool) (p : Page S I) (state : S) :
    (p.become default prog first state).select.dirty = p.select.dirty := by
  simp only [Page.become]
  split
  · rfl
  · cases first <;> cases prog.value state <;> cases prog.value p.state <;> rfl

theorem become_attr (default : Option I) (prog : Program S I) (first : Bool) (p : Page S I) (state : S)
    (h : ∀ i, p.select.attr i = decide (prog.value p.state = some i)) (i : I) :
    (p.become default prog first state).select.attr i = decide (prog.value state = some i) := by
  simp only [Page.become]
  split
  · rename_i e; rw [h, e]
  · rename_i hne
    cases first <;> cases hv : prog.value state <;> cases hw : prog.value p.state <;>
      simp_all [Select.give, Select.take, Select.setSelected, Select.removeSelected] <;> grind

/-- A change to an option that is not dirty is shown. -/
theorem become_shown (default : Option I) (prog : Program S I) (first : Bool) (p : Page S I) (state : S) (i : I)
    (hv : prog.value state = some i) (hd : p.select.dirty i = false)
    (h : prog.value p.state = some i → p.select.shown = some i) :
    (p.become default prog first state).select.shown = some i := by
  simp only [Page.become]
  split
  · rename_i e; exact h (e ▸ hv)
  · rename_i hne
    rw [hv] at hne ⊢
    cases hw : prog.value p.state with
    | none => cases first <;> simp [Select.give, Select.take, Select.setSelected, hd]
    | some j =>
      have hij : ¬i = j := fun e => hne (by rw [hw, e])
      cases first <;> simp [Select.give, Select.take, Select.setSelected, Select.removeSelected, hd, hij]

/-- A pick that the program accepts stays. -/
theorem pick_shown (default : Option I) (prog : Program S I) (ha : prog.Accepts) (first : Bool) (p : Page S I) (i : I) :
    (p.step default prog (.pick i first)).select.shown = some i := by
  simp only [Page.step, Page.become]
  split
  · rfl
  · rename_i hne
    rw [ha] at hne ⊢
    cases hw : prog.value p.state with
    | none => cases first <;> simp [Select.give, Select.take, Select.setSelected]
    | some j =>
      have hij : ¬i = j := fun e => hne (by rw [hw, e])
      cases first <;> simp [Select.give, Select.take, Select.setSelected, Select.removeSelected, hij]

theorem run_append (default : Option I) (prog : Program S I) : ∀ (l m : List (Event S I)) (p : Page S I),
    p.run default prog (l ++ m) = (p.run default prog l).run default prog m
  | [], _, _ => rfl
  | _ :: l, m, _ => run_append default prog l m _

theorem run_dirty (default : Option I) (prog : Program S I) (i : I) : ∀ (l : List (Event S I)) (p : Page S I),
    (p.run default prog l).select.dirty i = (p.select.dirty i || picked i l)
  | [], p => by simp [Page.run, picked]
  | .other f first :: l, p => by
      rw [Page.run, run_dirty default prog i l, Page.step, become_dirty, picked]
  | .pick j first :: l, p => by
      rw [Page.run, run_dirty default prog i l, Page.step, become_dirty, picked]
      dsimp only
      by_cases h : i = j <;> simp [h]

theorem run_clean (default : Option I) (prog : Program S I) (ha : prog.Accepts) :
    ∀ (l : List (Event S I)) (p : Page S I),
    (∀ i, prog.value p.state = some i → p.select.dirty i = false → p.select.shown = some i) →
    ∀ i, prog.value (p.run default prog l).state = some i → (p.run default prog l).select.dirty i = false →
      (p.run default prog l).select.shown = some i
  | [], _, h => h
  | e :: l, p, h => by
      rw [Page.run]
      refine run_clean default prog ha l _ ?_
      intro i hv hd
      cases e with
      | pick j first =>
        rw [pick_shown default prog ha]
        have hj : prog.value (prog.onChange p.state j) = some i := hv
        rw [ha] at hj
        exact hj
      | other f first =>
        rw [Page.step, become_dirty] at hd
        exact become_shown default prog first p (f p.state) i hv hd fun hw => h i hw hd

theorem run_attr (default : Option I) (prog : Program S I) : ∀ (l : List (Event S I)) (p : Page S I),
    (∀ i, p.select.attr i = decide (prog.value p.state = some i)) →
    ∀ i, (p.run default prog l).select.attr i = decide (prog.value (p.run default prog l).state = some i)
  | [], _, h => h
  | e :: l, p, h => by
      rw [Page.run]
      refine run_attr default prog l _ ?_
      intro i
      cases e with
      | pick j first =>
        rw [Page.step]
        refine become_attr default prog first _ _ ?_ i
        exact fun i => h i
      | other f first => exact become_attr default prog first _ _ h i

/-! ## C90 -/

/-- **C90, options.** The program accepts what the user picks. After all histories the select shows the option that the
program says, if the user has never picked this option, or if they have just picked it. (Not so otherwise: see below.) -/
theorem C90_options_partial (default : Option I) (prog : Program S I) (ha : prog.Accepts) (state : S)
    (l : List (Event S I)) (i : I) (hv : prog.value ((Page.start default prog state).run default prog l).state = some i)
    (hp : picked i l = false ∨ endsWithPick l = true) :
    ((Page.start default prog state).run default prog l).select.shown = some i := by
  rcases hp with hp | hp
  · refine run_clean default prog ha l _ ?_ i hv ?_
    · intro i hv _
      have hv : prog.value state = some i := hv
      simp [Page.start, hv]
    · rw [run_dirty, hp]; rfl
  · obtain ⟨m, j, first, rfl⟩ : ∃ m j first, l = m ++ [Event.pick j first] := by
      clear hv
      induction l with
      | nil => cases hp
      | cons e l ih =>
        cases l with
        | nil =>
          cases e with
          | pick j first => exact ⟨[], j, first, rfl⟩
          | other f first => cases hp
        | cons e' l =>
          obtain ⟨m, j, first, h⟩ := ih (by cases e <;> exact hp)
          exact ⟨e :: m, j, first, by rw [h]; rfl⟩
    rw [run_append] at hv ⊢
    simp only [Page.run] at hv ⊢
    rw [pick_shown default prog ha]
    generalize (Page.start default prog state).run default prog m = q at hv
    have hj : prog.value (prog.onChange q.state j) = some i := hv
    rw [ha] at hj
    exact hj

/-- **C90, options, the attributes.** The attributes, which is what tests and the server see, are always right: exactly the
option that the program says has `selected`, in all histories, whatever the program accepts. -/
theorem C90_options_attributes (default : Option I) (prog : Program S I) (state : S) (l : List (Event S I)) (i : I) :
    ((Page.start default prog state).run default prog l).select.attr i = true ↔
      prog.value ((Page.start default prog state).run default prog l).state = some i := by
  rw [run_attr default prog l _ (fun _ => rfl) i, decide_eq_true_iff]

/-- **C90 is violated by options that were picked.** For all programs and all histories: once the user has picked an option,
the program cannot choose it any more. When another option is shown and the program changes to the one that was picked,
the select does not show it (unless it is the default that is shown when there is no other). -/
theorem C90_options_violated (default : Option I) (prog : Program S I) (state : S) (l : List (Event S I)) (i : I)
    (hp : picked i l = true) (hd : default ≠ some i)
    (hs : ((Page.start default prog state).run default prog l).select.shown ≠ some i) (f : S → S) (first : Bool)
    (hf : prog.value (f ((Page.start default prog state).run default prog l).state) = some i) :
    ((Page.start default prog state).run default prog (l ++ [.other f first])).select.shown ≠ some i ∧
    prog.value ((Page.start default prog state).run default prog (l ++ [.other f first])).state = some i := by
  have hdirty : ((Page.start default prog state).run default prog l).select.dirty i = true := by
    rw [run_dirty, hp]; simp
  rw [run_append]
  generalize (Page.start default prog state).run default prog l = p at *
  refine ⟨?_, hf⟩
  simp only [Page.run, Page.step, Page.become]
  split
  · exact hs
  · rw [hf]
    cases prog.value p.state with
    | none => cases first <;> simpa [Select.give, Select.take, Select.setSelected, hdirty] using hs
    | some j =>
      cases first <;> simp only [Select.give, Select.take, Select.setSelected, Select.removeSelected, hdirty] <;>
        simp <;> split <;> assumption

/-- The program of demo/app/src/app/todo/select.rs: the state is the value, the handler sets it. -/
def demo : Program Nat Nat := ⟨some, fun _ i => i⟩

/-- The hypotheses are met. The user picks 2, the program goes back to 1 (which is shown), and to 3; the user picks 4. Then
the program chooses 2 again: 0, the first option, is shown when 4 was not picked; and 4 stays when it was. -/
example : demo.Accepts ∧
    let start := Page.start (some 0) demo 1
    (start.run (some 0) demo [.pick 2 true, .other (fun _ => 1) false]).select.shown = some 1 ∧
    picked 1 ([.pick 2 true, .other (fun _ => 1) false] : List (Event Nat Nat)) = false ∧
    (start.run (some 0) demo [.pick 2 true, .other (fun _ => 1) false, .other (fun _ => 2) true]).select.shown = some 0 ∧
    (start.run (some 0) demo [.pick 2 true, .other (fun _ => 3) false, .pick 4 true]).select.shown = some 4 ∧
    (start.run (some 0) demo [.pick 2 true, .other (fun _ => 3) false, .pick 4 true, .other (fun _ => 2) true]).select.shown
      = some 4 :=
  ⟨fun _ _ => rfl, by decide +kernel, by decide +kernel, by decide +kernel, by decide +kernel, by decide +kernel⟩

end Verif.Host.Options

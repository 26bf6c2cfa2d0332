import Verif.View.Props
/-!
# C49 with C21: the commands of a view are sent in batches

The commands are collected and sent in batches, and each batch is sorted before it is sent (dom_command.rs:157-172). This is proved here
to make no difference for the page, wherever one batch ends and the next one begins.
-/
namespace Verif.View
open Verif.Dom

theorem insertBefore_parent {b b' : Browser} {p c ref} (h : b.insertBefore p c ref = .ok b') :
    b'.inMap = b.inMap ∧ ∀ x q, b'.parent x = some q → b.parent x = some q ∨ q = p := by
  have key : ∀ x q, fupd (b.detach c).parent c (some p) x = some q → b.parent x = some q ∨ q = p := by
    intro x q hq
    simp only [detach_parent, fupd] at hq
    split at hq
    · right; simpa using hq.symm
    · left; exact hq
  unfold Browser.insertBefore at h
  split at h
  · split at h
    · cases h
    · split at h
      · cases h; exact ⟨detach_inMap b c, key⟩
      · split at h
        · cases h
        · split at h
          · cases h; exact ⟨rfl, fun x q hq => Or.inl hq⟩
          · cases h; exact ⟨detach_inMap b c, key⟩
  · cases h

theorem insert_get {b b' : Browser} {p c ref} (h : b.step (.insertBefore p c ref) = .ok b') :
    (isRoot p = true ∨ b.inMap p = true) ∧ b.insertBefore p c ref = .ok b' := by
  simp only [Browser.step] at h
  split at h
  · rename_i h1 h2
    refine ⟨(get_of h1).2, ?_⟩
    split at h
    · exact h
    · split at h
      · cases h
      · exact h
  · cases h

theorem create_sends {b b' : Browser} {id o} (h : b.create id o = .ok b') :
    b'.parent = b.parent ∧ (∀ x, b.inMap x = true → b'.inMap x = true) ∧ ∀ x, b.objects x ≠ none → b'.objects x ≠ none ∧ b'.inMap x = b.inMap x := by
  unfold Browser.create at h
  split at h
  · cases h; exact ⟨rfl, fun _ h => h, fun _ h => ⟨h, rfl⟩⟩
  · split at h
    · cases h
    · rename_i h1 h2
      cases h
      refine ⟨rfl, fun x hx => ?_, fun x hx => ?_⟩
      · simp only [fupd]; split
        · rfl
        · exact hx
      · have : x ≠ id := by
          rintro rfl
          apply h2
          cases e : b.objects x with
          | none => exact absurd e hx
          | some _ => rfl
        simp [fupd, this, hx]

/-- A command that removes nothing leaves nothing below a node that was removed. -/
theorem whole_step {b b' : Browser} {c : Cmd} (hr : c.removes = none) (hs : b.step c = .ok b') (h : Whole b) : Whole b' := by
  have same : ∀ b' : Browser, b'.parent = b.parent → b'.inMap = b.inMap → Whole b' := by
    intro b' h1 h2 x q hq; rw [h2]; rw [h1] at hq; exact h x q hq
  have made : ∀ {id o}, b.create id o = .ok b' → Whole b' := by
    intro id o hc x q hq
    obtain ⟨h1, h2, -⟩ := create_sends hc
    rw [h1] at hq
    exact (h x q hq).imp_right (h2 q)
  cases c with
  | createNode id name => exact made hs
  | createText id v => exact made hs
  | createComment id v => exact made hs
  | updateText id v =>
    simp only [Browser.step] at hs
    split at hs <;> cases hs
    exact same _ rfl rfl
  | setAttr id k v =>
    simp only [Browser.step] at hs
    split at hs <;> cases hs
    exact same _ rfl rfl
  | removeAttr id k =>
    simp only [Browser.step] at hs
    split at hs <;> cases hs
    exact same _ rfl rfl
  | removeNode id => cases hr
  | removeText id => cases hr
  | removeComment id => cases hr
  | insertBefore p c ref =>
    obtain ⟨h1, h2⟩ := insert_get hs
    obtain ⟨h3, h4⟩ := insertBefore_parent h2
    intro x q hq
    rw [h3]
    rcases h4 x q hq with h4 | rfl
    · exact h x q h4
    · exact h1
  | insertCss k v => cases hs; exact same _ rfl rfl
  | callbackAdd id e cb =>
    simp only [Browser.step] at hs
    split at hs
    · cases hs; exact h
    · split at hs <;> cases hs
      exact same _ rfl rfl
  | callbackRemove id e cb =>
    simp only [Browser.step] at hs
    split at hs
    · split at hs <;> cases hs
      exact same _ rfl rfl
    · cases hs; exact h

/-- A node that was removed. -/
def Gone (b : Browser) (y : Id) : Prop := b.objects y ≠ none ∧ b.inMap y = false

theorem remove_gone {b b' : Browser} {x} (hs : b.remove x = .ok b') : Gone b' x ∧ ∀ y, Gone b y → Gone b' y := by
  unfold Browser.remove at hs
  split at hs
  · cases hs
  · rename_i o ho
    cases hs
    obtain ⟨h1, -⟩ := get_of ho
    refine ⟨⟨by rw [detach_objects]; simp [h1], by rw [detach_inMap]; simp [fupd]⟩, fun y hy => ⟨by rw [detach_objects]; exact hy.1, ?_⟩⟩
    rw [detach_inMap]
    simp only [fupd]
    split
    · rfl
    · exact hy.2

/-- It stays removed: ids are not used again. -/
theorem gone_step {b b' : Browser} {c : Cmd} {y} (hs : b.step c = .ok b') (h : Gone b y) : Gone b' y := by
  have made : ∀ {id o}, b.create id o = .ok b' → Gone b' y := by
    intro id o hc
    obtain ⟨-, -, h3⟩ := create_sends hc
    exact ⟨(h3 y h.1).1, by rw [(h3 y h.1).2]; exact h.2⟩
  have over : ∀ id o, Gone { b with objects := fupd b.objects id (some o) } y := by
    intro id o
    refine ⟨?_, h.2⟩
    simp only [fupd]
    split
    · simp
    · exact h.1
  cases c with
  | createNode id name => exact made hs
  | createText id v => exact made hs
  | createComment id v => exact made hs
  | updateText id v =>
    simp only [Browser.step] at hs
    split at hs <;> cases hs
    exact over _ _
  | setAttr id k v =>
    simp only [Browser.step] at hs
    split at hs <;> cases hs
    exact over _ _
  | removeAttr id k =>
    simp only [Browser.step] at hs
    split at hs <;> cases hs
    exact over _ _
  | removeNode id => exact (remove_gone hs).2 y h
  | removeText id => exact (remove_gone hs).2 y h
  | removeComment id => exact (remove_gone hs).2 y h
  | insertBefore p c ref =>
    obtain ⟨-, h2⟩ := insert_get hs
    refine ⟨?_, by rw [(insertBefore_parent h2).1]; exact h.2⟩
    have : b'.objects = b.objects := by
      unfold Browser.insertBefore at h2
      split at h2
      · split at h2
        · cases h2
        · split at h2
          · cases h2; exact detach_objects b c
          · split at h2
            · cases h2
            · split at h2
              · cases h2; rfl
              · cases h2; exact detach_objects b c
      · cases h2
    rw [this]; exact h.1
  | insertCss k v => cases hs; exact h
  | callbackAdd id e cb =>
    simp only [Browser.step] at hs
    split at hs
    · cases hs; exact h
    · split at hs <;> cases hs
      exact h
  | callbackRemove id e cb =>
    simp only [Browser.step] at hs
    split at hs
    · split at hs <;> cases hs
      exact h
    · cases hs; exact h

theorem gone_run : ∀ {cs : List Cmd} {b b' : Browser}, b.run cs = .ok b' → (∀ y, Gone b y → Gone b' y) ∧ ∀ y ∈ removedBy cs, Gone b' y
  | [], b, b', h => by cases h; exact ⟨fun _ h => h, fun y hy => by simp [removedBy] at hy⟩
  | c :: cs, b, b', h => by
      simp only [Browser.run] at h
      split at h
      · cases h
      rename_i b1 h1
      obtain ⟨h2, h3⟩ := gone_run h
      refine ⟨fun y hy => h2 y (gone_step h1 hy), fun y hy => ?_⟩
      simp only [removedBy, List.filterMap_cons] at hy
      split at hy
      · exact h3 y hy
      · rename_i x hx
        rcases List.mem_cons.mp hy with rfl | hy
        · exact h2 y (by rw [step_removes hx] at h1; exact (remove_gone h1).1)
        · exact h3 y hy

/-- Whenever something is inserted, it is into a node that is there, and nothing is below a node that was removed. -/
def Inserts (b : Browser) : List Cmd → Prop
  | [] => True
  | c :: cs => (∀ p x ref, c = .insertBefore p x ref → Whole b ∧ (isRoot p = true ∨ b.inMap p = true)) ∧
      ∀ b1, b.step c = .ok b1 → Inserts b1 cs

theorem inserts_append : ∀ {l l' : List Cmd} {b : Browser}, Inserts b (l ++ l') ↔ Inserts b l ∧ ∀ b1, b.run l = .ok b1 → Inserts b1 l'
  | [], l', b => by simp [Inserts, Browser.run]
  | c :: l, l', b => by
      simp only [List.cons_append, Inserts, Browser.run]
      constructor
      · rintro ⟨h1, h2⟩
        refine ⟨⟨h1, fun b1 hb1 => (inserts_append.mp (h2 b1 hb1)).1⟩, fun b2 hb2 => ?_⟩
        split at hb2
        · cases hb2
        · rename_i b1 hb1; exact (inserts_append.mp (h2 b1 hb1)).2 b2 hb2
      · rintro ⟨⟨h1, h2⟩, h3⟩
        refine ⟨h1, fun b1 hb1 => inserts_append.mpr ⟨h2 b1 hb1, fun b2 hb2 => h3 b2 ?_⟩⟩
        rw [hb1]; exact hb2

theorem inserts_removals : ∀ {rs : List Cmd}, (∀ c ∈ rs, c.removes ≠ none) → ∀ b, Inserts b rs
  | [], _, b => trivial
  | c :: rs, h, b => ⟨fun p x ref e => by subst e; exact absurd rfl (h _ List.mem_cons_self), fun b1 _ =>
      inserts_removals (fun c hc => h c (List.mem_cons_of_mem _ hc)) b1⟩

theorem inserts_one {b b1 : Browser} {c : Cmd} (hs : b.step c = .ok b1) (h : Whole b) : Inserts b [c] :=
  ⟨fun p x ref e => by subst e; exact ⟨h, (insert_get hs).1⟩, fun _ _ => trivial⟩

theorem tidy_removes {c : Cmd} (h : Tidy c) : c.removes = none := by cases c <;> first | rfl | cases h

theorem Runs.inserts {b cs b'} (h : Runs b cs b') (hw : Whole b) : Inserts b cs ∧ Whole b' := by
  induction h with
  | nil => exact ⟨trivial, hw⟩
  | cons hs _ ih =>
    obtain ⟨h1, h2⟩ := ih (whole_step (tidy_removes hs.tidy) hs.ok hw)
    refine ⟨⟨fun p x ref e => ?_, fun b1 hb1 => ?_⟩, h2⟩
    · subst e; exact ⟨hw, (insert_get hs.ok).1⟩
    · rw [hs.ok] at hb1; cases hb1; exact h1
  | drop h1 h2 h3 _ ih =>
    obtain ⟨h4, h5⟩ := ih (h3 hw)
    refine ⟨inserts_append.mpr ⟨inserts_removals (fun c hc => ?_) _, fun b1 hb1 => ?_⟩, h5⟩
    · obtain ⟨x, e, -⟩ := h1 c hc; rw [e]; simp
    · rw [h2] at hb1; cases hb1; exact h4

theorem Whole.up {b : Browser} (h : Whole b) {p l} (hl : Up b.parent p l) (hp : isRoot p = true ∨ b.inMap p = true) :
    ∀ y ∈ l, isRoot y = true ∨ b.inMap y = true := by
  induction hl with
  | top _ => intro y hy; rw [List.mem_singleton.mp hy]; exact hp
  | up e _ ih =>
    intro y hy
    rcases List.mem_cons.mp hy with rfl | hy
    · exact hp
    · exact ih (h _ _ e) y hy

theorem Inserts.above {b : Browser} {cs : List Cmd} (h : Inserts b cs) (hroot : ∀ c ∈ cs, ∀ id, c.removes = some id → isRoot id = false) :
    NoInsertBelowRemoved b cs := by
  intro pre p c ref post b1 l e hb1 hl y hy hym
  subst e
  obtain ⟨-, h2⟩ := inserts_append.mp h
  obtain ⟨hw, hp⟩ := (h2 b1 hb1).1 p c ref rfl
  have hg := (gone_run hb1).2 y hym
  obtain ⟨c', hc', e'⟩ := List.mem_filterMap.mp hym
  rcases hw.up hl hp y hy with h3 | h3
  · rw [hroot c' (by simp [hc']) y e'] at h3; cases h3
  · rw [hg.2] at h3; cases h3

/-- The commands of an application after the opening. -/
def Calm (c : Cmd) : Prop := Tidy c ∨ (∃ x, c.removes = some x ∧ isRoot x = false) ∨ c = .insertBefore 1 3 none

theorem Runs.calm {b cs b'} (h : Runs b cs b') : ∀ c ∈ cs, Calm c := by
  induction h with
  | nil => intro c hc; cases hc
  | cons hs _ ih =>
    intro c hc
    rcases List.mem_cons.mp hc with rfl | hc
    · exact Or.inl hs.tidy
    · exact ih c hc
  | drop h1 _ _ _ ih =>
    intro c hc
    rcases List.mem_append.mp hc with hc | hc
    · exact Or.inr (Or.inl (h1 c hc))
    · exact ih c hc

section
variable [DecidableEq V]

/-- All commands that an application sends. -/
def App.sent (σ : S) (views : List (View S V)) (order : List (Inst S V) → List (Inst S V)) (h : List (S × List Sub)) : List Cmd :=
  (App.start σ views).2 ++ ((App.start σ views).1.history order h).2

/-- What is known about the commands of any application, which has made the ids below `next`. -/
structure Stays (all : List Cmd) (next : Nat) (b : Browser) : Prop where
  split : ∃ rest, all = opening ++ rest ∧ (∀ c ∈ rest, Calm c) ∧ .insertBefore 1 3 none ∈ rest
  run : Browser.init.run all = .ok b
  inserts : Inserts Browser.init all
  good : Good b next
  html : b.children 1 = [2, 3]

/-- What is known about them when the view is built in order. -/
structure Sends (views : List (View S V)) (σ : S) (all : List Cmd) (a : App S V) (b : Browser) : Prop where
  split : ∃ rest, all = opening ++ rest ∧ (∀ c ∈ rest, Calm c) ∧ .insertBefore 1 3 none ∈ rest
  run : Browser.init.run all = .ok b
  inserts : Inserts Browser.init all
  agree : Agree views b a
  due : dueAll σ a.body = []

theorem sends {views : List (View S V)} (hok : ∀ v ∈ views, v.Fine) {order : List (Inst S V) → List (Inst S V)}
    (hord : ∀ l, (order l).Perm l) {σ : S} {h : List (S × List Sub)} (hc : Complete order h (App.start σ views).1) :
    ∃ b, Sends views (lastState σ h) (App.sent σ views order h) ((App.start σ views).1.history order h).1 b := by
  obtain ⟨b1, cs, b2, b3, e, h1, h2, h3, ha1, hd1⟩ := start_agrees hok σ
  obtain ⟨b4, hb4, ha2, hd2⟩ := history_agrees hok hord h ha1 hd1 hc
  have e' : App.sent σ views order h = opening ++ (cs ++ .insertBefore 1 3 none :: ((App.start σ views).1.history order h).2) := by
    simp [App.sent, e]
  have hw0 : Whole Browser.init := by
    intro x q hq
    simp only [Browser.init] at hq
    split at hq
    · cases hq; exact Or.inl rfl
    · cases hq
  have hw1 : Inserts Browser.init opening ∧ Whole b1 := by
    obtain ⟨b1', e1, -, hi⟩ := opening_ok
    rw [h1] at e1; cases e1
    have s1 : Browser.init.step (.createNode 1 "html") = .ok Browser.init := rfl
    have s2 : Browser.init.step (.createNode 2 "head") = .ok Browser.init := rfl
    have s3 : ∀ b : Browser, b.step (.createNode 3 "body") = .ok b := fun _ => rfl
    have s4 : Browser.init.step (.insertBefore 1 2 none) = .ok b1 := by
      have h1' := h1
      simp only [opening, Browser.run, s1, s2] at h1'
      split at h1'
      · cases h1'
      · rename_i b0 hb0; rw [s3] at h1'; cases h1'; exact hb0
    refine ⟨?_, whole_step rfl s4 hw0⟩
    unfold opening
    refine ⟨fun _ _ _ e => (by cases e), fun b hb => ?_⟩
    rw [s1] at hb; cases hb
    refine ⟨fun _ _ _ e => (by cases e), fun b hb => ?_⟩
    rw [s2] at hb; cases hb
    refine ⟨fun _ _ _ e => (by cases e; exact ⟨hw0, Or.inl rfl⟩), fun b hb => ?_⟩
    rw [s4] at hb; cases hb
    exact ⟨fun _ _ _ e => (by cases e), fun _ _ => trivial⟩
  obtain ⟨i2, w2⟩ := h2.inserts hw1.2
  obtain ⟨i4, w4⟩ := hb4.inserts (whole_step rfl h3 w2)
  refine ⟨b4, ⟨_, e', ?_, by simp⟩, ?_, ?_, ha2, hd2⟩
  · intro c hc
    rcases List.mem_append.mp hc with hc | hc
    · exact h2.calm c hc
    · rcases List.mem_cons.mp hc with rfl | hc
      · exact Or.inr (Or.inr rfl)
      · exact hb4.calm c hc
  · rw [e']
    simp only [Verif.Dom.run_append, h1, h2.run, Browser.run, h3, hb4.run]
  · rw [e']
    refine inserts_append.mpr ⟨hw1.1, fun b hb => ?_⟩
    rw [h1] at hb; cases hb
    refine inserts_append.mpr ⟨i2, fun b hb => ?_⟩
    rw [h2.run] at hb; cases hb
    refine ⟨fun p x ref e => (by cases e; exact ⟨w2, Or.inl rfl⟩), fun b hb => ?_⟩
    rw [h3] at hb; cases hb
    exact i4

theorem Sends.stays {views : List (View S V)} {σ : S} {all a b} (h : Sends views σ all a b) : Stays all a.next b :=
  ⟨h.split, h.run, h.inserts, h.agree.good, h.agree.html⟩

omit [DecidableEq V] in
/-- No command removes html, head or body. -/
theorem Stays.removes {all next b} (h : Stays all next b) :
    ∀ c ∈ all, ∀ id, c.removes = some id → isRoot id = false := by
  obtain ⟨rest, e, hc, -⟩ := h.split
  intro c hm id hid
  rw [e] at hm
  rcases List.mem_append.mp hm with hm | hm
  · simp only [opening, List.mem_cons, List.not_mem_nil, or_false] at hm
    rcases hm with rfl | rfl | rfl | rfl <;> cases hid
  · rcases hc c hm with h1 | ⟨x, h1, h2⟩ | rfl
    · rw [tidy_removes h1] at hid; cases hid
    · rw [h1] at hid; cases hid; exact h2
    · cases hid

theorem Sends.removes {views : List (View S V)} {σ : S} {all a b} (h : Sends views σ all a b) :
    ∀ c ∈ all, ∀ id, c.removes = some id → isRoot id = false := h.stays.removes

omit [DecidableEq V] in
theorem Stays.batches {all next b} (h : Stays all next b) {batches : List (List Cmd)}
    (hb : batches.flatten = all) : Browser.init.run (batches.map sortCommands).flatten = .ok b := by
  refine C21_sorted_session ⟨[], rfl⟩ (by rw [hb]; exact h.run) (by rw [hb]; exact h.removes) ?_
  intro pre batch post b1 e hb1
  have hi := h.inserts
  rw [← hb, e, List.flatten_append, List.flatten_cons] at hi
  have := (inserts_append.mp ((inserts_append.mp hi).2 b1 hb1)).1
  refine this.above fun c hc => h.removes c ?_
  rw [← hb, e]
  simp [hc]

theorem Sends.batches {views : List (View S V)} {σ : S} {all a b} (h : Sends views σ all a b) {batches : List (List Cmd)}
    (hb : batches.flatten = all) : Browser.init.run (batches.map sortCommands).flatten = .ok b := h.stays.batches hb

/-- **C49 with C21** (partial: `View.Ok`). The commands of the application are sent in batches, and each batch is sorted before it is
sent. Wherever a batch ends and the next one begins, the browser executes all of them without an error, and the page shows the view in the
last state. -/
theorem C49_batches_partial (views : List (View S V)) (hok : ∀ v ∈ views, v.Ok) (order : List (Inst S V) → List (Inst S V))
    (hord : ∀ l, (order l).Perm l) (σ : S) (h : List (S × List Sub)) (hc : Complete order h (App.start σ views).1)
    (batches : List (List Cmd)) (hb : batches.flatten = (App.start σ views).2 ++ ((App.start σ views).1.history order h).2) :
    ∃ b, Browser.init.run (batches.map sortCommands).flatten = .ok b ∧
      b.children 1 = [2, 3] ∧ Shows b (b.children 3) (htmls (lastState σ h) views) := by
  obtain ⟨b, hs⟩ := sends (fun v hv => (hok v hv).fine) hord hc
  refine ⟨b, hs.batches hb, hs.agree.html, ?_⟩
  have := showsAll_of _ hs.agree.holds hs.agree.fits hs.due Shows.nil
  rw [hs.agree.body]
  simpa using this

end

/-- Three batches: the start and one for each transaction. In the second one there are removals before other commands. -/
def exampleBatches : List (List Cmd) :=
  let a := App.start 0 exampleView
  let c := a.1.change 3 List.reverse (dueAll 3 a.1.body).reverse
  let d := c.1.change 2 List.reverse (dueAll 2 c.1.body).reverse
  [a.2, c.2, d.2]

example : ∃ b, Browser.init.run (exampleBatches.map sortCommands).flatten = .ok b ∧
    b.children 1 = [2, 3] ∧ Shows b (b.children 3) (htmls 2 exampleView) :=
  C49_batches_partial exampleView exampleView_ok List.reverse List.reverse_perm 0 exampleHistory exampleHistory_complete exampleBatches
    (by decide +kernel)

example : exampleBatches.map sortCommands ≠ exampleBatches := by decide +kernel

end Verif.View

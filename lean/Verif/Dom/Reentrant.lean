import Verif.Dom.Batch
/-!
# C89: events that the browser reports in the middle of an update

A batch of commands is executed by JavaScript (`dom_bulk_update`, dom.ts:444-480). While a command is executed, the browser can report an event at once: when an element that has the focus is taken out of the document,
Chrome reports `change` and `blur` before `remove()` or `insertBefore()` returns. The listener calls the program (`wasm_callback`, lib.rs:458), which runs the handler in a transaction and sends a batch of its own
(driver.rs:79-81, `flush_dom_changes_inner`, dom.rs:94-109, has taken the commands of the first batch before it has sent them, so that they are not sent again). So the second batch is executed in the middle of the first one.

At which commands events are reported is left open. The page and the commands are those of C21.
-/
namespace Verif.Dom

/-! ## Model -/

/-- The second part of a sorted batch, the removals, with what happens in between: a removal, or an event whose handler sends the commands `cmds`, sorted as in C21: first those that remove nothing, then its removals,
where there can be further events (`inner`). -/
inductive Tail where
  | nil
  | removal (c : Cmd) (k : Tail)
  | event (cmds : List Cmd) (inner k : Tail)

/-- The commands in the order in which JavaScript executes them (dom.ts:449-455). -/
def Tail.executed : Tail → List Cmd
  | .nil => []
  | .removal c k => c :: k.executed
  | .event cmds inner k => cmds.filter (!·.isEvent) ++ inner.executed ++ k.executed

/-- The commands of the events in the order in which the program has issued them. -/
def Tail.issued : Tail → List Cmd
  | .nil => []
  | .removal _ k => k.issued
  | .event cmds inner k => cmds ++ inner.issued ++ k.issued

/-- The removals of the batch itself. -/
def Tail.own : Tail → List Cmd
  | .nil => []
  | .removal c k => c :: k.own
  | .event _ _ k => k.own

/-- The removals of each batch are those of its commands (dom_command.rs:157-172). -/
def Tail.Ok : Tail → Prop
  | .nil => True
  | .removal c k => c.isEvent = true ∧ k.Ok
  | .event cmds inner k => inner.own = cmds.filter (·.isEvent) ∧ inner.Ok ∧ k.Ok

/-! ## Proofs -/

theorem Lag.perm {s t D D'} (h : Lag s t D) (hp : D.Perm D') : Lag s t D' := by
  have hm : ∀ x, x ∈ D ↔ x ∈ D' := fun x => hp.mem_iff
  exact ⟨h.sinv, h.tinv, h.objects, h.objs, h.css, h.listeners, fun x => by rw [h.inMap]; simp only [hm],
    fun x hx => h.gone x ((hm x).mpr hx), fun x hx => h.parent x (fun h' => hx ((hm x).mp h')),
    fun p => by rw [h.children]; simp only [hm], hp.nodup_iff.mp h.nodup⟩

/-- One of the postponed removals. -/
theorem Lag.flushOne {s t id D} (h : Lag s t (id :: D)) : ∃ t', t.remove id = .ok t' ∧ Lag s t' D := by
  obtain ⟨g1, g2, g3⟩ := h.gone id (by simp)
  have hin : t.inMap id = true := by rw [h.inMap]; simp
  have hobj : t.objects id ≠ none := by
    have := h.tinv.inMap id hin
    rwa [h.tinv.objs] at this
  obtain ⟨o, ho⟩ := Option.ne_none_iff_exists'.mp hobj
  have hr : t.remove id = .ok { t.detach id with inMap := fupd t.inMap id false } := by
    unfold Browser.remove Browser.get
    simp only [hin, Bool.or_true, if_true, ho]
    unfold Browser.detach
    simp only
    cases t.parent id <;> rfl
  have hn := List.nodup_cons.mp h.nodup
  refine ⟨_, hr, ⟨h.sinv, h.tinv.remove hr, ?_, ?_, ?_, ?_, ?_, ?_, ?_, ?_, hn.2⟩⟩
  · simp only [detach_objects]; exact h.objects
  · simp only [detach_objs]; exact h.objs
  · simp only [detach_css]; exact h.css
  · simp only [detach_listeners]; exact h.listeners
  · intro x
    simp only [fupd]
    split
    · rename_i e; subst e; simp [g2, hn.1]
    · rename_i e; rw [h.inMap]; simp [e]
  · intro x hx; exact h.gone x (by simp [hx])
  · intro x hx
    simp only [detach_parent, fupd]
    split
    · rename_i e; rw [e, g3]
    · rename_i e; exact h.parent x (by simp [e, hx])
  · intro p
    simp only []
    rw [h.children, h.tinv.detach_children, List.filter_filter]
    apply List.filter_congr
    intro x _
    by_cases e : x = id <;> by_cases e' : x ∈ D <;> simp [e, e']

/-- A batch of which the removals are postponed, while other removals are postponed. -/
theorem Lag.runMore {b s t : Browser} {D : List Id} : ∀ (cs pre : List Cmd), b.run pre = .ok s → Lag s t D → (∀ y ∈ D, y ∈ removedBy pre) →
    (∀ c ∈ cs, ∀ id, c.removes = some id → isRoot id = false) →
    (∀ pre' p c ref post b1 l, pre ++ cs = pre' ++ .insertBefore p c ref :: post → b.run pre' = .ok b1 → Up b1.parent p l → ∀ y ∈ l, y ∉ removedBy pre') →
    ∀ s', s.run cs = .ok s' → ∃ t', t.run (cs.filter (!·.isEvent)) = .ok t' ∧ Lag s' t' (D ++ removedBy cs) := by
  intro cs
  induction cs generalizing s t D with
  | nil =>
    intro pre _ h _ _ _ s' hs
    cases hs
    exact ⟨t, rfl, by simpa [removedBy] using h⟩
  | cons c cs ih =>
    intro pre hpre h hD hroot hno s' hs
    simp only [Browser.run] at hs
    split at hs
    · cases hs
    rename_i s1 h1
    have hpre1 : b.run (pre ++ [c]) = .ok s1 := by
      rw [run_append, hpre]; simp only [Browser.run, h1]
    have happ : pre ++ c :: cs = (pre ++ [c]) ++ cs := by simp
    have hroot' : ∀ c ∈ cs, ∀ id, c.removes = some id → isRoot id = false :=
      fun c' hc' => hroot c' (by simp [hc'])
    have hD' : ∀ y ∈ D, y ∈ removedBy (pre ++ [c]) := fun y hy => by
      have := hD y hy
      simp only [removedBy, List.filterMap_append, List.mem_append] at this ⊢
      exact .inl this
    cases hc : c.removes with
    | none =>
      have hev : c.isEvent = false := by
        cases he : c.isEvent with
        | false => rfl
        | true => obtain ⟨id, e⟩ := (isEvent_iff c).mp he; rw [hc] at e; cases e
      obtain ⟨t1, ht1, hlag⟩ := h.step hc (fun p x ref e l hl y hy hyD => by
        subst e
        exact hno pre p x ref cs s l rfl hpre hl y hy (hD y hyD)) h1
      obtain ⟨t', e1, e2⟩ := ih (pre ++ [c]) hpre1 hlag hD' hroot' (by rw [← happ]; exact hno) s' hs
      refine ⟨t', ?_, ?_⟩
      · rw [List.filter_cons_of_pos (by simp [hev])]
        simp only [Browser.run, ht1]
        exact e1
      · have : removedBy (c :: cs) = removedBy cs := by simp [removedBy, hc]
        rw [this]
        exact e2
    | some id =>
      have hev : c.isEvent = true := (isEvent_iff c).mpr ⟨id, hc⟩
      rw [step_removes hc] at h1
      have hlag := h.remove (hroot c (by simp) id hc) h1
      have hD2 : ∀ y ∈ D ++ [id], y ∈ removedBy (pre ++ [c]) := by
        intro y hy
        rcases List.mem_append.mp hy with hy | hy
        · exact hD' y hy
        · simp only [removedBy, List.filterMap_append, List.mem_append]
          right
          rw [List.mem_singleton.mp hy]
          simp [hc]
      obtain ⟨t', e1, e2⟩ := ih (pre ++ [c]) hpre1 hlag hD2 hroot' (by rw [← happ]; exact hno) s' hs
      refine ⟨t', ?_, ?_⟩
      · rw [List.filter_cons_of_neg (by simp [hev])]
        exact e1
      · have : removedBy (c :: cs) = id :: removedBy cs := by simp [removedBy, hc]
        rw [this]
        simpa using e2

theorem removedBy_filter (cs : List Cmd) : removedBy (cs.filter (·.isEvent)) = removedBy cs := by
  induction cs with
  | nil => rfl
  | cons c cs ih =>
    cases hc : c.isEvent with
    | true => rw [List.filter_cons_of_pos hc]; simp only [removedBy, List.filterMap_cons] at ih ⊢; rw [ih]
    | false =>
      rw [List.filter_cons_of_neg (by simp [hc])]
      have : c.removes = none := by
        cases he : c.removes with
        | none => rfl
        | some id => rw [(isEvent_iff c).mpr ⟨id, he⟩] at hc; cases hc
      simp only [removedBy, List.filterMap_cons, this] at ih ⊢
      exact ih

/-- The second part of a batch. -/
theorem Lag.tail {b : Browser} (tail : Tail) : ∀ {s t : Browser} {E : List Id} (pre : List Cmd), tail.Ok → b.run pre = .ok s → Lag s t (removedBy tail.own ++ E) →
    (∀ y ∈ removedBy tail.own ++ E, y ∈ removedBy pre) →
    (∀ c ∈ tail.issued, ∀ id, c.removes = some id → isRoot id = false) →
    (∀ pre' p c ref post b1 l, pre ++ tail.issued = pre' ++ .insertBefore p c ref :: post → b.run pre' = .ok b1 → Up b1.parent p l → ∀ y ∈ l, y ∉ removedBy pre') →
    ∀ s', s.run tail.issued = .ok s' → ∃ t', t.run tail.executed = .ok t' ∧ Lag s' t' E := by
  induction tail with
  | nil =>
      intro s t E pre _ _ h _ _ _ s' hs
      cases hs
      exact ⟨t, rfl, by simpa [Tail.own, removedBy] using h⟩
  | removal c k ih =>
      intro s t E pre hok hpre h hD hroot hno s' hs
      obtain ⟨id, hid⟩ := (isEvent_iff c).mp hok.1
      have hown : removedBy (Tail.removal c k).own = id :: removedBy k.own := by simp [Tail.own, removedBy, hid]
      rw [hown] at h hD
      obtain ⟨t1, h1, h2⟩ := Lag.flushOne (h : Lag s t (id :: (removedBy k.own ++ E)))
      obtain ⟨t2, h3, h4⟩ := ih pre hok.2 hpre h2 (fun y hy => hD y (List.mem_cons_of_mem _ hy)) hroot hno s' hs
      refine ⟨t2, ?_, h4⟩
      simp only [Tail.executed, Browser.run, step_removes hid, h1]
      exact h3
  | event cmds inner k ihi ihk =>
      intro s t E pre hok hpre h hD hroot hno s' hs
      simp only [Tail.issued] at hroot hno hs
      rw [List.append_assoc, run_append] at hs
      split at hs
      · rename_i s1 hs1
        rw [run_append] at hs
        split at hs
        · rename_i s2 hs2
          have hno1 : ∀ pre' p c ref post b1 l, pre ++ cmds = pre' ++ .insertBefore p c ref :: post → b.run pre' = .ok b1 → Up b1.parent p l → ∀ y ∈ l, y ∉ removedBy pre' := by
            intro pre' p c ref post b1 l e
            exact hno pre' p c ref (post ++ (inner.issued ++ k.issued)) b1 l (by
              rw [List.append_assoc cmds, ← List.append_assoc pre, e]; simp)
          obtain ⟨t1, e1, l1⟩ := Lag.runMore cmds pre hpre h hD (fun c hc => hroot c (by simp [hc])) hno1 s1 hs1
          have hp1 : b.run (pre ++ cmds) = .ok s1 := by rw [run_append, hpre]; exact hs1
          have hr1 : removedBy (pre ++ cmds) = removedBy pre ++ removedBy cmds := by simp [removedBy]
          have hown : removedBy inner.own = removedBy cmds := by rw [hok.1, removedBy_filter]
          have l1' : Lag s1 t1 (removedBy inner.own ++ (removedBy (Tail.event cmds inner k).own ++ E)) := by
            rw [hown]
            exact l1.perm List.perm_append_comm
          obtain ⟨t2, e2, l2⟩ := ihi (pre ++ cmds) hok.2.1 hp1 l1' (by
              intro y hy
              rw [hr1, List.mem_append]
              rcases List.mem_append.mp hy with hy | hy
              · exact .inr (hown ▸ hy)
              · exact .inl (hD y hy)) (fun c hc => hroot c (by simp [hc])) (by
              intro pre' p c ref post b1 l e
              exact hno pre' p c ref (post ++ k.issued) b1 l (by
                rw [← List.append_assoc, ← List.append_assoc, e]; simp)) s2 hs2
          have hp2 : b.run (pre ++ cmds ++ inner.issued) = .ok s2 := by rw [run_append, hp1]; exact hs2
          obtain ⟨t3, e3, l3⟩ := ihk (pre ++ cmds ++ inner.issued) hok.2.2 hp2 l2 (by
              intro y hy
              have := hD y hy
              simp only [removedBy, List.filterMap_append, List.mem_append] at this ⊢
              exact .inl (.inl this)) (fun c hc => hroot c (by simp [hc])) (by
              rw [List.append_assoc, List.append_assoc]
              rw [List.append_assoc] at hno
              exact hno) s' hs
          refine ⟨t3, ?_, l3⟩
          simp only [Tail.executed]
          rw [run_append, run_append, e1]
          simp only
          rw [e2]
          exact e3
        · cases hs
      · cases hs

/-! ## Theorems -/

/-- **C89**, if events are reported at removals only: whatever batches the events cause, and the events in these, the page is that of all commands executed in the order in which the program has issued them, under the conditions
of C21 for all of them together. -/
theorem C89_events_partial {history : List Cmd} {b s : Browser} (hb : Browser.init.run history = .ok b) (cmds : List Cmd) (tail : Tail) (hown : tail.own = cmds.filter (·.isEvent)) (hok : tail.Ok)
    (hs : b.run (cmds ++ tail.issued) = .ok s)
    (hroot : ∀ c ∈ cmds ++ tail.issued, ∀ id, c.removes = some id → isRoot id = false)
    (hno : NoInsertBelowRemoved b (cmds ++ tail.issued)) :
    b.run (cmds.filter (!·.isEvent) ++ tail.executed) = .ok s := by
  have h := Lag.tail (b := b) (.event cmds tail .nil) (s := b) (t := b) (E := []) [] ⟨hown, hok, trivial⟩ rfl
    (by simpa [Tail.own, removedBy] using Lag.start (binv_init.run hb)) (by simp [Tail.own, removedBy])
    (by simpa [Tail.issued] using hroot) (by simpa [Tail.issued, NoInsertBelowRemoved] using hno) s (by simpa [Tail.issued] using hs)
  obtain ⟨t, h1, h2⟩ := h
  have hts := Lag.flush [] (by simp) (by simpa [removedBy] using h2)
  cases hts
  simpa [Tail.executed] using h1

/-- Without events this is what C21 says of the sorted batch. -/
def Tail.plain : List Cmd → Tail
  | [] => .nil
  | c :: cs => .removal c (plain cs)

theorem plain_executed (cs : List Cmd) : (Tail.plain cs).executed = cs := by
  induction cs with
  | nil => rfl
  | cons c cs ih => simp [Tail.plain, Tail.executed, ih]

/-- **C89**: what is executed when there are no events is the batch that is sent. -/
theorem C89_sent (cmds : List Cmd) : cmds.filter (!·.isEvent) ++ (Tail.plain (cmds.filter (·.isEvent))).executed = sortCommands cmds := by
  rw [plain_executed, C21_sort_is_stable]

/-- **C89**, violated: an event that is reported while a node is moved. A list gets a new text and the item with the focus is moved; the handler of its `blur` changes the text, which does not exist yet in the page: the command fails. -/
theorem C89_move_violated : ∃ history outer inner, ∃ k, k ≤ (sortCommands outer).length ∧
    isOkB (Browser.init.run (history ++ outer ++ inner)) = true ∧ isOkB (Browser.init.run (history ++ sortCommands outer ++ sortCommands inner)) = true ∧
    isOkB (Browser.init.run (history ++ ((sortCommands outer).take k ++ sortCommands inner ++ (sortCommands outer).drop k))) = false := by
  exact ⟨[.createNode 4 "ul", .insertBefore 3 4 none, .createNode 5 "input", .insertBefore 4 5 none, .createNode 6 "input", .insertBefore 4 6 none],
    [.insertBefore 4 6 (some 5), .createText 7 "saving", .insertBefore 3 7 none], [.updateText 7 "saved"], 1, by decide +kernel, by decide +kernel, by decide +kernel, by decide +kernel⟩

/-! ## The theorems apply -/

/-- Two items of the list are removed; at the first one an event is reported whose handler adds a text and removes a third item. -/
def eventHistory : List Cmd :=
  [.createNode 4 "ul", .insertBefore 3 4 none, .createNode 5 "li", .insertBefore 4 5 none, .createNode 6 "li", .insertBefore 4 6 none, .createNode 7 "li", .insertBefore 4 7 none]
def eventTail : Tail :=
  .removal (.removeNode 5) (.event [.createText 8 "x", .removeNode 7, .insertBefore 4 8 none] (.removal (.removeNode 7) .nil) (.removal (.removeNode 6) .nil))

example : eventTail.own = [Cmd.removeNode 5, .removeNode 6].filter (·.isEvent) ∧ eventTail.Ok := by
  refine ⟨rfl, rfl, ⟨rfl, ⟨rfl, trivial⟩, rfl, trivial⟩⟩

example : eventTail.executed = [.removeNode 5, .createText 8 "x", .insertBefore 4 8 none, .removeNode 7, .removeNode 6] := rfl

example : isOkB (Browser.init.run (eventHistory ++ ([.removeNode 5, .removeNode 6] ++ eventTail.issued))) = true ∧
    isOkB (Browser.init.run (eventHistory ++ eventTail.executed)) = true ∧
    (match Browser.init.run eventHistory with
      | .ok b => noInsertBelow b [] ([.removeNode 5, .removeNode 6] ++ eventTail.issued)
      | .error _ => false) = true := by decide +kernel

end Verif.Dom

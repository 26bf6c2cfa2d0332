import Verif.Dom.ServerProps
/-!
# C21: a batch may be sorted
-/
namespace Verif.Dom

/-- The node a command removes. -/
def Cmd.removes : Cmd → Option Id
  | .removeNode id => some id
  | .removeText id => some id
  | .removeComment id => some id
  | _ => none

/-- The nodes removed by some commands. -/
def removedBy (cs : List Cmd) : List Id := cs.filterMap Cmd.removes

/-- While the batch is executed in the given order, nothing is inserted into a removed node
or below one.  (`Up f x l`: `l` is `x` and its ancestors.) -/
def NoInsertBelowRemoved (b : Browser) (cs : List Cmd) : Prop :=
  ∀ pre p c ref post b1 l, cs = pre ++ .insertBefore p c ref :: post → b.run pre = .ok b1 →
    Up b1.parent p l → ∀ y ∈ l, y ∉ removedBy pre

theorem isEvent_iff (c : Cmd) : c.isEvent = true ↔ ∃ id, c.removes = some id := by
  cases c <;> simp [Cmd.isEvent, Cmd.removes]

theorem sortLoop_eq : ∀ cs d e, sortLoop cs d e = (d ++ cs.filter (!·.isEvent), e ++ cs.filter (·.isEvent))
  | [], d, e => by simp [sortLoop]
  | c :: cs, d, e => by
      simp only [sortLoop]
      split
      · rename_i h; rw [sortLoop_eq cs]; simp [h]
      · rename_i h; rw [sortLoop_eq cs]; simp [h]

/-- **C21.** Sorting keeps the order of the removals, and of the other commands, and puts
the removals last. -/
theorem C21_sort_is_stable (cs : List Cmd) :
    sortCommands cs = cs.filter (!·.isEvent) ++ cs.filter (·.isEvent) := by
  simp [sortCommands, sortLoop_eq]

/-- `s` is the page after the commands executed so far, `t` is the page without the removals,
`D` has been removed. -/
structure Lag (s t : Browser) (D : List Id) : Prop where
  sinv : BInv s
  tinv : BInv t
  objects : t.objects = s.objects
  objs : t.objs = s.objs
  css : t.css = s.css
  listeners : t.listeners = s.listeners
  inMap : ∀ x, t.inMap x = (s.inMap x || decide (x ∈ D))
  gone : ∀ x ∈ D, isRoot x = false ∧ s.inMap x = false ∧ s.parent x = none
  parent : ∀ x, x ∉ D → t.parent x = s.parent x
  children : ∀ p, s.children p = (t.children p).filter (· ∉ D)
  nodup : D.Nodup

theorem Lag.get {s t D} (h : Lag s t D) {x o} (hg : s.get x = some o) : t.get x = some o ∧ x ∉ D := by
  obtain ⟨h1, h2⟩ := get_of hg
  constructor
  · unfold Browser.get
    rw [h.objects, h1, h.inMap]
    rcases h2 with h2 | h2 <;> simp [h2]
  · intro hd
    obtain ⟨g1, g2, _⟩ := h.gone x hd
    rcases h2 with h2 | h2
    · rw [g1] at h2; cases h2
    · rw [g2] at h2; cases h2

theorem Lag.start {b} (h : BInv b) : Lag b b [] :=
  ⟨h, h, rfl, rfl, rfl, rfl, by simp, by simp, by simp, by simp, by simp⟩

theorem Lag.create {s t D s' id o} (h : Lag s t D) (hs : s.create id o = .ok s') :
    ∃ t', t.create id o = .ok t' ∧ Lag s' t' D := by
  have hs0 := hs
  unfold Browser.create at hs
  split at hs
  · rename_i hr; cases hs; exact ⟨t, by simp [Browser.create, hr], h⟩
  rename_i hr
  split at hs
  · cases hs
  rename_i ho
  have htc : t.create id o = .ok { t with objects := fupd t.objects id (some o), inMap := fupd t.inMap id true, objs := id :: t.objs } := by
    unfold Browser.create; simp only [hr, h.objects]; simp [ho]
  cases hs
  refine ⟨_, htc, h.sinv.create hs0, h.tinv.create htc, ?_, ?_,
    h.css, h.listeners, ?_, ?_, h.parent, h.children, h.nodup⟩
  · simp only [h.objects]
  · simp only [h.objs]
  · intro x
    simp only [fupd]
    split
    · simp
    · exact h.inMap x
  · intro x hx
    obtain ⟨g1, g2, g3⟩ := h.gone x hx
    refine ⟨g1, ?_, g3⟩
    simp only [fupd]
    split
    · rename_i e; subst e
      -- a removed node still is an object
      exfalso
      have := h.tinv.inMap x (by rw [h.inMap]; simp [hx])
      rw [h.tinv.objs, h.objects] at this
      exact this (by simpa using ho)
    · exact g2

theorem Lag.content {s t D id o} (h : Lag s t D) (o' : Content) (ho : s.objects id = some o)
    (he : o'.isElement = o.isElement) :
    Lag { s with objects := fupd s.objects id (some o') } { t with objects := fupd t.objects id (some o') } D :=
  ⟨h.sinv.objects ho he, h.tinv.objects (by rw [h.objects, ho]) he, by simp only [h.objects], h.objs, h.css, h.listeners, h.inMap, h.gone,
    h.parent, h.children, h.nodup⟩

theorem Lag.remove {s t D s' id} (h : Lag s t D) (hr : isRoot id = false) (hs : s.remove id = .ok s') :
    Lag s' t (D ++ [id]) := by
  have hinv := h.sinv.remove hs
  unfold Browser.remove at hs
  split at hs
  · cases hs
  rename_i o hg
  cases hs
  have hin : s.inMap id = true := by
    rcases (get_of hg).2 with h | h
    · rw [hr] at h; cases h
    · exact h
  have hnd : id ∉ D := (h.get hg).2
  have e : ({ s with inMap := fupd s.inMap id false } : Browser).detach id =
      { s.detach id with inMap := fupd s.inMap id false } := by
    unfold Browser.detach
    simp only
    cases s.parent id <;> rfl
  rw [e] at hinv ⊢
  refine ⟨hinv, h.tinv, ?_, ?_, ?_, ?_, ?_, ?_, ?_, ?_, ?_⟩
  · simp only [detach_objects]; exact h.objects
  · simp only [detach_objs]; exact h.objs
  · simp only [detach_css]; exact h.css
  · simp only [detach_listeners]; exact h.listeners
  · intro x
    rw [h.inMap]
    simp only [fupd, List.mem_append, List.mem_singleton]
    by_cases e : x = id
    · subst e; simp [hin]
    · simp [e]
  · intro x hx
    simp only [detach_parent, fupd]
    rcases List.mem_append.mp hx with hx | hx
    · obtain ⟨g1, g2, g3⟩ := h.gone x hx
      refine ⟨g1, ?_, ?_⟩ <;> split <;> first | rfl | assumption
    · simp at hx; subst hx; simp [hr]
  · intro x hx
    simp only [List.mem_append, List.mem_singleton, not_or] at hx
    simp only [detach_parent, fupd, hx.2, if_false]
    exact h.parent x hx.1
  · intro p
    simp only []
    rw [h.sinv.detach_children, h.children, List.filter_filter]
    apply List.filter_congr
    intro x _
    simp only [List.mem_append, List.mem_singleton, not_or]
    by_cases e : x = id <;> by_cases e' : x ∈ D <;> simp [e, e']
  · rw [List.nodup_append]
    exact ⟨h.nodup, by simp, by intro x hx y hy; simp at hy; rintro rfl; exact hnd (hy ▸ hx)⟩

theorem Lag.insert {s t D s' p c ref} (h : Lag s t D)
    (hup : ∀ l, Up s.parent p l → ∀ y ∈ l, y ∉ D)
    (hs : s.step (.insertBefore p c ref) = .ok s') :
    ∃ t', t.step (.insertBefore p c ref) = .ok t' ∧ Lag s' t' D := by
  have hs0 := hs
  have hbr : ∃ po co, s.get p = some po ∧ s.get c = some co ∧ s.insertBefore p c ref = .ok s' ∧
      (∀ r, ref = some r → ∃ ro, s.get r = some ro) := by
    simp only [Browser.step] at hs
    split at hs
    · rename_i po co hp hc
      split at hs
      · exact ⟨po, co, hp, hc, hs, by simp⟩
      · split at hs
        · cases hs
        · rename_i r hr
          refine ⟨po, co, hp, hc, hs, fun r' e => ?_⟩
          cases e
          exact Option.ne_none_iff_exists'.mp (by simpa using hr)
    · cases hs
  obtain ⟨po, co, hp, hc, hins, hrefg⟩ := hbr
  obtain ⟨tp, pD⟩ := h.get hp
  obtain ⟨tc, cD⟩ := h.get hc
  have hchain : chain t.parent t.objs.length p = chain s.parent s.objs.length p := by
    have hps : p ∈ s.objs := (h.sinv.objs p).mpr (by rw [(get_of hp).1]; simp)
    have hU := h.sinv.chain_eq hps
    have hU' : Up t.parent p (chain s.parent s.objs.length p) := hU.congr fun y hy => h.parent y (hup _ hU y hy)
    have hpt : p ∈ t.objs := by rw [h.objs]; exact hps
    exact (h.tinv.chain_eq hpt).unique hU'
  have htget : ∀ r, ref = some r → (t.get r).isNone = false ∧ r ∉ D := by
    intro r e
    obtain ⟨ro, hr⟩ := hrefg r e
    obtain ⟨h1, h2⟩ := h.get hr
    exact ⟨by simp [h1], h2⟩
  -- the insertion in `t` is the raw insertion
  have hraw : t.step (.insertBefore p c ref) = t.insertBefore p c ref := by
    simp only [Browser.step, tp, tc]
    cases ref with
    | none => rfl
    | some r => simp only [(htget r rfl).1]; rfl
  rw [hraw]
  by_cases href : ref = some c
  · -- nothing happens
    subst href
    unfold Browser.insertBefore at hins ⊢
    rw [h.objects, hchain]
    split at hins
    · split at hins
      · cases hins
      rename_i hc'
      simp only at hins
      split at hins
      · cases hins
      rename_i hpar
      simp only [if_true] at hins
      cases hins
      refine ⟨t, ?_, h⟩
      simp only [hc', if_false, h.parent c cD, hpar, if_true]
    · cases hins
  obtain ⟨I, hcc, ⟨n, a, ho⟩, hrp⟩ := h.sinv.inserted href hins
  -- it succeeds
  have hok : ∃ t', t.insertBefore p c ref = .ok t' := by
    unfold Browser.insertBefore
    rw [h.objects, ho, hchain]
    simp only [hcc, if_false]
    cases ref with
    | none => exact ⟨_, rfl⟩
    | some r =>
      simp only [h.parent r (htget r rfl).2, hrp r rfl, ne_eq, not_true, if_false]
      split
      · exact ⟨_, rfl⟩
      · exact ⟨_, rfl⟩
  obtain ⟨t', ht'⟩ := hok
  obtain ⟨J, _, _, _⟩ := h.tinv.inserted href ht'
  refine ⟨t', ht', h.sinv.step hs0, h.tinv.step (by rw [hraw]; exact ht'), ?_, ?_, ?_, ?_, ?_, ?_, ?_, ?_, h.nodup⟩
  · rw [J.objects, I.objects, h.objects]
  · rw [J.objs, I.objs, h.objs]
  · rw [J.css, I.css, h.css]
  · rw [J.listeners, I.listeners, h.listeners]
  · intro x; rw [J.inMap, I.inMap]; exact h.inMap x
  · intro x hx
    obtain ⟨g1, g2, g3⟩ := h.gone x hx
    refine ⟨g1, by rw [I.inMap]; exact g2, ?_⟩
    rw [I.parent]
    have : x ≠ c := by rintro rfl; exact cD hx
    simp only [fupd, this, if_false]; exact g3
  · intro x hx
    rw [J.parent, I.parent]
    simp only [fupd]
    split
    · rfl
    · exact h.parent x hx
  · intro q
    rw [I.children, J.children]
    split
    · rw [h.children p]
      exact (listInsert_filter (k := fun x => decide (x ∉ D)) (k' := fun x => decide (x ∉ D)) (by simpa using cD) (fun _ _ => rfl)
        (fun r e => ⟨by simpa using (htget r e).2, fun e' => href (by rw [e, e'])⟩)).symm
    · rw [h.children q, filter_comm']

/-- Commands other than removals. -/
theorem Lag.step {s t D s' c} (h : Lag s t D) (hc : c.removes = none)
    (hup : ∀ p x ref, c = .insertBefore p x ref → ∀ l, Up s.parent p l → ∀ y ∈ l, y ∉ D)
    (hs : s.step c = .ok s') : ∃ t', t.step c = .ok t' ∧ Lag s' t' D := by
  cases c with
  | createNode id name => exact h.create hs
  | createText id name => exact h.create hs
  | createComment id name => exact h.create hs
  | removeNode id => simp [Cmd.removes] at hc
  | removeText id => simp [Cmd.removes] at hc
  | removeComment id => simp [Cmd.removes] at hc
  | updateText id v =>
    simp only [Browser.step] at hs ⊢
    split at hs
    · rename_i hg
      cases hs
      rw [(h.get hg).1]
      exact ⟨_, rfl, h.content _ (get_of hg).1 rfl⟩
    · cases hs
  | setAttr id n v =>
    simp only [Browser.step] at hs ⊢
    split at hs
    · rename_i hg
      cases hs
      rw [(h.get hg).1]
      exact ⟨_, rfl, h.content _ (get_of hg).1 rfl⟩
    · cases hs
  | removeAttr id n =>
    simp only [Browser.step] at hs ⊢
    split at hs
    · rename_i hg
      cases hs
      rw [(h.get hg).1]
      exact ⟨_, rfl, h.content _ (get_of hg).1 rfl⟩
    · cases hs
  | insertBefore p c ref => exact h.insert (hup p c ref rfl) hs
  | insertCss sel v =>
    have hi := h.sinv.step hs
    cases hs
    exact ⟨_, rfl, hi, h.tinv.step (c := .insertCss sel v) rfl, h.objects, h.objs, by simp only [h.css], h.listeners, h.inMap, h.gone,
      h.parent, h.children, h.nodup⟩
  | callbackAdd id e cb =>
    have hi := h.sinv.step hs
    have key : ∀ t', t.step (.callbackAdd id e cb) = .ok t' → t' = { t with listeners := s'.listeners } →
        s' = { s with listeners := s'.listeners } → ∃ t', t.step (.callbackAdd id e cb) = .ok t' ∧ Lag s' t' D := by
      intro t' h1 h2 h3
      have ht := h.tinv.step h1
      subst h2
      rw [h3] at hi ⊢
      exact ⟨_, h1, hi, ht, h.objects, h.objs, h.css, rfl, h.inMap, h.gone, h.parent, h.children, h.nodup⟩
    simp only [Browser.step] at hs
    split at hs
    · rename_i hany
      cases hs
      refine key t ?_ ?_ rfl
      · simp only [Browser.step, h.listeners, hany, if_true]
      · rw [← h.listeners]
    · rename_i hany
      split at hs
      · rename_i hg
        cases hs
        refine key _ ?_ rfl rfl
        simp only [Browser.step, h.listeners, hany]
        have : (e = "hook_keydown" || (t.get id).isSome) = true := by
          simp only [Bool.or_eq_true, decide_eq_true_eq] at hg ⊢
          rcases hg with hg | hg
          · exact Or.inl hg
          · obtain ⟨o, ho⟩ := Option.isSome_iff_exists.mp hg
            exact Or.inr (by rw [(h.get ho).1]; rfl)
        simp only [this, if_true]; rfl
      · cases hs
  | callbackRemove id e cb =>
    have hi := h.sinv.step hs
    have key : ∀ t', t.step (.callbackRemove id e cb) = .ok t' → t' = { t with listeners := s'.listeners } →
        s' = { s with listeners := s'.listeners } → ∃ t', t.step (.callbackRemove id e cb) = .ok t' ∧ Lag s' t' D := by
      intro t' h1 h2 h3
      have ht := h.tinv.step h1
      subst h2
      rw [h3] at hi ⊢
      exact ⟨_, h1, hi, ht, h.objects, h.objs, h.css, rfl, h.inMap, h.gone, h.parent, h.children, h.nodup⟩
    simp only [Browser.step] at hs
    split at hs
    · rename_i hany
      split at hs
      · rename_i hg
        cases hs
        refine key _ ?_ rfl rfl
        simp only [Browser.step, h.listeners, hany, if_true]
        have : (e = "hook_keydown" || (t.get id).isSome) = true := by
          simp only [Bool.or_eq_true, decide_eq_true_eq] at hg ⊢
          rcases hg with hg | hg
          · exact Or.inl hg
          · obtain ⟨o, ho⟩ := Option.isSome_iff_exists.mp hg
            exact Or.inr (by rw [(h.get ho).1]; rfl)
        simp only [this, if_true]
      · cases hs
    · rename_i hany
      cases hs
      refine key t ?_ ?_ rfl
      · simp only [Browser.step, h.listeners, hany, if_false, Bool.false_eq_true]
      · rw [← h.listeners]

theorem step_removes {c : Cmd} {id} (h : c.removes = some id) (b : Browser) : b.step c = b.remove id := by
  cases c <;> simp [Cmd.removes] at h <;> subst h <;> rfl

theorem run_append (b : Browser) (l l' : List Cmd) :
    b.run (l ++ l') = match b.run l with | .ok b => b.run l' | .error e => .error e := by
  induction l generalizing b with
  | nil => rfl
  | cons c l ih =>
    simp only [List.cons_append, Browser.run]
    cases b.step c with
    | error e => rfl
    | ok b => exact ih b

/-- The postponed removals. -/
theorem Lag.flush {s t} : ∀ (cs : List Cmd), (∀ c ∈ cs, c.removes ≠ none) → Lag s t (removedBy cs) →
    t.run cs = .ok s := by
  intro cs
  induction cs generalizing t with
  | nil =>
    intro _ h
    have : t = s := by
      have h1 : t.inMap = s.inMap := by funext x; rw [h.inMap]; simp [removedBy]
      have h2 : t.parent = s.parent := by funext x; exact h.parent x (by simp [removedBy])
      have h3 : t.children = s.children := by funext p; rw [h.children]; simp [removedBy]
      have := h.objects; have := h.objs; have := h.css; have := h.listeners
      cases s; cases t; simp_all
    subst this; rfl
  | cons c cs ih =>
    intro hc h
    obtain ⟨id, hid⟩ := Option.ne_none_iff_exists'.mp (hc c (by simp))
    have hD : removedBy (c :: cs) = id :: removedBy cs := by simp [removedBy, hid]
    rw [hD] at h
    simp only [Browser.run, step_removes hid]
    obtain ⟨g1, g2, g3⟩ := h.gone id (by simp)
    have hin : t.inMap id = true := by rw [h.inMap]; simp
    have hobj : t.objects id ≠ none := by
      have := h.tinv.inMap id hin
      rwa [h.tinv.objs] at this
    obtain ⟨o, ho⟩ := Option.ne_none_iff_exists'.mp hobj
    have hr : t.remove id = .ok { t.detach id with inMap := fupd t.inMap id false } := by
      unfold Browser.remove Browser.get
      simp only [hin, Bool.or_true, if_true, ho]
      unfold Browser.detach
      simp only
      cases t.parent id <;> rfl
    rw [hr]
    simp only
    have hn := List.nodup_cons.mp h.nodup
    refine ih (fun c hc' => hc c (by simp [hc'])) ⟨h.sinv, h.tinv.remove hr, ?_, ?_, ?_, ?_, ?_, ?_, ?_, ?_, hn.2⟩
    · simp only [detach_objects]; exact h.objects
    · simp only [detach_objs]; exact h.objs
    · simp only [detach_css]; exact h.css
    · simp only [detach_listeners]; exact h.listeners
    · intro x
      simp only [fupd]
      split
      · rename_i e; subst e; simp [g2, hn.1]
      · rename_i e; rw [h.inMap]; simp [e]
    · intro x hx; exact h.gone x (by simp [hx])
    · intro x hx
      simp only [detach_parent, fupd]
      split
      · rename_i e; rw [e, g3]
      · rename_i e; exact h.parent x (by simp [e, hx])
    · intro p
      simp only []
      rw [h.children, h.tinv.detach_children, List.filter_filter]
      apply List.filter_congr
      intro x _
      by_cases e : x = id <;> by_cases e' : x ∈ removedBy cs <;> simp [e, e']

theorem Lag.run {b s t} : ∀ (cs pre : List Cmd), b.run pre = .ok s → Lag s t (removedBy pre) →
    (∀ c ∈ cs, ∀ id, c.removes = some id → isRoot id = false) →
    NoInsertBelowRemoved b (pre ++ cs) →
    ∀ s', s.run cs = .ok s' → ∃ t', t.run (cs.filter (!·.isEvent)) = .ok t' ∧ Lag s' t' (removedBy (pre ++ cs)) := by
  intro cs
  induction cs generalizing s t with
  | nil =>
    intro pre _ h _ _ s' hs
    cases hs
    exact ⟨t, rfl, by simpa using h⟩
  | cons c cs ih =>
    intro pre hpre h hroot hno s' hs
    simp only [Browser.run] at hs
    split at hs
    · cases hs
    rename_i s1 h1
    have hpre1 : b.run (pre ++ [c]) = .ok s1 := by
      rw [run_append, hpre]; simp only [Browser.run, h1]
    have happ : pre ++ c :: cs = (pre ++ [c]) ++ cs := by simp
    have hroot' : ∀ c ∈ cs, ∀ id, c.removes = some id → isRoot id = false :=
      fun c' hc' => hroot c' (by simp [hc'])
    rw [happ] at hno ⊢
    cases hc : c.removes with
    | none =>
      have hev : c.isEvent = false := by
        cases he : c.isEvent with
        | false => rfl
        | true => obtain ⟨id, e⟩ := (isEvent_iff c).mp he; rw [hc] at e; cases e
      obtain ⟨t1, ht1, hlag⟩ := h.step hc (fun p x ref e l hl => by
        subst e
        exact hno pre p x ref cs s l (by simp) hpre hl) h1
      have hD : removedBy (pre ++ [c]) = removedBy pre := by simp [removedBy, hc]
      rw [← hD] at hlag
      obtain ⟨t', e1, e2⟩ := ih (pre ++ [c]) hpre1 hlag hroot' hno s' hs
      refine ⟨t', ?_, e2⟩
      rw [List.filter_cons_of_pos (by simp [hev])]
      simp only [Browser.run, ht1]
      exact e1
    | some id =>
      have hev : c.isEvent = true := (isEvent_iff c).mpr ⟨id, hc⟩
      rw [step_removes hc] at h1
      have hlag := h.remove (hroot c (by simp) id hc) h1
      have hD : removedBy (pre ++ [c]) = removedBy pre ++ [id] := by simp [removedBy, hc]
      rw [← hD] at hlag
      obtain ⟨t', e1, e2⟩ := ih (pre ++ [c]) hpre1 hlag hroot' hno s' hs
      refine ⟨t', ?_, e2⟩
      rw [List.filter_cons_of_neg (by simp [hev])]
      exact e1

/-- **C21.** On every page that commands can produce: if a batch can be executed in the given
order (without an exception; in particular no id is used for a new node or otherwise after it
has been removed), does not remove html, head or body and inserts nothing below removed nodes,
then the sorted batch can be executed as well and gives exactly the same page. -/
theorem C21_sorted_batch {history cs b s} (hb : Browser.init.run history = .ok b)
    (hs : b.run cs = .ok s)
    (hroot : ∀ c ∈ cs, ∀ id, c.removes = some id → isRoot id = false)
    (hno : NoInsertBelowRemoved b cs) :
    b.run (sortCommands cs) = .ok s := by
  have inv := binv_init.run hb
  obtain ⟨t', e1, hlag⟩ := Lag.run (b := b) cs [] rfl (Lag.start inv) hroot hno s hs
  rw [C21_sort_is_stable, run_append, e1]
  simp only
  have : removedBy ([] ++ cs) = removedBy (cs.filter (·.isEvent)) := by
    simp only [removedBy, List.nil_append]
    clear hs hroot hno e1 hlag
    induction cs with
    | nil => rfl
    | cons c cs ih =>
      cases hc : c.isEvent with
      | true => rw [List.filter_cons_of_pos hc]; simp only [List.filterMap_cons, ih]
      | false =>
        rw [List.filter_cons_of_neg (by simp [hc])]
        have : c.removes = none := by
          cases he : c.removes with
          | none => rfl
          | some id => rw [(isEvent_iff c).mpr ⟨id, he⟩] at hc; cases hc
        simp only [List.filterMap_cons, this, ih]
  rw [this] at hlag
  refine hlag.flush _ fun c hc => ?_
  simp only [List.mem_filter] at hc
  obtain ⟨id, e⟩ := (isEvent_iff c).mp hc.2
  simp [e]

/-- The same for a whole session: every batch is sorted before it is sent. The page is the
one that unsorted execution of all commands gives. -/
theorem C21_sorted_session : ∀ {b : Browser} {batches : List (List Cmd)} {s : Browser} (_ : ∃ history, Browser.init.run history = .ok b),
    b.run batches.flatten = .ok s →
    (∀ c ∈ batches.flatten, ∀ id, c.removes = some id → isRoot id = false) →
    (∀ pre batch post b1, batches = pre ++ batch :: post → b.run pre.flatten = .ok b1 → NoInsertBelowRemoved b1 batch) →
    b.run (batches.map sortCommands).flatten = .ok s := by
  intro b batches
  induction batches generalizing b with
  | nil => intro s _ h _ _; exact h
  | cons x rest ih =>
    intro s ⟨history, hh⟩ h hroot hno
    simp only [List.flatten_cons, List.map_cons] at h ⊢
    rw [run_append] at h ⊢
    split at h
    · rename_i b1 hb1
      have := C21_sorted_batch hh hb1 (fun c hc => hroot c (by simp [hc])) (hno [] x rest b rfl rfl)
      rw [this]
      refine ih ⟨history ++ x, ?_⟩ h (fun c hc => hroot c (by rw [List.flatten_cons]; exact List.mem_append_right _ hc)) ?_
      · rw [run_append, hh]; exact hb1
      · intro pre batch post b2 e hb2
        refine hno (x :: pre) batch post b2 (by rw [e]; rfl) ?_
        rw [List.flatten_cons, run_append, hb1]; exact hb2
    · cases h

/-! ## Concrete batches -/

/-- Two list entries are replaced: removal and insertion are mixed. -/
def exampleBatch : List Cmd :=
  [.removeText 6, .removeNode 5, .createNode 10 "li", .insertBefore 4 10 (some 9), .removeComment 9,
   .createText 11 "x", .insertBefore 10 11 none, .insertBefore 3 10 none, .insertBefore 4 10 none]

def isOkB : Except Fail Browser → Bool
  | .ok _ => true
  | .error _ => false

/-- It is executed in both orders, with the same result. -/
example : Browser.shown (Browser.init.run (exampleStream ++ exampleBatch)) 12 =
      some "<html><head></head><body><ul class=b><li>x</li></ul></body></html>" ∧
    Browser.shown (Browser.init.run (exampleStream ++ sortCommands exampleBatch)) 12 =
      some "<html><head></head><body><ul class=b><li>x</li></ul></body></html>" ∧
    sortCommands exampleBatch ≠ exampleBatch := by
  decide +kernel

/-- Boolean version of `NoInsertBelowRemoved`, for examples. -/
def noInsertBelow (b : Browser) (D : List Id) : List Cmd → Bool
  | [] => true
  | c :: cs =>
      (match c with
        | .insertBefore p _ _ => (chain b.parent (b.objs.length + 1) p).all (· ∉ D)
        | _ => true) &&
      match b.step c with
      | .ok b => noInsertBelow b (D ++ (c.removes.toList)) cs
      | .error _ => true

theorem noInsertBelow_iff {b0 b : Browser} (inv : BInv b) : ∀ (cs pre : List Cmd), b0.run pre = .ok b →
    noInsertBelow b (removedBy pre) cs = true →
    ∀ pre' p c ref post b1 l, cs = pre' ++ .insertBefore p c ref :: post → b.run pre' = .ok b1 →
      isOkB (b1.step (.insertBefore p c ref)) = true →
      Up b1.parent p l → ∀ y ∈ l, y ∉ removedBy (pre ++ pre') := by
  intro cs
  induction cs generalizing b with
  | nil => intro pre _ _ pre' p c ref post b1 l e; cases pre' <;> cases e
  | cons c cs ih =>
    intro pre hpre h pre' p x ref post b1 l e hb1 hok hl
    simp only [noInsertBelow, Bool.and_eq_true] at h
    cases pre' with
    | nil =>
      simp only [List.nil_append, List.cons.injEq] at e
      obtain ⟨rfl, rfl⟩ := e
      cases hb1
      have h1 := h.1
      simp only [List.all_eq_true, decide_eq_true_eq] at h1
      have hp : p ∈ b.objs := by
        simp only [Browser.step] at hok
        split at hok
        · rename_i po co hp hc
          exact (inv.objs p).mpr (by rw [(get_of hp).1]; simp)
        · simp [isOkB] at hok
      have hu := hl.unique (inv.chain_eq hp)
      have hlen : l.length ≤ b.objs.length + 1 := by
        have : ∀ n y, (chain b.parent n y).length ≤ n := by
          intro n
          induction n with
          | zero => intro y; simp [chain]
          | succ n ih =>
            intro y; simp only [chain]
            cases b.parent y with
            | none => simp
            | some p => simp [ih p]
        rw [hu]; have := this b.objs.length p; omega
      rw [hl.chain _ hlen] at h1
      intro y hy
      simpa using h1 y hy
    | cons c' pre' =>
      simp only [List.cons_append, List.cons.injEq] at e
      obtain ⟨rfl, rfl⟩ := e
      simp only [Browser.run] at hb1
      split at hb1
      · cases hb1
      rename_i b2 hb2
      have h2 := h.2
      rw [hb2] at h2
      simp only at h2
      have hD : removedBy pre ++ c.removes.toList = removedBy (pre ++ [c]) := by
        cases hc : c.removes <;> simp [removedBy, hc]
      rw [hD] at h2
      have := ih (inv.step hb2) (pre ++ [c]) (by rw [run_append, hpre]; simp only [Browser.run, hb2]) h2 pre' p x ref post b1 l rfl hb1 hok hl
      simpa using this

/-- The example meets the hypotheses of the theorem. -/
example {b s} (hb : Browser.init.run exampleStream = .ok b) (hs : b.run exampleBatch = .ok s) :
    NoInsertBelowRemoved b exampleBatch := by
  have hall : noInsertBelow b [] exampleBatch = true := by
    have : (match Browser.init.run exampleStream with
      | .ok b => noInsertBelow b [] exampleBatch
      | .error _ => false) = true := by decide +kernel
    rw [hb] at this; exact this
  intro pre p c ref post b1 l e hb1 hl
  have := noInsertBelow_iff (binv_init.run hb) exampleBatch [] rfl hall pre p c ref post b1 l e hb1 ?_ hl
  · simpa using this
  · rw [e, run_append, hb1] at hs
    simp only [Browser.run] at hs
    split at hs
    · cases hs
    · rename_i h; rw [h]; rfl

/-- **C21, limits.** Without the condition on insertions the sorted batch can fail although
the batch itself is executed: an element is moved into a part of the page that has been cut
off before. -/
theorem C21_insert_below_removed_violated : ∃ history cs,
    isOkB (Browser.init.run (history ++ cs)) = true ∧ isOkB (Browser.init.run (history ++ sortCommands cs)) = false ∧
    (∀ c ∈ cs, ∀ id, c.removes = some id → isRoot id = false) := by
  refine ⟨[.createNode 4 "a", .createNode 5 "b", .createNode 6 "c", .insertBefore 4 5 none, .insertBefore 5 6 none],
    [.removeNode 5, .insertBefore 6 4 none], by decide +kernel, by decide +kernel, ?_⟩
  intro c hc id h
  simp only [List.mem_cons, List.not_mem_nil, or_false] at hc
  rcases hc with rfl | rfl <;> simp [Cmd.removes] at h
  subst h; rfl

end Verif.Dom

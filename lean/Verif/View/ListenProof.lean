import Verif.View.Listen
/-!
# C67: proofs (handlers and commands)
-/
namespace Verif.View
open Verif.Dom Verif.Codec
open Verif.Host.Events (Kind Data Event Flags action closure receive sees preventsAlways preventsIfAsked stopsIfAsked)
open Verif.Host (transfer)

/-! ## The page without the handlers -/

/-- An object of the page without the handlers. -/
def bare : Content → Content
  | .element n attr => .element n fun x => if (handlerKind x).isSome then none else attr x
  | c => c

/-- The listener of a handler. -/
def Listening.entry (l : Listening) : Nat × Id × String := (l.callback, l.element, l.kind.name)

/-- The page of the model of C49 without the attributes that are handlers, and with the listeners. -/
def veil (b : Browser) (ls : List Listening) : Browser :=
  { b with objects := fun x => (b.objects x).map bare, listeners := ls.map Listening.entry }

theorem veil_get (b : Browser) (ls) (x : Id) : (veil b ls).get x = (b.get x).map bare := by
  unfold Browser.get veil
  simp only
  split <;> rfl

theorem veil_detach (b : Browser) (ls) (x : Id) : (veil b ls).detach x = veil (b.detach x) ls := by
  unfold Browser.detach veil
  simp only
  cases b.parent x <;> rfl

theorem veil_map (b : Browser) (ls) (m) : ({ veil b ls with inMap := m } : Browser) = veil { b with inMap := m } ls := rfl

theorem veil_objects (b : Browser) (ls) (id : Id) (o : Content) :
    ({ veil b ls with objects := fupd (veil b ls).objects id (some (bare o)) } : Browser) = veil { b with objects := fupd b.objects id (some o) } ls := by
  have : fupd (veil b ls).objects id (some (bare o)) = fun x => (fupd b.objects id (some o) x).map bare := by
    funext x
    simp only [fupd, veil]
    split <;> rfl
  rw [this]; rfl

theorem veil_create {b b' : Browser} {ls id o} (hb : bare o = o) (h : b.create id o = .ok b') : (veil b ls).create id o = .ok (veil b' ls) := by
  unfold Browser.create at h ⊢
  split at h
  · rename_i hr; cases h; simp [hr]
  · rename_i hr
    split at h
    · cases h
    · rename_i ho
      cases h
      have : ((veil b ls).objects id).isSome = false := by simpa [veil] using ho
      simp only [hr, this, Bool.false_eq_true, if_false]
      congr 1
      have := veil_objects b ls id o
      rw [hb] at this
      rw [show ({ veil b ls with objects := fupd (veil b ls).objects id (some o), inMap := fupd (veil b ls).inMap id true, objs := id :: (veil b ls).objs } : Browser) =
        { ({ veil b ls with objects := fupd (veil b ls).objects id (some o) } : Browser) with inMap := fupd b.inMap id true, objs := id :: b.objs } from rfl, this]
      rfl

theorem veil_remove {b b' : Browser} {ls id} (h : b.remove id = .ok b') : (veil b ls).remove id = .ok (veil b' ls) := by
  unfold Browser.remove at h ⊢
  rw [veil_get]
  cases hg : b.get id with
  | none => rw [hg] at h; cases h
  | some o =>
    rw [hg] at h
    cases h
    simp only [Option.map_some]
    rw [← veil_detach]
    rfl

theorem veil_insertBefore {b b' : Browser} {ls p c ref} (h : b.insertBefore p c ref = .ok b') :
    (veil b ls).insertBefore p c ref = .ok (veil b' ls) := by
  unfold Browser.insertBefore at h ⊢
  split at h
  · rename_i n a ho
    have : (veil b ls).objects p = some (.element n fun x => if (handlerKind x).isSome then none else a x) := by simp [veil, ho, bare]
    simp only [this]
    have hp : (veil b ls).parent = b.parent := rfl
    have hobjs : (veil b ls).objs = b.objs := rfl
    rw [hp, hobjs]
    split at h
    · cases h
    · rename_i hc
      simp only [hc, if_false]
      cases ref with
      | none =>
        simp only at h ⊢
        cases h
        rw [veil_detach]; rfl
      | some r =>
        simp only at h ⊢
        split at h
        · cases h
        · rename_i hr
          simp only [hr, if_false]
          split at h
          · rename_i e; cases h; simp [e]
          · rename_i e; cases h; simp only [e, if_false]; rw [veil_detach]; rfl
  · cases h

/-- The commands of a view: no handlers are added or removed by themselves, and html, head and body stay as they are. -/
def Modest : Cmd → Prop
  | .callbackAdd .. | .callbackRemove .. => False
  | .setAttr id _ _ | .removeAttr id _ | .removeNode id | .removeText id | .removeComment id => isRoot id = false
  | _ => True

/-- Commands that are not about handlers. -/
def Unheard : Cmd → Prop
  | .callbackAdd .. | .callbackRemove .. => False
  | .setAttr _ name _ | .removeAttr _ name => handlerKind name = none
  | _ => True

theorem bare_set (n : String) (attr : String → Option String) {name : String} (v : Option String) (h : handlerKind name = none) :
    bare (.element n fun x => if x = name then v else attr x) =
      .element n fun x => if x = name then v else if (handlerKind x).isSome then none else attr x := by
  simp only [bare]
  congr 1
  funext x
  by_cases e : x = name
  · subst e; simp [h]
  · simp [e]

theorem veil_step {b b' : Browser} {ls c} (hc : Unheard c) (h : b.step c = .ok b') : (veil b ls).step c = .ok (veil b' ls) := by
  cases c with
  | createNode id name => exact veil_create (by simp [bare]) h
  | createText id v => exact veil_create rfl h
  | createComment id v => exact veil_create rfl h
  | updateText id v =>
    simp only [Browser.step] at h ⊢
    split at h
    · rename_i s hg
      cases h
      rw [veil_get, hg]
      simp only [Option.map_some, bare]
      exact congrArg _ (veil_objects b ls id (.text v))
    · cases h
  | setAttr id name v =>
    simp only [Browser.step] at h ⊢
    split at h
    · rename_i n attr hg
      cases h
      rw [veil_get, hg]
      simp only [Option.map_some, bare]
      have := veil_objects b ls id (.element n fun x => if x = name then some v else attr x)
      rw [bare_set n attr (some v) hc] at this
      exact congrArg _ this
    · cases h
  | removeAttr id name =>
    simp only [Browser.step] at h ⊢
    split at h
    · rename_i n attr hg
      cases h
      rw [veil_get, hg]
      simp only [Option.map_some, bare]
      have := veil_objects b ls id (.element n fun x => if x = name then none else attr x)
      rw [bare_set n attr none hc] at this
      exact congrArg _ this
    · cases h
  | removeNode id => exact veil_remove h
  | removeText id => exact veil_remove h
  | removeComment id => exact veil_remove h
  | insertBefore p c ref =>
    simp only [Browser.step] at h ⊢
    rw [veil_get, veil_get]
    split at h
    · rename_i o1 o2 h1 h2
      rw [h1, h2]
      simp only [Option.map_some]
      cases ref with
      | none => exact veil_insertBefore h
      | some r =>
        simp only at h ⊢
        rw [veil_get]
        split at h
        · cases h
        · rename_i hr
          simp only [Option.isNone_map, hr]
          exact veil_insertBefore h
    · cases h
  | insertCss s v => cases h; rfl
  | callbackAdd => exact hc.elim
  | callbackRemove => exact hc.elim

theorem veil_run {ls} : ∀ {cs : List Cmd} {b b' : Browser}, (∀ c ∈ cs, Unheard c) → b.run cs = .ok b' → (veil b ls).run cs = .ok (veil b' ls)
  | [], b, b', _, h => by cases h; rfl
  | c :: cs, b, b', hc, h => by
      simp only [Browser.run] at h ⊢
      split at h
      · cases h
      · rename_i b1 h1
        rw [veil_step (hc c List.mem_cons_self) h1]
        exact veil_run (fun c h => hc c (List.mem_cons_of_mem _ h)) h

/-! ## The names of handlers -/

theorem handlers_kind : ∀ r ∈ handlers, handlerKind r.2.1 = some r.1 ∧ r.2.2 = r.1.name := by decide +kernel

theorem handlers_single : ∀ r ∈ handlers, ∀ r' ∈ handlers, r.1 = r'.1 → r = r' := by decide +kernel

theorem handlers_type : ∀ r ∈ handlers, ∀ r' ∈ handlers, r.2.2 = r'.2.2 → r = r' := by decide +kernel

theorem kind_handlers {a : String} {k : Kind} (h : handlerKind a = some k) : (k, a, k.name) ∈ handlers := by
  unfold handlerKind at h
  repeat' split at h
  all_goals first | (cases h; subst_vars; decide +kernel) | cases h

theorem handlerKind_inj {a a' : String} {k : Kind} (h : handlerKind a = some k) (h' : handlerKind a' = some k) : a = a' := by
  have := handlers_single _ (kind_handlers h) _ (kind_handlers h') rfl
  simpa using this

/-! ## Handlers and the page -/

/-- The handlers are those in the page of C49, for the nodes that have not been removed. -/
structure Wired (b : Browser) (s : Listens) : Prop where
  nodup : (s.live.map (·.callback)).Nodup
  fresh : ∀ l ∈ s.live, l.callback < s.next
  single : ∀ l ∈ s.live, ∀ l' ∈ s.live, l.element = l'.element → l.kind = l'.kind → l = l'
  here : ∀ l ∈ s.live, b.inMap l.element = true ∧ ∃ n attr name, b.objects l.element = some (.element n attr) ∧
    handlerKind name = some l.kind ∧ attr name = some l.current
  all : ∀ x n attr name k h, b.inMap x = true → b.objects x = some (.element n attr) → handlerKind name = some k → attr name = some h →
    ∃ l ∈ s.live, l.element = x ∧ l.kind = k ∧ l.current = h

theorem Wired.same {b b' : Browser} {s : Listens} (h : Wired b s) (ho : b'.objects = b.objects) (hm : b'.inMap = b.inMap) : Wired b' s :=
  ⟨h.nodup, h.fresh, h.single, by rw [ho, hm]; exact h.here, by rw [ho, hm]; exact h.all⟩

/-- Another object, which is not an element with handlers. -/
theorem Wired.create {b b' : Browser} {s : Listens} {id o} (h : Wired b s) (hn : ∀ n attr, o = .element n attr → attr = fun _ => none)
    (hc : b.create id o = .ok b') : Wired b' s := by
  unfold Browser.create at hc
  split at hc
  · cases hc; exact h
  · split at hc
    · cases hc
    · rename_i ho
      cases hc
      refine ⟨h.nodup, h.fresh, h.single, fun l hl => ?_, fun x n attr name k v hm hx hk hv => ?_⟩
      · obtain ⟨h1, n, attr, name, h2, h3⟩ := h.here l hl
        have : l.element ≠ id := by rintro e; rw [← e, h2] at ho; simp at ho
        refine ⟨by simp [fupd, this, h1], n, attr, name, by simp [fupd, this, h2], h3⟩
      · simp only [fupd] at hx hm
        split at hx
        · cases hx
          rw [hn n attr rfl] at hv
          cases hv
        · rename_i e
          simp only [e, if_false] at hm
          exact h.all x n attr name k v hm hx hk hv

theorem Wired.objects {b : Browser} {s : Listens} {id n o} {attr attr' : String → Option String} (h : Wired b s) (ho : b.objects id = some o)
    (he : o = .element n attr) (hs : ∀ name, (handlerKind name).isSome → attr' name = attr name) :
    Wired { b with objects := fupd b.objects id (some (.element n attr')) } s := by
  subst he
  refine ⟨h.nodup, h.fresh, h.single, fun l hl => ?_, fun x n' a name k v hm hx hk hv => ?_⟩
  · obtain ⟨h1, n1, a1, name, h2, h3, h4⟩ := h.here l hl
    refine ⟨h1, ?_⟩
    by_cases e : l.element = id
    · rw [e, ho] at h2
      cases h2
      exact ⟨n, attr', name, by simp [fupd, e], h3, by rw [hs name (by simp [h3])]; exact h4⟩
    · exact ⟨n1, a1, name, by simp [fupd, e, h2], h3, h4⟩
  · simp only [fupd] at hx hm
    split at hx
    · rename_i e
      cases hx
      subst e
      exact h.all x n attr name k v hm ho hk (by rw [← hs name (by simp [hk])]; exact hv)
    · exact h.all x n' a name k v hm hx hk hv

theorem Wired.remove {b b' : Browser} {s : Listens} {id} (h : Wired b s) (hc : b.remove id = .ok b') :
    Wired b' { s with live := s.live.filter fun l => ¬ l.element = id } := by
  unfold Browser.remove at hc
  split at hc
  · cases hc
  cases hc
  refine ⟨h.nodup.sublist (List.Sublist.map _ List.filter_sublist), fun l hl => h.fresh l (List.mem_of_mem_filter hl),
    fun l hl l' hl' => h.single l (List.mem_of_mem_filter hl) l' (List.mem_of_mem_filter hl'), fun l hl => ?_, fun x n attr name k v hm hx hk hv => ?_⟩
  · obtain ⟨h0, h1⟩ := List.mem_filter.mp hl
    obtain ⟨h2, h3⟩ := h.here l h0
    rw [detach_inMap, Verif.Dom.detach_objects]
    refine ⟨?_, h3⟩
    have : l.element ≠ id := by simpa using h1
    simp [fupd, this, h2]
  · rw [detach_inMap] at hm
    rw [Verif.Dom.detach_objects] at hx
    simp only [fupd] at hm
    split at hm
    · cases hm
    · rename_i e
      obtain ⟨l, hl, h1, h2⟩ := h.all x n attr name k v hm hx hk hv
      exact ⟨l, List.mem_filter.mpr ⟨hl, by simpa [h1] using e⟩, h1, h2⟩

/-! ## One command -/

theorem callbacks_remove {b : Browser} : ∀ (D L : List Listening), (∀ l ∈ D, (b.get l.element).isSome = true) → (∀ l ∈ D, l ∈ L) →
    (D.map (·.callback)).Nodup → (veil b L).run (D.map Listening.remove) = .ok (veil b (L.filter fun l => l.callback ∉ D.map (·.callback)))
  | [], L, _, _, _ => by simp [Browser.run]
  | l :: D, L, hg, hm, hn => by
      have h1 : (veil b L).listeners.any (fun x => x.1 = l.callback) = true := by
        simp only [veil, List.any_map, List.any_eq_true]
        exact ⟨l, hm l List.mem_cons_self, by simp [Listening.entry]⟩
      have h2 : ((veil b L).get l.element).isSome = true := by rw [veil_get]; simpa using hg l List.mem_cons_self
      have h3 : (veil b L).listeners.filter (fun x => x.1 ≠ l.callback) = (L.filter fun x => x.callback ≠ l.callback).map Listening.entry := by
        simp only [veil, List.filter_map]
        rfl
      have h4 : (veil b L).step l.remove = .ok (veil b (L.filter fun x => x.callback ≠ l.callback)) := by
        simp only [Listening.remove, Browser.step, h1, h2, h3, Bool.or_true, if_true]
        rfl
      simp only [List.map_cons, Browser.run, h4]
      obtain ⟨n1, n2⟩ := List.nodup_cons.mp hn
      rw [callbacks_remove D _ (fun l h => hg l (List.mem_cons_of_mem _ h)) (fun x hx => List.mem_filter.mpr ⟨hm x (List.mem_cons_of_mem _ hx), by
        simp only [decide_eq_true_eq]
        intro e
        exact n1 (List.mem_map.mpr ⟨x, hx, e⟩)⟩) n2, List.filter_filter]
      congr 2
      apply List.filter_congr
      intro x _
      simp only [List.mem_cons, not_or, Bool.decide_and]
      rw [Bool.and_comm]

/-- Some of the handlers are dropped. -/
theorem callbacks_drop {b : Browser} {L : List Listening} (p : Listening → Bool) (hg : ∀ l ∈ L, p l = true → (b.get l.element).isSome = true)
    (hn : (L.map (·.callback)).Nodup) : (veil b L).run ((L.filter p).map Listening.remove) = .ok (veil b (L.filter fun l => !p l)) := by
  rw [callbacks_remove (L.filter p) L (fun l h => hg l (List.mem_filter.mp h).1 (List.mem_filter.mp h).2) (fun l h => (List.mem_filter.mp h).1)
    (hn.sublist (List.Sublist.map _ List.filter_sublist))]
  congr 2
  apply List.filter_congr
  intro l hl
  cases hp : p l with
  | true => simp only [Bool.not_true, decide_eq_false_iff_not, not_not]; exact List.mem_map.mpr ⟨l, List.mem_filter.mpr ⟨hl, hp⟩, rfl⟩
  | false =>
    simp only [Bool.not_false, decide_eq_true_eq]
    intro hm
    obtain ⟨l', h1, h2⟩ := List.mem_map.mp hm
    obtain ⟨h3, h4⟩ := List.mem_filter.mp h1
    have : l' = l := List.inj_on_of_nodup_map hn h3 hl h2
    rw [this, hp] at h4
    cases h4

theorem removals_quiet (L : List Listening) : (L.map Listening.remove).filter (fun c => !c.isEvent) = L.map Listening.remove ∧
    (L.map Listening.remove).filter (fun c => c.isEvent) = [] := by
  constructor
  · refine List.filter_eq_self.mpr fun c hc => ?_
    obtain ⟨l, -, rfl⟩ := List.mem_map.mp hc; rfl
  · refine List.filter_eq_nil_iff.mpr fun c hc => ?_
    obtain ⟨l, -, rfl⟩ := List.mem_map.mp hc; simp [Listening.remove, Cmd.isEvent]

/-- A handler is not seen in the page. -/
theorem bare_handler (n : String) (attr : String → Option String) {name : String} (v : Option String) (h : (handlerKind name).isSome = true) :
    bare (.element n fun x => if x = name then v else attr x) = bare (.element n attr) := by
  simp only [bare]
  congr 1
  funext x
  by_cases e : x = name
  · subst e; simp [h]
  · simp [e]

theorem veil_handler {b : Browser} {L L' : List Listening} {id o o'} (ho : b.objects id = some o) (hb : bare o' = bare o)
    (hL : L'.map Listening.entry = L.map Listening.entry) :
    veil { b with objects := fupd b.objects id (some o') } L' = veil b L := by
  unfold veil
  rw [hL]
  have : (fun x => (fupd b.objects id (some o') x).map bare) = fun x => (b.objects x).map bare := by
    funext x
    simp only [fupd]
    split
    · rename_i e; subst e; rw [ho]; simp [hb]
    · rfl
  simp only [this]

/-- What a command does to both pages. -/
structure Followed (s' t : Browser) (D : List Id) (ls : Listens) (c : Cmd) (t' : Browser) : Prop where
  run : (veil t ls.live).run ((ls.step c).2.filter (!·.isEvent)) = .ok (veil t' (ls.step c).1.live)
  lag : Lag s' t' (D ++ removedBy [c])
  wired : Wired s' (ls.step c).1
  events : (ls.step c).2.filter (·.isEvent) = [c].filter (·.isEvent)

theorem followed_unheard {s t D s' c ls} (h : Lag s t D) (hr : c.removes = none) (hst : ls.step c = (ls, [c])) (hu : Unheard c)
    (hw : Wired s' ls) (hup : ∀ p x ref, c = .insertBefore p x ref → ∀ l, Up s.parent p l → ∀ y ∈ l, y ∉ D)
    (hs : s.step c = .ok s') : ∃ t', Followed s' t D ls c t' := by
  obtain ⟨t', h1, h2⟩ := h.step hr hup hs
  have he : c.isEvent = false := by
    cases he : c.isEvent with
    | false => rfl
    | true => obtain ⟨id, e⟩ := (isEvent_iff c).mp he; rw [hr] at e; cases e
  refine ⟨t', ?_, by simpa [removedBy, hr] using h2, by rw [hst]; exact hw, by rw [hst]⟩
  rw [hst]
  simp only [List.filter_cons, he, Bool.not_false, if_true, List.filter_nil, Browser.run, veil_step hu h1]

theorem followed_remove {s t D s' c ls id} (h : Lag s t D) (hw : Wired s ls) (hr : c.removes = some id) (hroot : isRoot id = false)
    (hst : ls.step c = ls.drop c id) (hs : s.step c = .ok s') : ∃ t', Followed s' t D ls c t' := by
  rw [step_removes hr] at hs
  have hlag := h.remove hroot hs
  have hg : ∃ o, s.get id = some o := by
    unfold Browser.remove at hs
    split at hs
    · cases hs
    · rename_i o ho; exact ⟨o, ho⟩
  obtain ⟨o, hg⟩ := hg
  have he : c.isEvent = true := (isEvent_iff c).mpr ⟨id, hr⟩
  obtain ⟨q1, q2⟩ := removals_quiet (ls.live.filter fun l => l.element = id)
  refine ⟨t, ?_, by simpa [removedBy, hr] using hlag, by rw [hst]; exact hw.remove hs, by rw [hst]; simp only [Listens.drop, List.filter_cons, he, if_true, q2, List.filter_nil]⟩
  rw [hst]
  simp only [Listens.drop, List.filter_cons, he, Bool.not_true, Bool.false_eq_true, if_false, q1]
  have := callbacks_drop (b := t) (fun l => decide (l.element = id)) (fun l _ hl => by
    simp only [decide_eq_true_eq] at hl
    rw [hl, (h.get hg).1]; rfl) hw.nodup
  simpa using this

theorem get_inMap {b : Browser} {x o} (hr : isRoot x = false) (h : b.get x = some o) : b.inMap x = true ∧ b.objects x = some o := by
  obtain ⟨h1, h2⟩ := get_of h
  refine ⟨?_, h1⟩
  rcases h2 with h2 | h2
  · rw [hr] at h2; cases h2
  · exact h2

/-- The handler of an element is replaced in the page of C49. -/
theorem Wired.replace {b : Browser} {s : Listens} {id n name k v} {attr : String → Option String} (h : Wired b s) (hm : b.inMap id = true)
    (ho : b.objects id = some (.element n attr)) (hk : handlerKind name = some k) {live : List Listening} {next : Nat}
    (hn : (live.map (·.callback)).Nodup) (hf : ∀ l ∈ live, l.callback < next)
    (hsame : ∀ l, ¬ (l.element = id ∧ l.kind = k) → (l ∈ live ↔ l ∈ s.live))
    (hthis : ∀ l ∈ live, l.element = id → l.kind = k → v = some l.current)
    (hone : ∀ l ∈ live, ∀ l' ∈ live, l.element = id → l.kind = k → l'.element = id → l'.kind = k → l = l')
    (hsome : ∀ w, v = some w → ∃ l ∈ live, l.element = id ∧ l.kind = k ∧ l.current = w) :
    Wired { b with objects := fupd b.objects id (some (.element n fun x => if x = name then v else attr x)) } ⟨live, next⟩ := by
  refine ⟨hn, hf, fun l hl l' hl' e e' => ?_, fun l hl => ?_, fun x n' a name' k' w hx hox hk' hw => ?_⟩
  · by_cases hc : l.element = id ∧ l.kind = k
    · exact hone l hl l' hl' hc.1 hc.2 (by rw [← e]; exact hc.1) (by rw [← e']; exact hc.2)
    · exact h.single l ((hsame l hc).mp hl) l' ((hsame l' (by rw [← e, ← e']; exact hc)).mp hl') e e'
  · by_cases hc : l.element = id ∧ l.kind = k
    · refine ⟨by rw [hc.1]; exact hm, n, (fun x => if x = name then v else attr x), name, by simp [fupd, hc.1], by rw [hk, hc.2], ?_⟩
      simp only [if_true]
      exact hthis l hl hc.1 hc.2
    · obtain ⟨h1, n1, a1, nm, h2, h3, h4⟩ := h.here l ((hsame l hc).mp hl)
      refine ⟨h1, ?_⟩
      by_cases e : l.element = id
      · rw [e, ho] at h2
        cases h2
        have hne : nm ≠ name := by
          rintro rfl
          rw [hk] at h3
          exact hc ⟨e, (Option.some.inj h3).symm⟩
        exact ⟨n, (fun x => if x = name then v else attr x), nm, by simp [fupd, e], h3, by simp [hne, h4]⟩
      · exact ⟨n1, a1, nm, by simp [fupd, e, h2], h3, h4⟩
  · simp only [fupd] at hox hx
    split at hox
    · rename_i e
      cases hox
      subst e
      by_cases hn' : name' = name
      · subst hn'
        simp only [if_true] at hw
        rw [hk] at hk'
        cases hk'
        exact hsome w hw
      · simp only [hn', if_false] at hw
        obtain ⟨l, hl, h1, h2, h3⟩ := h.all x n attr name' k' w hx ho hk' hw
        refine ⟨l, (hsame l ?_).mpr hl, h1, h2, h3⟩
        rintro ⟨-, hc⟩
        rw [hc] at h2
        subst h2
        exact hn' (handlerKind_inj hk' hk)
    · rename_i e
      obtain ⟨l, hl, h1, h2, h3⟩ := h.all x n' a name' k' w hx hox hk' hw
      exact ⟨l, (hsame l (by rintro ⟨hc, -⟩; exact e (by rw [← h1, hc]))).mpr hl, h1, h2, h3⟩

theorem followed_set {s t D s' ls id name v k} (h : Lag s t D) (hw : Wired s ls) (hroot : isRoot id = false) (hk : handlerKind name = some k)
    (hs : s.step (.setAttr id name v) = .ok s') : ∃ t', Followed s' t D ls (.setAttr id name v) t' := by
  obtain ⟨t', ht, hlag⟩ := h.step rfl (fun p x ref e => by cases e) hs
  simp only [Browser.step] at hs ht
  split at hs
  on_goal 2 => cases hs
  rename_i n attr hg
  obtain ⟨htg, -⟩ := h.get hg
  rw [htg] at ht
  cases hs
  cases ht
  obtain ⟨hm, ho⟩ := get_inMap hroot hg
  obtain ⟨-, hto⟩ := get_inMap (b := t) hroot htg
  have hD : D ++ removedBy [Cmd.setAttr id name v] = D := by simp [removedBy, Cmd.removes]
  by_cases hany : ls.live.any fun l => l.element = id ∧ l.kind = k
  · have hst : ls.step (.setAttr id name v) =
        ({ ls with live := ls.live.map fun l => if l.element = id ∧ l.kind = k then { l with current := v } else l }, []) := by
      simp only [Listens.step, hk, hany, if_true]
    obtain ⟨l0, hl0, h0⟩ := List.any_eq_true.mp hany
    simp only [decide_eq_true_eq] at h0
    have hent : (ls.live.map fun l => if l.element = id ∧ l.kind = k then ({ l with current := v } : Listening) else l).map Listening.entry =
        ls.live.map Listening.entry := by
      rw [List.map_map]
      apply List.map_congr_left
      intro l _
      simp only [Function.comp]
      split <;> rfl
    have hcb : (ls.live.map fun l => if l.element = id ∧ l.kind = k then ({ l with current := v } : Listening) else l).map (·.callback) =
        ls.live.map (·.callback) := by
      rw [List.map_map]
      apply List.map_congr_left
      intro l _
      simp only [Function.comp]
      split <;> rfl
    refine ⟨_, ?_, by rw [hD]; exact hlag, ?_, by rw [hst]; rfl⟩
    · rw [hst]
      simp only [List.filter_nil, Browser.run]
      rw [veil_handler hto (bare_handler n attr (some v) (by simp [hk])) hent]
    · rw [hst]
      refine hw.replace hm ho hk (by rw [hcb]; exact hw.nodup) ?_ ?_ ?_ ?_ ?_
      · intro l hl
        obtain ⟨l', h1, rfl⟩ := List.mem_map.mp hl
        have := hw.fresh l' h1
        split <;> exact this
      · intro l hc
        constructor
        · intro hl
          obtain ⟨l', h1, h2⟩ := List.mem_map.mp hl
          split at h2
          · rename_i hc'; subst h2; exact absurd hc' hc
          · subst h2; exact h1
        · intro hl
          exact List.mem_map.mpr ⟨l, hl, by simp [hc]⟩
      · intro l hl e1 e2
        obtain ⟨l', h1, h2⟩ := List.mem_map.mp hl
        split at h2
        · subst h2; rfl
        · rename_i hc; subst h2; exact absurd ⟨e1, e2⟩ hc
      · intro l hl l' hl' e1 e2 e3 e4
        obtain ⟨m, h1, h2⟩ := List.mem_map.mp hl
        obtain ⟨m', h1', h2'⟩ := List.mem_map.mp hl'
        split at h2
        · rename_i hc
          split at h2'
          · rename_i hc'
            have := hw.single m h1 m' h1' (by rw [hc.1, hc'.1]) (by rw [hc.2, hc'.2])
            rw [← h2, ← h2', this]
          · rename_i hc'; subst h2'; exact absurd ⟨e3, e4⟩ hc'
        · rename_i hc; subst h2; exact absurd ⟨e1, e2⟩ hc
      · intro w hw'
        cases hw'
        exact ⟨{ l0 with current := v }, List.mem_map.mpr ⟨l0, hl0, by simp [h0]⟩, h0.1, h0.2, rfl⟩
  · have hst : ls.step (.setAttr id name v) =
        ({ live := ls.live ++ [⟨id, k, ls.next, v⟩], next := ls.next + 1 }, [.callbackAdd id k.name ls.next]) := by
      simp only [Listens.step, hk, hany, if_false, Bool.false_eq_true]
    have hno : ∀ l ∈ ls.live, ¬ (l.element = id ∧ l.kind = k) := by
      intro l hl hc
      exact hany (List.any_eq_true.mpr ⟨l, hl, by simpa using hc⟩)
    refine ⟨_, ?_, by rw [hD]; exact hlag, ?_, by rw [hst]; rfl⟩
    · rw [hst]
      have h1 : (veil t ls.live).listeners.any (fun x => x.1 = ls.next) = false := by
        simp only [veil, List.any_map, List.any_eq_false]
        intro l hl
        have := hw.fresh l hl
        simp only [Function.comp, Listening.entry]
        exact fun e => Nat.ne_of_lt this (of_decide_eq_true e)
      have h2 : ((veil t ls.live).get id).isSome = true := by rw [veil_get, htg]; rfl
      have e : ([Cmd.callbackAdd id k.name ls.next].filter fun c => !c.isEvent) = [Cmd.callbackAdd id k.name ls.next] := rfl
      simp only [e, Browser.run, Browser.step, h1, h2, Bool.or_true, if_true, Bool.false_eq_true, if_false]
      have := veil_handler (L := ls.live ++ [⟨id, k, ls.next, v⟩]) hto (bare_handler n attr (name := name) (some v) (by simp [hk])) rfl
      rw [this]
      simp [veil, Listening.entry]
    · rw [hst]
      refine hw.replace hm ho hk ?_ ?_ ?_ ?_ ?_ ?_
      · rw [List.map_append, List.nodup_append]
        refine ⟨hw.nodup, by simp, ?_⟩
        intro a ha b hb
        obtain ⟨l, hl, rfl⟩ := List.mem_map.mp ha
        simp only [List.map_cons, List.map_nil, List.mem_singleton] at hb
        have := hw.fresh l hl
        omega
      · intro l hl
        rcases List.mem_append.mp hl with hl | hl
        · have := hw.fresh l hl; omega
        · rw [List.mem_singleton.mp hl]; simp
      · intro l hc
        rw [List.mem_append, List.mem_singleton]
        exact ⟨fun hl => hl.resolve_right (by rintro rfl; exact hc ⟨rfl, rfl⟩), Or.inl⟩
      · intro l hl e1 e2
        rcases List.mem_append.mp hl with hl | hl
        · exact absurd ⟨e1, e2⟩ (hno l hl)
        · rw [List.mem_singleton.mp hl]
      · intro l hl l' hl' e1 e2 e3 e4
        rcases List.mem_append.mp hl with hl | hl
        · exact absurd ⟨e1, e2⟩ (hno l hl)
        · rcases List.mem_append.mp hl' with hl' | hl'
          · exact absurd ⟨e3, e4⟩ (hno l' hl')
          · rw [List.mem_singleton.mp hl, List.mem_singleton.mp hl']
      · intro w hw'
        cases hw'
        exact ⟨_, List.mem_append_right _ (List.mem_singleton.mpr rfl), rfl, rfl, rfl⟩

theorem followed_unset {s t D s' ls id name k} (h : Lag s t D) (hw : Wired s ls) (hroot : isRoot id = false) (hk : handlerKind name = some k)
    (hs : s.step (.removeAttr id name) = .ok s') : ∃ t', Followed s' t D ls (.removeAttr id name) t' := by
  obtain ⟨t', ht, hlag⟩ := h.step rfl (fun p x ref e => by cases e) hs
  simp only [Browser.step] at hs ht
  split at hs
  on_goal 2 => cases hs
  rename_i n attr hg
  obtain ⟨htg, -⟩ := h.get hg
  rw [htg] at ht
  cases hs
  cases ht
  obtain ⟨hm, ho⟩ := get_inMap hroot hg
  obtain ⟨-, hto⟩ := get_inMap (b := t) hroot htg
  have hD : D ++ removedBy [Cmd.removeAttr id name] = D := by simp [removedBy, Cmd.removes]
  have hst : ls.step (.removeAttr id name) = ({ ls with live := ls.live.filter fun l => ¬ (l.element = id ∧ l.kind = k) },
      (ls.live.filter fun l => l.element = id ∧ l.kind = k).map Listening.remove) := by
    simp only [Listens.step, hk]
  obtain ⟨q1, q2⟩ := removals_quiet (ls.live.filter fun l => l.element = id ∧ l.kind = k)
  refine ⟨_, ?_, by rw [hD]; exact hlag, ?_, by rw [hst]; simp only [q2]; rfl⟩
  · rw [hst]
    simp only [q1]
    rw [veil_handler hto (bare_handler n attr none (by simp [hk])) rfl]
    have := callbacks_drop (b := t) (fun l => decide (l.element = id ∧ l.kind = k)) (fun l _ hl => by
      simp only [decide_eq_true_eq] at hl
      rw [hl.1, htg]; rfl) hw.nodup
    simpa using this
  · rw [hst]
    have hmem : ∀ l, l ∈ ls.live.filter (fun l => ¬ (l.element = id ∧ l.kind = k)) ↔ l ∈ ls.live ∧ ¬ (l.element = id ∧ l.kind = k) := by
      intro l; rw [List.mem_filter, decide_eq_true_eq]
    refine hw.replace hm ho hk (hw.nodup.sublist (List.Sublist.map _ List.filter_sublist)) (fun l hl => hw.fresh l (List.mem_of_mem_filter hl)) ?_ ?_ ?_ ?_
    · intro l hc; rw [hmem]; exact ⟨fun h => h.1, fun h => ⟨h, hc⟩⟩
    · intro l hl e1 e2; exact absurd ⟨e1, e2⟩ ((hmem l).mp hl).2
    · intro l hl l' _ e1 e2; exact absurd ⟨e1, e2⟩ ((hmem l).mp hl).2
    · intro w hw'; cases hw'

theorem listens_step {s t D s' c ls} (h : Lag s t D) (hw : Wired s ls) (hm : Modest c)
    (hup : ∀ p x ref, c = .insertBefore p x ref → ∀ l, Up s.parent p l → ∀ y ∈ l, y ∉ D)
    (hs : s.step c = .ok s') : ∃ t', Followed s' t D ls c t' := by
  cases c with
  | createNode id name => exact followed_unheard h rfl rfl trivial (hw.create (fun n a e => by cases e; rfl) hs) hup hs
  | createText id v => exact followed_unheard h rfl rfl trivial (hw.create (fun n a e => by cases e) hs) hup hs
  | createComment id v => exact followed_unheard h rfl rfl trivial (hw.create (fun n a e => by cases e) hs) hup hs
  | updateText id v =>
    refine followed_unheard h rfl rfl trivial ?_ hup hs
    simp only [Browser.step] at hs
    split at hs
    · rename_i o hg
      cases hs
      obtain ⟨ho, -⟩ := get_of hg
      refine ⟨hw.nodup, hw.fresh, hw.single, fun l hl => ?_, fun x n attr name k v' hx hox hk hv => ?_⟩
      · obtain ⟨h1, n, a, nm, h2, h3⟩ := hw.here l hl
        have : l.element ≠ id := by rintro e; rw [e, ho] at h2; cases h2
        exact ⟨h1, n, a, nm, by simp [fupd, this, h2], h3⟩
      · simp only [fupd] at hox
        split at hox
        · cases hox
        · exact hw.all x n attr name k v' hx hox hk hv
    · cases hs
  | setAttr id name v =>
    cases hk : handlerKind name with
    | some k => exact followed_set h hw hm hk hs
    | none =>
      refine followed_unheard h rfl (by simp only [Listens.step, hk]) hk ?_ hup hs
      simp only [Browser.step] at hs
      split at hs
      · rename_i n attr hg
        cases hs
        exact hw.objects (get_of hg).1 rfl fun nm hnm => by
          have : nm ≠ name := by rintro rfl; rw [hk] at hnm; cases hnm
          simp [this]
      · cases hs
  | removeAttr id name =>
    cases hk : handlerKind name with
    | some k => exact followed_unset h hw hm hk hs
    | none =>
      refine followed_unheard h rfl (by simp only [Listens.step, hk]) hk ?_ hup hs
      simp only [Browser.step] at hs
      split at hs
      · rename_i n attr hg
        cases hs
        exact hw.objects (get_of hg).1 rfl fun nm hnm => by
          have : nm ≠ name := by rintro rfl; rw [hk] at hnm; cases hnm
          simp [this]
      · cases hs
  | removeNode id => exact followed_remove h hw rfl hm rfl hs
  | removeText id => exact followed_remove h hw rfl hm rfl hs
  | removeComment id => exact followed_remove h hw rfl hm rfl hs
  | insertBefore p c ref =>
    refine followed_unheard h rfl rfl trivial ?_ hup hs
    obtain ⟨-, h2⟩ := insert_get hs
    refine hw.same ?_ (insertBefore_parent h2).1
    unfold Browser.insertBefore at h2
    split at h2
    · split at h2
      · cases h2
      · split at h2
        · cases h2; exact Verif.Dom.detach_objects s c
        · split at h2
          · cases h2
          · split at h2
            · cases h2; rfl
            · cases h2; exact Verif.Dom.detach_objects s c
    · cases h2
  | insertCss k v =>
    refine followed_unheard h rfl rfl trivial ?_ hup hs
    cases hs
    exact hw.same rfl rfl
  | callbackAdd => exact hm.elim
  | callbackRemove => exact hm.elim

/-! ## A batch -/

theorem listens_run {b s t} : ∀ (cs pre : List Cmd) {ls : Listens}, b.run pre = .ok s → Lag s t (removedBy pre) → Wired s ls →
    (∀ c ∈ cs, Modest c) → NoInsertBelowRemoved b (pre ++ cs) → ∀ s', s.run cs = .ok s' →
    ∃ t', (veil t ls.live).run ((ls.run cs).2.filter (!·.isEvent)) = .ok (veil t' (ls.run cs).1.live) ∧ Lag s' t' (removedBy (pre ++ cs)) ∧
      Wired s' (ls.run cs).1 ∧ (ls.run cs).2.filter (·.isEvent) = cs.filter (·.isEvent) := by
  intro cs
  induction cs generalizing s t with
  | nil =>
    intro pre ls _ h hw _ _ s' hs
    cases hs
    exact ⟨t, rfl, by simpa using h, hw, rfl⟩
  | cons c cs ih =>
    intro pre ls hpre h hw hm hno s' hs
    simp only [Browser.run] at hs
    split at hs
    · cases hs
    rename_i s1 h1
    have hpre1 : b.run (pre ++ [c]) = .ok s1 := by
      rw [Verif.Dom.run_append, hpre]; simp only [Browser.run, h1]
    have happ : pre ++ c :: cs = (pre ++ [c]) ++ cs := by simp
    rw [happ] at hno ⊢
    obtain ⟨t1, ht1⟩ := listens_step h hw (hm c List.mem_cons_self) (fun p x ref e l hl => by
      subst e
      exact hno pre p x ref cs s l (by simp) hpre hl) h1
    have hD : removedBy (pre ++ [c]) = removedBy pre ++ removedBy [c] := removedBy_append _ _
    obtain ⟨t', e1, e2, e3, e4⟩ := ih (pre ++ [c]) hpre1 (by rw [hD]; exact ht1.lag) ht1.wired (fun c h => hm c (List.mem_cons_of_mem _ h)) hno s' hs
    refine ⟨t', ?_, e2, e3, ?_⟩
    · simp only [Listens.run, List.filter_append, Verif.Dom.run_append, ht1.run]
      exact e1
    · simp only [Listens.run, List.filter_append, ht1.events, e4]
      rw [← List.filter_append, List.singleton_append]

theorem removedBy_events (cs : List Cmd) : removedBy cs = removedBy (cs.filter (·.isEvent)) := by
  unfold removedBy
  induction cs with
  | nil => rfl
  | cons c cs ih =>
    cases hc : c.isEvent with
    | true => rw [List.filter_cons_of_pos hc]; simp only [List.filterMap_cons, ih]
    | false =>
      rw [List.filter_cons_of_neg (by simp [hc])]
      have : c.removes = none := by
        cases he : c.removes with
        | none => rfl
        | some id => rw [(isEvent_iff c).mpr ⟨id, he⟩] at hc; cases hc
      simp only [List.filterMap_cons, this, ih]

/-- A batch with its handlers, sorted. -/
theorem listens_batch {s s' : Browser} {ls : Listens} {cs : List Cmd} (hi : BInv s) (hw : Wired s ls) (hm : ∀ c ∈ cs, Modest c)
    (hno : NoInsertBelowRemoved s cs) (hs : s.run cs = .ok s') :
    (veil s ls.live).run (sortCommands (ls.run cs).2) = .ok (veil s' (ls.run cs).1.live) ∧ Wired s' (ls.run cs).1 := by
  obtain ⟨t', e1, e2, e3, e4⟩ := listens_run (b := s) cs [] rfl (Lag.start hi) hw hm hno s' hs
  refine ⟨?_, e3⟩
  rw [C21_sort_is_stable, Verif.Dom.run_append, e1, e4]
  simp only
  rw [List.nil_append, removedBy_events] at e2
  refine veil_run (fun c hc => ?_) (e2.flush _ fun c hc => ?_)
  · obtain ⟨h1, h2⟩ := List.mem_filter.mp hc
    obtain ⟨id, e⟩ := (isEvent_iff c).mp h2
    cases c <;> simp [Cmd.removes] at e <;> trivial
  · obtain ⟨h1, h2⟩ := List.mem_filter.mp hc
    obtain ⟨id, e⟩ := (isEvent_iff c).mp h2
    simp [e]

end Verif.View

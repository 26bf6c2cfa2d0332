import Verif.Host.Events
import Mathlib.Data.List.Nodup
/-!
# C55: proofs
-/
namespace Verif.Host.Events
open Verif.Codec

/-! ## Listeners and handlers -/

/-- The listener of a handler. -/
def listener (h : Handler) : Listener := ⟨h.waits.1, h.waits.2, h.number, h.kind.name⟩

theorem waits_eq (h : Handler) :
    h.waits = if h.kind.name = "hook_keydown" then (.document, "keydown") else (.node h.element, h.kind.name) := by
  obtain ⟨n, e, k, s⟩ := h
  cases k <;> simp [Handler.waits, Kind.name]

theorem lookup_map {β : Type} (g : Handler → β) : ∀ {H : List Handler}, (H.map (·.number)).Nodup → ∀ {h : Handler}, h ∈ H →
    (H.map fun h => (h.number, g h)).lookup h.number = some (g h)
  | [], _, h, hm => by simp at hm
  | x :: H, hn, h, hm => by
    simp only [List.map_cons, List.nodup_cons] at hn
    simp only [List.map_cons, List.lookup]
    rcases List.mem_cons.1 hm with rfl | hm
    · simp
    · have : (h.number == x.number) = false := by
        simp only [beq_eq_false_iff_ne]
        intro e
        exact hn.1 (List.mem_map.2 ⟨h, hm, e⟩)
      rw [this]
      exact lookup_map g hn.2 hm

theorem lookup_none {β : Type} (g : Handler → β) (n : Nat) : ∀ {H : List Handler}, (∀ h ∈ H, h.number ≠ n) →
    (H.map fun h => (h.number, g h)).lookup n = none
  | [], _ => rfl
  | x :: H, hm => by
    simp only [List.map_cons, List.lookup]
    have : (n == x.number) = false := by
      simp only [beq_eq_false_iff_ne]
      exact fun e => hm x List.mem_cons_self e.symm
    rw [this]
    exact lookup_none g n fun h hh => hm h (List.mem_cons_of_mem _ hh)

theorem same {H : List Handler} (hn : (H.map (·.number)).Nodup) {h h' : Handler} (hm : h ∈ H) (hm' : h' ∈ H) (e : h.number = h'.number) : h = h' :=
  List.inj_on_of_nodup_map hn hm hm' e

/-! ## The browser -/

/-- The browser has the handlers. -/
structure Core (b : Browser) (H : List Handler) : Prop where
  callbacks : b.callbacks = H.map fun h => (h.number, h.kind.name)
  listeners : b.listeners = H.map listener

theorem core_add {b : Browser} {H : List Handler} (hc : Core b H) {h : Handler} (hnew : ∀ x ∈ H, x.number ≠ h.number) (hel : h.element ∈ b.nodes) :
    Core (callbackAdd b h.element h.kind.name h.number) (H ++ [h]) ∧ (callbackAdd b h.element h.kind.name h.number).nodes = b.nodes ∧
      (callbackAdd b h.element h.kind.name h.number).reading = b.reading := by
  have hl : (b.callbacks.lookup h.number) = none := by rw [hc.callbacks]; exact lookup_none _ _ hnew
  simp only [callbackAdd, hl, Option.isSome_none, Bool.false_eq_true, if_false]
  by_cases hk : h.kind.name = "hook_keydown"
  · simp only [if_pos hk]
    refine ⟨⟨?_, ?_⟩, trivial, trivial⟩
    · simp [hc.callbacks]
    · simp only [hc.listeners, List.map_append, List.map_cons, List.map_nil, listener, waits_eq h, if_pos hk]
  · simp only [if_neg hk, if_pos hel]
    refine ⟨⟨?_, ?_⟩, trivial, trivial⟩
    · simp [hc.callbacks]
    · simp only [hc.listeners, List.map_append, List.map_cons, List.map_nil, listener, waits_eq h, if_neg hk]

theorem core_remove {b : Browser} {H : List Handler} (hc : Core b H) (hn : (H.map (·.number)).Nodup) {h : Handler} (hm : h ∈ H)
    (hel : h.element ∈ b.nodes) :
    Core (callbackRemove b h.element h.kind.name h.number) (H.filter fun x => x.number ≠ h.number) ∧
      (callbackRemove b h.element h.kind.name h.number).nodes = b.nodes ∧
      (callbackRemove b h.element h.kind.name h.number).reading = b.reading := by
  have hl : (b.callbacks.lookup h.number) = some h.kind.name := by rw [hc.callbacks]; exact lookup_map (fun h => h.kind.name) hn hm
  have hcb : (b.callbacks.filter fun x => x.1 ≠ h.number) = (H.filter fun x => x.number ≠ h.number).map fun h => (h.number, h.kind.name) := by
    rw [hc.callbacks, List.filter_map]; rfl
  have hls : ∀ l, l = listener h → (b.listeners.filter fun x => x ≠ l) = (H.filter fun x => x.number ≠ h.number).map listener := by
    rintro l rfl
    rw [hc.listeners, List.filter_map]
    congr 1
    apply List.filter_congr
    intro x hx
    simp only [Function.comp, decide_eq_decide, ne_eq, not_iff_not]
    constructor
    · intro e
      exact congrArg Listener.callback e
    · intro e
      rw [same hn hx hm e]
  simp only [callbackRemove, hl]
  by_cases hk : h.kind.name = "hook_keydown"
  · simp only [if_pos hk]
    exact ⟨⟨hcb, hls _ (by simp only [listener, waits_eq h, if_pos hk])⟩, trivial, trivial⟩
  · simp only [if_neg hk, if_pos hel]
    exact ⟨⟨hcb, hls _ (by simp only [listener, waits_eq h, if_neg hk])⟩, trivial, trivial⟩

/-! ## Inside of a transaction -/

/-- The browser after the commands sent so far, but for those that remove nodes. -/
def front (s : App) : Browser := (s.queue.filter (!·.isEvent)).foldl execute s.browser

theorem front_snoc (s : App) (c : Command) (hc : c.isEvent = false) :
    (((s.queue ++ [c]).filter (!·.isEvent)).foldl execute s.browser) = execute (front s) c := by
  simp [front, List.filter_append, hc]

theorem front_event (s : App) (c : Command) (hc : c.isEvent = true) :
    (((s.queue ++ [c]).filter (!·.isEvent)).foldl execute s.browser) = front s := by
  simp [front, List.filter_append, hc]

/-- A handler that exists or has existed. -/
structure Known (p : Spec) (h : Handler) : Prop where
  number : h.number < p.added
  same : ∀ x ∈ p.handlers, x.number = h.number → x = h

/-- Computeds of handlers. -/
def cellOf (h : Handler) : Option (Nat × Nat) :=
  match h.source with
  | .basic _ => none
  | .computed c => some (h.number, c)

/-- The state inside of a transaction, without the subscriptions. -/
structure Mid (s : App) (p : Spec) : Prop where
  store : s.store = p.handlers.map fun h => (h.number, h.kind, h.source)
  next : s.nextCallback = p.added
  created : s.nextElement = p.created
  cells : (s.cells.map fun x => (x.1, x.2.1)) = p.handlers.filterMap cellOf
  values : s.values = p.values
  log : s.log = p.log
  stuck : s.stuck = false
  reading : s.browser.reading = p.reading.map fun x => (x.1.number, x.2)
  nodup : (p.handlers.map (·.number)).Nodup
  bound : ∀ h ∈ p.handlers, h.number < p.added
  born : ∀ e ∈ s.elements, e < p.created
  core : Core (front s) p.handlers
  nodes : ∀ e ∈ s.elements, e ∈ (front s).nodes
  removed : ∀ c ∈ s.queue, c.isEvent = true → ∃ id, c = .removeNode id ∧ id ∉ s.elements ∧ id < p.created
  files : ∀ x ∈ p.reading, x.1.kind = .dropFile ∧ Known p x.1 ∧ filesSize x.2 < 2 ^ 30

/-- The subscriptions of elements that exist. -/
structure Subs (s : App) (p : Spec) : Prop where
  subscriptions : s.subscriptions = p.handlers.map fun h => (h.element, h.kind, h.number)
  elements : ∀ h ∈ p.handlers, h.element ∈ s.elements

theorem add_mid {s : App} {p : Spec} (hm : Mid s p) (hs : Subs s p) {element : Nat} (hel : element ∈ s.elements) (h : Kind × Source) :
    Mid (addListener element s h) { p with handlers := p.handlers ++ [⟨p.added, element, h.1, h.2⟩], added := p.added + 1 } ∧
    Subs (addListener element s h) { p with handlers := p.handlers ++ [⟨p.added, element, h.1, h.2⟩], added := p.added + 1 } := by
  have hnew : ∀ x ∈ p.handlers, x.number ≠ p.added := fun x hx => Nat.ne_of_lt (hm.bound x hx)
  have hfront : front (addListener element s h) = callbackAdd (front s) element h.1.name p.added := by
    rw [front, addListener, hm.next]
    exact front_snoc s _ rfl
  obtain ⟨c1, c2, c3⟩ := core_add hm.core (h := ⟨p.added, element, h.1, h.2⟩) hnew (hm.nodes _ hel)
  refine ⟨⟨?_, ?_, hm.created, ?_, hm.values, hm.log, hm.stuck, hm.reading, ?_, ?_, hm.born, ?_, ?_, ?_, ?_⟩, ?_, ?_⟩
  · simp [addListener, hm.store, hm.next]
  · simp [addListener, hm.next]
  · simp only [addListener, List.filterMap_append, ← hm.cells]
    cases h.2 <;> simp [cellOf, hm.next]
  · simp only [List.map_append, List.map_cons, List.map_nil]
    rw [List.nodup_append]
    refine ⟨hm.nodup, by simp, ?_⟩
    intro a ha b hb
    simp only [List.mem_singleton] at hb
    obtain ⟨x, hx, rfl⟩ := List.mem_map.1 ha
    rw [hb]
    exact hnew x hx
  · intro x hx
    rcases List.mem_append.1 hx with hx | hx
    · exact Nat.lt_succ_of_lt (hm.bound x hx)
    · simp only [List.mem_singleton] at hx
      subst hx
      exact Nat.lt_succ_self _
  · rw [hfront]; exact c1
  · intro e he
    rw [hfront]
    show e ∈ (callbackAdd (front s) element h.1.name p.added).nodes
    rw [c2]
    exact hm.nodes e he
  · intro c hc he
    simp only [addListener, List.mem_append, List.mem_singleton] at hc
    rcases hc with hc | rfl
    · exact hm.removed c hc he
    · simp [Command.isEvent] at he
  · intro x hx
    obtain ⟨f1, f2, f3⟩ := hm.files x hx
    refine ⟨f1, ⟨Nat.lt_succ_of_lt f2.number, ?_⟩, f3⟩
    intro y hy e
    rcases List.mem_append.1 hy with hy | hy
    · exact f2.same y hy e
    · simp only [List.mem_singleton] at hy
      subst hy
      have := f2.number
      simp only at e
      omega
  · simp [addListener, hs.subscriptions, hm.next]
  · intro x hx
    rcases List.mem_append.1 hx with hx | hx
    · exact hs.elements x hx
    · simp only [List.mem_singleton] at hx
      subst hx
      exact hel

theorem addAll_mid {element : Nat} : ∀ (hs : List (Kind × Source)) {s : App} {p : Spec}, Mid s p → Subs s p → element ∈ s.elements →
    Mid (hs.foldl (addListener element) s) { p with handlers := p.handlers ++ number element p.added hs, added := p.added + hs.length } ∧
    Subs (hs.foldl (addListener element) s) { p with handlers := p.handlers ++ number element p.added hs, added := p.added + hs.length }
  | [], s, p, hm, hs', _ => by simpa [number] using ⟨hm, hs'⟩
  | h :: hs, s, p, hm, hs', hel => by
    obtain ⟨h1, h2⟩ := add_mid hm hs' hel h
    have := addAll_mid hs h1 h2 hel
    simpa [number, Nat.add_comm, Nat.add_assoc, Nat.add_left_comm] using this

theorem drop_mid {s : App} {p : Spec} (hm : Mid s p) {h : Handler} (hh : h ∈ p.handlers) (hel : h.element ∈ (front s).nodes) :
    Mid (dropListener s (h.element, h.kind, h.number)) { p with handlers := p.handlers.filter fun x => x.number ≠ h.number } ∧
      (front (dropListener s (h.element, h.kind, h.number))).nodes = (front s).nodes := by
  have hfront : front (dropListener s (h.element, h.kind, h.number)) = callbackRemove (front s) h.element h.kind.name h.number := by
    rw [front, dropListener]
    exact front_snoc s _ rfl
  obtain ⟨c1, c2, c3⟩ := core_remove hm.core hm.nodup hh hel
  refine ⟨⟨?_, hm.next, hm.created, ?_, hm.values, hm.log, hm.stuck, hm.reading, ?_, ?_, hm.born, ?_, ?_, ?_, ?_⟩, by rw [hfront, c2]⟩
  · simp only [dropListener, hm.store, List.filter_map]; rfl
  · have hcell : ∀ l : List Handler, (l.filterMap cellOf).filter (fun x => decide (x.1 ≠ h.number)) = (l.filter fun x => x.number ≠ h.number).filterMap cellOf := by
      intro l
      induction l with
      | nil => rfl
      | cons x l ih =>
        obtain ⟨n, e, k, src⟩ := x
        cases src with
        | basic f =>
          have e1 : cellOf ⟨n, e, k, .basic f⟩ = none := rfl
          simp only [List.filterMap_cons, e1, List.filter_cons]
          rw [ih]
          split <;> simp [e1]
        | computed c =>
          have e1 : cellOf ⟨n, e, k, .computed c⟩ = some (n, c) := rfl
          simp only [List.filterMap_cons, e1, List.filter_cons]
          rw [ih]
          split <;> simp [e1]
    simp only [dropListener, ← hcell, ← hm.cells, List.filter_map]
    rfl
  · exact hm.nodup.sublist (List.filter_sublist.map _)
  · exact fun x hx => hm.bound x (List.mem_filter.1 hx).1
  · rw [hfront]; exact c1
  · intro e he
    rw [hfront, c2]
    exact hm.nodes e he
  · intro c hc he
    simp only [dropListener, List.mem_append, List.mem_singleton] at hc
    rcases hc with hc | rfl
    · exact hm.removed c hc he
    · simp [Command.isEvent] at he
  · intro x hx
    obtain ⟨f1, f2, f3⟩ := hm.files x hx
    exact ⟨f1, ⟨f2.number, fun y hy e => f2.same y (List.mem_filter.1 hy).1 e⟩, f3⟩

theorem dropAll_mid : ∀ (D : List Handler) {s : App} {p : Spec}, Mid s p → (D.map (·.number)).Nodup → (∀ h ∈ D, h ∈ p.handlers) →
    (∀ h ∈ D, h.element ∈ (front s).nodes) →
    Mid ((D.map fun h => (h.element, h.kind, h.number)).foldl dropListener s)
      { p with handlers := p.handlers.filter fun x => ∀ h ∈ D, x.number ≠ h.number }
  | [], s, p, hm, _, _, _ => by simpa using hm
  | h :: D, s, p, hm, hn, hin, hel => by
    simp only [List.map_cons, List.nodup_cons] at hn
    obtain ⟨h1, h2⟩ := drop_mid hm (hin h List.mem_cons_self) (hel h List.mem_cons_self)
    have := dropAll_mid D h1 hn.2 (by
      intro x hx
      refine List.mem_filter.2 ⟨hin x (List.mem_cons_of_mem _ hx), ?_⟩
      simp only [ne_eq, decide_not, Bool.not_eq_eq_eq_not, Bool.not_true, decide_eq_false_iff_not]
      exact fun e => hn.1 (List.mem_map.2 ⟨x, hx, e⟩)) (by
      intro x hx
      rw [h2]
      exact hel x (List.mem_cons_of_mem _ hx))
    simp only [List.map_cons, List.foldl_cons]
    refine Eq.mp ?_ this
    congr 2
    simp only [List.filter_filter]
    apply List.filter_congr
    intro x _
    simp [Bool.and_comm]

theorem op_mid {s : App} {p : Spec} (hm : Mid s p) (hs : Subs s p) (o : Op) : Mid (doOp s o) (p.op o) ∧ Subs (doOp s o) (p.op o) := by
  cases o with
  | create hs' =>
    simp only [doOp, Spec.op]
    have hfront : front { s with queue := s.queue ++ [.createNode s.nextElement], elements := s.elements ++ [s.nextElement], nextElement := s.nextElement + 1 } =
        { front s with nodes := (front s).nodes ++ [s.nextElement] } := front_snoc s (.createNode s.nextElement) rfl
    have hmid : Mid { s with queue := s.queue ++ [.createNode s.nextElement], elements := s.elements ++ [s.nextElement], nextElement := s.nextElement + 1 }
        { p with created := p.created + 1 } := by
      refine ⟨hm.store, hm.next, by simp [hm.created], hm.cells, hm.values, hm.log, hm.stuck, hm.reading, hm.nodup, hm.bound, ?_, ?_, ?_, ?_, ?_⟩
      · intro e he
        simp only [List.mem_append, List.mem_singleton] at he
        rcases he with he | rfl
        · exact Nat.lt_succ_of_lt (hm.born e he)
        · rw [hm.created]; exact Nat.lt_succ_self _
      · rw [hfront]; exact ⟨hm.core.callbacks, hm.core.listeners⟩
      · intro e he
        rw [hfront]
        simp only [List.mem_append, List.mem_singleton] at he ⊢
        exact he.imp_left (hm.nodes e)
      · intro c hc he
        simp only [List.mem_append, List.mem_singleton] at hc
        rcases hc with hc | rfl
        · obtain ⟨id, h1, h2, h3⟩ := hm.removed c hc he
          refine ⟨id, h1, ?_, Nat.lt_succ_of_lt h3⟩
          simp only [List.mem_append, List.mem_singleton, not_or]
          refine ⟨h2, ?_⟩
          rw [hm.created]
          omega
        · simp [Command.isEvent] at he
      · intro x hx
        obtain ⟨f1, f2, f3⟩ := hm.files x hx
        exact ⟨f1, ⟨f2.number, f2.same⟩, f3⟩
    have hsub : Subs { s with queue := s.queue ++ [.createNode s.nextElement], elements := s.elements ++ [s.nextElement], nextElement := s.nextElement + 1 }
        { p with created := p.created + 1 } := ⟨hs.subscriptions, fun h hh => List.mem_append_left _ (hs.elements h hh)⟩
    have := addAll_mid (element := s.nextElement) hs' hmid hsub (List.mem_append_right _ (List.mem_singleton.2 rfl))
    rw [hm.created] at this ⊢
    exact this
  | drop element =>
    simp only [doOp, Spec.op]
    by_cases he : element ∈ s.elements
    · simp only [if_pos he]
      have hfront : front { s with queue := s.queue ++ [.removeNode element], elements := s.elements.filter (· ≠ element), subscriptions := s.subscriptions.filter (·.1 ≠ element) } =
          front s := front_event s (.removeNode element) rfl
      have hmid : Mid { s with queue := s.queue ++ [.removeNode element], elements := s.elements.filter (· ≠ element), subscriptions := s.subscriptions.filter (·.1 ≠ element) } p := by
        refine ⟨hm.store, hm.next, hm.created, hm.cells, hm.values, hm.log, hm.stuck, hm.reading, hm.nodup, hm.bound, ?_, ?_, ?_, ?_, hm.files⟩
        · exact fun e he => hm.born e (List.mem_filter.1 he).1
        · rw [hfront]; exact hm.core
        · intro e he
          rw [hfront]
          exact hm.nodes e (List.mem_filter.1 he).1
        · intro c hc hce
          simp only [List.mem_append, List.mem_singleton] at hc
          rcases hc with hc | rfl
          · obtain ⟨id, h1, h2, h3⟩ := hm.removed c hc hce
            exact ⟨id, h1, fun h => h2 (List.mem_filter.1 h).1, h3⟩
          · exact ⟨element, rfl, by simp, hm.born _ he⟩
      have hD : s.subscriptions.filter (·.1 = element) = (p.handlers.filter fun h => h.element = element).map fun h => (h.element, h.kind, h.number) := by
        rw [hs.subscriptions, List.filter_map]; rfl
      have := dropAll_mid (p.handlers.filter fun h => h.element = element) hmid (hm.nodup.sublist (List.filter_sublist.map _))
        (fun h hh => (List.mem_filter.1 hh).1) (by
          intro h hh
          rw [hfront]
          have := (List.mem_filter.1 hh).2
          simp only [decide_eq_true_eq] at this
          rw [this]
          exact hm.nodes _ he)
      have hfilter : (p.handlers.filter fun x : Handler => decide (∀ h ∈ p.handlers.filter (fun h : Handler => decide (h.element = element)), x.number ≠ h.number)) =
          p.handlers.filter fun x : Handler => decide (x.element ≠ element) := by
        apply List.filter_congr
        intro x hx
        simp only [decide_eq_decide, List.mem_filter, decide_eq_true_eq]
        constructor
        · intro h e
          exact h x ⟨hx, e⟩ rfl
        · rintro h y ⟨hy, e⟩ e'
          rw [same hm.nodup hx hy e'] at h
          exact h e
      rw [hfilter] at this
      rw [hD]
      refine ⟨this, ?_, ?_⟩
      · have hfold : ∀ (l : List (Nat × Kind × Nat)) (t : App), (l.foldl dropListener t).subscriptions = t.subscriptions := by
          intro l
          induction l with
          | nil => intro t; rfl
          | cons a l ih => intro t; rw [List.foldl_cons, ih]; rfl
        rw [hfold]
        simp only [hs.subscriptions, List.filter_map]
        rfl
      · have hfold : ∀ (l : List (Nat × Kind × Nat)) (t : App), (l.foldl dropListener t).elements = t.elements := by
          intro l
          induction l with
          | nil => intro t; rfl
          | cons a l ih => intro t; rw [List.foldl_cons, ih]; rfl
        intro h hh
        rw [hfold]
        obtain ⟨h1, h2⟩ := List.mem_filter.1 hh
        exact List.mem_filter.2 ⟨hs.elements h h1, h2⟩
    · simp only [if_neg he]
      have : (p.handlers.filter fun x => decide (x.element ≠ element)) = p.handlers := by
        rw [List.filter_eq_self]
        intro h hh
        simp only [ne_eq, decide_not, Bool.not_eq_eq_eq_not, Bool.not_true, decide_eq_false_iff_not]
        intro e
        exact he (e ▸ hs.elements h hh)
      rw [this]
      exact ⟨hm, hs⟩
  | set c f =>
    simp only [doOp, Spec.op]
    refine ⟨⟨hm.store, hm.next, hm.created, hm.cells, ?_, hm.log, hm.stuck, hm.reading, hm.nodup, hm.bound, hm.born, hm.core, hm.nodes, hm.removed, ?_⟩,
      hs.subscriptions, hs.elements⟩
    · simp [hm.values]
    · intro x hx
      obtain ⟨f1, f2, f3⟩ := hm.files x hx
      exact ⟨f1, ⟨f2.number, f2.same⟩, f3⟩

theorem ops_mid : ∀ (ops : List Op) {s : App} {p : Spec}, Mid s p → Subs s p → Mid (ops.foldl doOp s) (ops.foldl Spec.op p) ∧ Subs (ops.foldl doOp s) (ops.foldl Spec.op p)
  | [], _, _, hm, hs => ⟨hm, hs⟩
  | o :: ops, _, _, hm, hs => by
    obtain ⟨h1, h2⟩ := op_mid hm hs o
    exact ops_mid ops h1 h2

/-! ## Between transactions -/

/-- The value of the cell of a handler. -/
def cellIn (values : Nat → Nat) (h : Handler) : Option (Nat × Nat × Nat) :=
  match h.source with
  | .basic _ => none
  | .computed c => some (h.number, c, values c)

/-- The state between transactions. -/
structure Rel (s : App) (p : Spec) : Prop where
  mid : Mid s p
  subs : Subs s p
  queue : s.queue = []
  cells : s.cells = p.handlers.filterMap (cellIn p.values)

theorem removes (elements : List Nat) : ∀ (l : List Command) (b : Browser), (∀ c ∈ l, ∃ id, c = .removeNode id ∧ id ∉ elements) →
    (l.foldl execute b).callbacks = b.callbacks ∧ (l.foldl execute b).listeners = b.listeners ∧ (l.foldl execute b).reading = b.reading ∧
      ∀ e ∈ elements, e ∈ b.nodes → e ∈ (l.foldl execute b).nodes
  | [], b, _ => ⟨rfl, rfl, rfl, fun _ _ h => h⟩
  | c :: l, b, h => by
    obtain ⟨id, rfl, hid⟩ := h c List.mem_cons_self
    obtain ⟨h1, h2, h3, h4⟩ := removes elements l (execute b (.removeNode id)) fun c hc => h c (List.mem_cons_of_mem _ hc)
    refine ⟨h1, h2, h3, ?_⟩
    intro e he hb
    refine h4 e he (List.mem_filter.2 ⟨hb, ?_⟩)
    simp only [ne_eq, decide_not, Bool.not_eq_eq_eq_not, Bool.not_true, decide_eq_false_iff_not]
    rintro rfl
    exact hid he

theorem execute_reading (b : Browser) (c : Command) : (execute b c).reading = b.reading := by
  cases c with
  | createNode id => rfl
  | removeNode id => rfl
  | callbackAdd id name cb => simp only [execute, callbackAdd]; split_ifs <;> rfl
  | callbackRemove id name cb =>
    simp only [execute, callbackRemove]
    cases List.lookup cb b.callbacks with
    | none => rfl
    | some m => simp only; split_ifs <;> rfl

theorem executes_reading : ∀ (l : List Command) (b : Browser), (l.foldl execute b).reading = b.reading
  | [], _ => rfl
  | c :: l, b => by rw [List.foldl_cons, executes_reading l, execute_reading]

theorem commit_rel {s : App} {p : Spec} (hm : Mid s p) (hs : Subs s p) : Rel (commit s) p := by
  have hb : (commit s).browser = (s.queue.filter (·.isEvent)).foldl execute (front s) := by
    simp only [commit, sortCommands, List.foldl_append]; rfl
  obtain ⟨r1, r2, r3, r4⟩ := removes s.elements (s.queue.filter (·.isEvent)) (front s) (by
    intro c hc
    obtain ⟨h1, h2⟩ := List.mem_filter.1 hc
    obtain ⟨id, e, h, _⟩ := hm.removed c h1 h2
    exact ⟨id, e, h⟩)
  have hfront : front (commit s) = (commit s).browser := by simp [front, commit]
  have hc : (commit s).cells = p.handlers.filterMap (cellIn p.values) := by
    have : (commit s).cells = (s.cells.map fun x => (x.1, x.2.1)).map fun x => (x.1, x.2, p.values x.2) := by
      simp only [commit, List.map_map, hm.values]; rfl
    rw [this, hm.cells, List.map_filterMap]
    apply List.filterMap_congr
    intro h _
    simp only [cellOf, cellIn]
    cases h.source <;> rfl
  refine ⟨⟨hm.store, hm.next, hm.created, ?_, hm.values, hm.log, hm.stuck, ?_, hm.nodup, hm.bound, hm.born, ?_, ?_, ?_, hm.files⟩, ⟨hs.subscriptions, hs.elements⟩, rfl, hc⟩
  · rw [← hm.cells]
    simp only [commit, List.map_map]
    rfl
  · rw [hb, r3, front, executes_reading]
    exact hm.reading
  · rw [hfront, hb]
    exact ⟨by rw [r1]; exact hm.core.callbacks, by rw [r2]; exact hm.core.listeners⟩
  · intro e he
    rw [hfront, hb]
    exact r4 e he (hm.nodes e he)
  · intro c hc
    simp [commit] at hc

theorem transaction_rel {s : App} {p : Spec} (h : Rel s p) (ops : List Op) : Rel (transaction s ops) (ops.foldl Spec.op p) := by
  obtain ⟨h1, h2⟩ := ops_mid ops h.mid h.subs
  exact commit_rel h1 h2

theorem Rel.listeners {s : App} {p : Spec} (h : Rel s p) : s.browser.listeners = p.handlers.map listener := by
  have := h.mid.core.listeners
  simpa [front, h.queue] using this

theorem Rel.logged {s : App} {p : Spec} (h : Rel s p) (log : List Entry) : Rel { s with log := log } { p with log := log } := by
  obtain ⟨hm, hs, hq, hc⟩ := h
  refine ⟨⟨hm.store, hm.next, hm.created, hm.cells, hm.values, rfl, hm.stuck, hm.reading, hm.nodup, hm.bound, hm.born, hm.core, hm.nodes, hm.removed, ?_⟩,
    ⟨hs.subscriptions, hs.elements⟩, hq, hc⟩
  intro x hx
  obtain ⟨f1, f2, f3⟩ := hm.files x hx
  exact ⟨f1, ⟨f2.number, f2.same⟩, f3⟩

theorem known_op {p : Spec} {h : Handler} (hk : Known p h) (o : Op) : Known (p.op o) h := by
  have hnum : ∀ (el : Nat) (l : List (Kind × Source)) (n : Nat), ∀ x ∈ number el n l, n ≤ x.number := by
    intro el l
    induction l with
    | nil => intro n x hx; simp [number] at hx
    | cons a l ih =>
      intro n x hx
      simp only [number, List.mem_cons] at hx
      rcases hx with rfl | hx
      · exact Nat.le_refl _
      · exact Nat.le_of_succ_le (ih (n + 1) x hx)
  cases o with
  | create hs =>
    refine ⟨Nat.lt_of_lt_of_le hk.number (Nat.le_add_right _ _), ?_⟩
    intro x hx e
    rcases List.mem_append.1 hx with hx | hx
    · exact hk.same x hx e
    · have := hnum _ _ _ x hx
      have := hk.number
      omega
  | drop el => exact ⟨hk.number, fun x hx e => hk.same x (List.mem_filter.1 hx).1 e⟩
  | set c f => exact ⟨hk.number, hk.same⟩

theorem known_ops {h : Handler} : ∀ (ops : List Op) {p : Spec}, Known p h → Known (ops.foldl Spec.op p) h
  | [], _, hk => hk
  | o :: ops, _, hk => known_ops ops (known_op hk o)

theorem Rel.known {s : App} {p : Spec} (hr : Rel s p) {h : Handler} (hh : h ∈ p.handlers) : Known p h :=
  ⟨hr.mid.bound h hh, fun _ hx e => same hr.mid.nodup hx hh e⟩

theorem Rel.current {s : App} {p : Spec} (hr : Rel s p) {h : Handler} (hh : h ∈ p.handlers) :
    Events.current s h.number h.source = some (p.function h.source) := by
  cases hsrc : h.source with
  | basic f => rfl
  | computed c =>
    have : ∀ {l : List Handler}, (l.map (·.number)).Nodup → h ∈ l → (l.filterMap (cellIn p.values)).lookup h.number = some (c, p.values c) := by
      intro l
      induction l with
      | nil => intro _ hm; simp at hm
      | cons x l ih =>
        intro hn hm
        simp only [List.map_cons, List.nodup_cons] at hn
        rcases List.mem_cons.1 hm with rfl | hm
        · simp [cellIn, hsrc]
        · have hne : (h.number == x.number) = false := by
            simp only [beq_eq_false_iff_ne]
            exact fun e => hn.1 (List.mem_map.2 ⟨h, hm, e⟩)
          simp only [List.filterMap_cons, cellIn]
          cases x.source with
          | basic f => exact ih hn.2 hm
          | computed d =>
            simp only [List.lookup, hne]
            exact ih hn.2 hm
    simp only [Events.current, hr.cells, this hr.mid.nodup hh, Option.map_some, Spec.function]

/-! ## Calls -/

theorem receive_eq (lossy : List UInt8 → String) {v : JsValue} (h : v = .tru ∨ v = .fls ∨ v = .undefined) : receive lossy v = v := by
  have key : ∀ v : JsValue, v.WF → Ts.JsSafe v → v.wireLen < 2 ^ 32 → ∃ m, v.toSnapshot = .ok m ∧ Ts.jsValueDecode lossy m.written 0 m.size = v := by
    intro v h1 h2 h3
    obtain ⟨w, hw, -⟩ := C17_same_bytes v h3
    exact ⟨w, hw, C17_rust_to_ts_partial lossy v h1 h2 h3 _ 0 w hw [] (by simp) (Nat.zero_le _)⟩
  rcases h with rfl | rfl | rfl
  · obtain ⟨m, h1, h2⟩ := key .tru (by simp [JsValue.WF]) (by simp [Ts.JsSafe]) (by simp [JsValue.wireLen])
    simp only [receive, h1, h2]
  · obtain ⟨m, h1, h2⟩ := key .fls (by simp [JsValue.WF]) (by simp [Ts.JsSafe]) (by simp [JsValue.wireLen])
    simp only [receive, h1, h2]
  · rfl

theorem call_rel (program : Program) (lossy : List UInt8 → String) {s : App} {p : Spec} (hr : Rel s p) {h : Handler} (hh : h ∈ p.handlers)
    {v : JsValue} (hv : transfer v = .value v) {d : Data} {res : Bool → JsValue} (hc : closure h.kind v = .inl (d, res))
    (hres : ∀ a, res a = .tru ∨ res a = .fls ∨ res a = .undefined) :
    Rel (callRust program lossy s h.number v).1 (p.call program h d).1 ∧ (callRust program lossy s h.number v).2 = res (p.call program h d).2 ∧
      ∀ x, Known p x → Known (p.call program h d).1 x := by
  have hst : s.store.lookup h.number = some (h.kind, h.source) := by
    rw [hr.mid.store]
    exact lookup_map (fun h => (h.kind, h.source)) hr.mid.nodup hh
  simp only [callRust, hv, wasmCallback, hst, hc, hr.current hh, Spec.call]
  rw [hr.mid.log]
  refine ⟨transaction_rel (hr.logged _) _, receive_eq lossy (hres _), ?_⟩
  intro x hx
  exact known_ops _ ⟨hx.number, hx.same⟩

theorem transfer_str {s : String} (h : s.utf8ByteSize < 2 ^ 30) : transfer (.str s) = .value (.str s) :=
  transfer_ok (by simp [JsValue.WF]) (by simp [JsValue.NoObject]) (by simp only [JsValue.wireLen]; omega)

theorem action_kind (k : Kind) (e : Event) : action k.name e = (match k with
    | .click => callbackClick
    | .mouseDown | .mouseUp => callbackMouse
    | .mouseEnter | .mouseLeave | .blur => callbackPlain
    | .input => callbackInput e
    | .change => callbackChange e
    | .keyDown | .hookKeyDown => callbackKeydown e
    | .dropFile => callbackDrop e
    | .load => callbackLoad) := by
  cases k <;> simp [action, Kind.name]

theorem jsBool_cases (a : Bool) : jsBool a = .tru ∨ jsBool a = .fls ∨ jsBool a = .undefined := by
  cases a <;> simp [jsBool]

theorem undefined_cases (a : Bool) : (fun _ : Bool => JsValue.undefined) a = .tru ∨ (fun _ : Bool => JsValue.undefined) a = .fls ∨
    (fun _ : Bool => JsValue.undefined) a = .undefined := .inr (.inr rfl)

theorem truthy_jsBool (a : Bool) : truthy (jsBool a) = a := by cases a <;> simp [jsBool, truthy]

theorem key_decode (k : Key) : getKeyDownEvent (.list [.str k.key, .str k.code, jsBool k.alt, jsBool k.ctrl, jsBool k.shift, jsBool k.metaKey]) = some k := by
  obtain ⟨a, b, c, d, e, f⟩ := k
  cases c <;> cases d <;> cases e <;> cases f <;> simp [getKeyDownEvent, getString, getBool, jsBool]

theorem key_transfer {k : Key} (h1 : k.key.utf8ByteSize < 2 ^ 30) (h2 : k.code.utf8ByteSize < 2 ^ 30) :
    transfer (.list [.str k.key, .str k.code, jsBool k.alt, jsBool k.ctrl, jsBool k.shift, jsBool k.metaKey]) =
      .value (.list [.str k.key, .str k.code, jsBool k.alt, jsBool k.ctrl, jsBool k.shift, jsBool k.metaKey]) := by
  have hb : ∀ b : Bool, (jsBool b).WF ∧ (jsBool b).NoObject ∧ (jsBool b).wireLen = 1 := by
    intro b; cases b <;> simp [jsBool, JsValue.WF, JsValue.NoObject, JsValue.wireLen]
  refine transfer_ok ?_ ?_ ?_
  · simp [JsValue.WF, JsValue.WFL, (hb _).1]
  · simp [JsValue.NoObject, JsValue.NoObjectL, (hb _).2.1]
  · simp only [JsValue.wireLen, JsValue.wireLenL, (hb _).2.2]; omega

theorem files_decode (files : List (String × List UInt8)) : getFiles (filesValue files) = some files := by
  simp only [getFiles, filesValue]
  induction files with
  | nil => rfl
  | cons f l ih =>
    obtain ⟨n, d⟩ := f
    simp only [List.map_cons, List.mapM_cons, ih]
    rfl

theorem files_transfer {files : List (String × List UInt8)} (h : filesSize files < 2 ^ 30) : transfer (filesValue files) = .value (filesValue files) := by
  have h1 : ∀ l : List (String × List UInt8), filesSize l < 2 ^ 30 →
      JsValue.WFL (l.map fun f => .list [.str f.1, .vec f.2]) ∧ JsValue.NoObjectL (l.map fun f => .list [.str f.1, .vec f.2]) ∧
      JsValue.wireLenL (l.map fun f => .list [.str f.1, .vec f.2]) ≤ filesSize l ∧ l.length ≤ filesSize l := by
    intro l
    induction l with
    | nil => intro _; simp [JsValue.WFL, JsValue.NoObjectL, JsValue.wireLenL, filesSize]
    | cons f l ih =>
      intro hs
      have hc : filesSize (f :: l) = f.1.utf8ByteSize + f.2.length + 20 + filesSize l := by simp [filesSize]
      obtain ⟨i1, i2, i3, i4⟩ := ih (by omega)
      refine ⟨?_, ?_, ?_, ?_⟩
      · simp only [List.map_cons, JsValue.WFL]
        refine ⟨?_, i1⟩
        simp [JsValue.WF, JsValue.WFL]
      · simp only [List.map_cons, JsValue.NoObjectL]
        refine ⟨?_, i2⟩
        simp [JsValue.NoObject, JsValue.NoObjectL]
      · simp only [List.map_cons, JsValue.wireLenL, JsValue.wireLen]; omega
      · simp only [List.length_cons]; omega
  obtain ⟨i1, i2, i3, i4⟩ := h1 files h
  refine transfer_ok ?_ ?_ ?_
  · simp only [filesValue, JsValue.WF, JsValue.WFL]
    simp [i1]
  · simp only [filesValue, JsValue.NoObject, JsValue.NoObjectL]
    simp [i2]
  · simp only [filesValue, JsValue.wireLen, JsValue.wireLenL]; omega

/-- What `invoke` must do. -/
structure Agree (p : Spec) (a : App × Flags) (b : Spec × Flags) : Prop where
  rel : Rel a.1 b.1
  flags : a.2 = b.2
  known : ∀ x, Known p x → Known b.1 x

theorem invoke_rel (program : Program) (lossy : List UInt8 → String) {e : Event} (he : e.Fits) {s : App} {p : Spec} (hr : Rel s p) (f : Flags) {h : Handler}
    (hk : Known p h) : Agree p (invoke program lossy e (s, f) (listener h)) (Spec.invoke program e (p, f) h) := by
  have hmem : listener h ∈ s.browser.listeners ↔ h ∈ p.handlers := by
    rw [hr.listeners]
    constructor
    · intro hm
      obtain ⟨x, hx, e⟩ := List.mem_map.1 hm
      rw [← hk.same x hx (congrArg Listener.callback e)]
      exact hx
    · exact fun hm => List.mem_map.2 ⟨h, hm, rfl⟩
  simp only [invoke, Spec.invoke]
  by_cases hh : h ∈ p.handlers
  · rw [if_pos (hmem.2 hh), if_pos hh]
    have hname : (listener h).name = h.kind.name := rfl
    have hnum : (listener h).callback = h.number := rfl
    rw [hname, hnum, action_kind]
    obtain ⟨e1, e2, e3⟩ := he
    have keys : ∀ k, h.kind = k → (k = .keyDown ∨ k = .hookKeyDown) → Agree p
        (match callbackKeydown e with
          | .ignore prevent => (s, { f with prevented := f.prevented || prevent })
          | .read prevent files =>
              ({ s with browser := { s.browser with reading := s.browser.reading ++ [(h.number, files)] } }, { f with prevented := f.prevented || prevent })
          | .call prevent value after =>
              ((callRust program lossy s h.number value).1,
                ⟨f.prevented || prevent || (after (callRust program lossy s h.number value).2).1, f.stopped || (after (callRust program lossy s h.number value).2).2⟩))
        (match e.key.map Data.key with
          | none => (p, ⟨f.prevented || false, f.stopped⟩)
          | some data => ((p.call program h data).1, ⟨f.prevented || (p.call program h data).2, f.stopped || (p.call program h data).2⟩)) := by
      intro k hkind hkk
      cases hkey : e.key with
      | none =>
        simp only [callbackKeydown, hkey, Option.map_none, Bool.or_false]
        exact ⟨hr, rfl, fun _ h => h⟩
      | some key =>
        simp only [callbackKeydown, hkey, Option.map_some]
        obtain ⟨s1, s2⟩ := e2 key (by simp [hkey])
        obtain ⟨c1, c2, c3⟩ := call_rel program lossy hr hh (key_transfer s1 s2) (d := .key key) (res := jsBool) (by
          rw [hkind]
          rcases hkk with rfl | rfl <;> simp only [closure, key_decode]) jsBool_cases
        refine ⟨c1, ?_, c3⟩
        simp only [c2]
        cases (p.call program h (.key key)).2 <;> simp [jsBool]
    have texts : ∀ v, v.utf8ByteSize < 2 ^ 30 → (h.kind = .input ∨ h.kind = .change) → Agree p
        ((callRust program lossy s h.number (.str v)).1,
          ⟨f.prevented || false || (nothing (callRust program lossy s h.number (.str v)).2).1, f.stopped || (nothing (callRust program lossy s h.number (.str v)).2).2⟩)
        ((p.call program h (.text v)).1, ⟨f.prevented, f.stopped⟩) := by
      intro v hv hkk
      obtain ⟨c1, c2, c3⟩ := call_rel program lossy hr hh (transfer_str hv) (d := .text v) (res := fun _ => .undefined) (by
        rcases hkk with hk | hk <;> rw [hk] <;> rfl) undefined_cases
      exact ⟨c1, by simp [nothing], c3⟩
    have plain : ∀ prevent, closure h.kind .undefined = .inl (.unit, fun _ => .undefined) → Agree p
        ((callRust program lossy s h.number .undefined).1,
          ⟨f.prevented || prevent || (nothing (callRust program lossy s h.number .undefined).2).1, f.stopped || (nothing (callRust program lossy s h.number .undefined).2).2⟩)
        ((p.call program h .unit).1, ⟨f.prevented || prevent, f.stopped⟩) := by
      intro prevent hc
      obtain ⟨c1, c2, c3⟩ := call_rel program lossy hr hh (v := .undefined) rfl hc undefined_cases
      exact ⟨c1, by simp [nothing], c3⟩
    have mouse : closure h.kind .undefined = .inl (.unit, jsBool) → Agree p
        ((callRust program lossy s h.number .undefined).1,
          ⟨f.prevented || false || truthy (callRust program lossy s h.number .undefined).2, f.stopped || false⟩)
        ((p.call program h .unit).1, ⟨f.prevented || (p.call program h .unit).2, f.stopped⟩) := by
      intro hc
      obtain ⟨c1, c2, c3⟩ := call_rel program lossy hr hh (v := .undefined) rfl hc jsBool_cases
      exact ⟨c1, by simp [c2, truthy_jsBool], c3⟩
    cases hkind : h.kind with
    | click => simpa [callbackClick, sees, preventsAlways, preventsIfAsked, stopsIfAsked] using plain true (by rw [hkind]; rfl)
    | load => simpa [callbackLoad, sees, preventsAlways, preventsIfAsked, stopsIfAsked] using plain true (by rw [hkind]; rfl)
    | mouseEnter => simpa [callbackPlain, sees, preventsAlways, preventsIfAsked, stopsIfAsked] using plain false (by rw [hkind]; rfl)
    | mouseLeave => simpa [callbackPlain, sees, preventsAlways, preventsIfAsked, stopsIfAsked] using plain false (by rw [hkind]; rfl)
    | blur => simpa [callbackPlain, sees, preventsAlways, preventsIfAsked, stopsIfAsked] using plain false (by rw [hkind]; rfl)
    | mouseDown => simpa [callbackMouse, sees, preventsAlways, preventsIfAsked, stopsIfAsked] using mouse (by rw [hkind]; rfl)
    | mouseUp => simpa [callbackMouse, sees, preventsAlways, preventsIfAsked, stopsIfAsked] using mouse (by rw [hkind]; rfl)
    | keyDown =>
      have := keys _ hkind (.inl rfl)
      simp only [sees, preventsAlways, preventsIfAsked, stopsIfAsked, reduceCtorEq, if_false, Bool.true_and, Bool.or_false, or_false, or_true,
        decide_false, decide_true]
      simp only [Bool.or_false] at this
      exact this
    | hookKeyDown =>
      have := keys _ hkind (.inr rfl)
      simp only [sees, preventsAlways, preventsIfAsked, stopsIfAsked, reduceCtorEq, if_false, Bool.true_and, Bool.or_false, or_false, or_true,
        decide_false, decide_true]
      simp only [Bool.or_false] at this
      exact this
    | input =>
      cases ht : e.target with
      | input v => rw [ht] at e1; simpa [callbackInput, ht, sees, preventsAlways, preventsIfAsked, stopsIfAsked] using texts v e1 (.inl hkind)
      | textArea v => rw [ht] at e1; simpa [callbackInput, ht, sees, preventsAlways, preventsIfAsked, stopsIfAsked] using texts v e1 (.inl hkind)
      | select v => simpa [callbackInput, ht, sees, preventsAlways] using (⟨hr, rfl, fun _ h => h⟩ : Agree p (s, f) (p, f))
      | other => simpa [callbackInput, ht, sees, preventsAlways] using (⟨hr, rfl, fun _ h => h⟩ : Agree p (s, f) (p, f))
    | change =>
      cases ht : e.target with
      | input v => rw [ht] at e1; simpa [callbackChange, ht, sees, preventsAlways, preventsIfAsked, stopsIfAsked] using texts v e1 (.inr hkind)
      | textArea v => rw [ht] at e1; simpa [callbackChange, ht, sees, preventsAlways, preventsIfAsked, stopsIfAsked] using texts v e1 (.inr hkind)
      | select v => rw [ht] at e1; simpa [callbackChange, ht, sees, preventsAlways, preventsIfAsked, stopsIfAsked] using texts v e1 (.inr hkind)
      | other => simpa [callbackChange, ht, sees, preventsAlways] using (⟨hr, rfl, fun _ h => h⟩ : Agree p (s, f) (p, f))
    | dropFile =>
      simp only [if_true]
      have hact : callbackDrop e = if dropped e = [] then .ignore true else .read true (dropped e) := by
        simp only [callbackDrop, dropped]
        split
        · rename_i h1; simp [h1]
        · rename_i h1; simp [h1]
        · rename_i items h1
          simp only [h1]
          split
          · rename_i h2; rw [if_pos h2]
          · rename_i h2; rw [if_neg h2]
      rw [hact]
      by_cases hd : dropped e = []
      · simp only [if_pos hd, preventsAlways]
        exact ⟨hr, by simp, fun _ h => h⟩
      · simp only [if_neg hd, preventsAlways]
        refine ⟨?_, by simp, fun x hx => ⟨hx.number, hx.same⟩⟩
        obtain ⟨hm, hs, hq, hc⟩ := hr
        have hfront : front { s with browser := { s.browser with reading := s.browser.reading ++ [(h.number, dropped e)] } } =
            { s.browser with reading := s.browser.reading ++ [(h.number, dropped e)] } := by simp [front, hq]
        have hfront' : front s = s.browser := by simp [front, hq]
        refine ⟨⟨hm.store, hm.next, hm.created, hm.cells, hm.values, hm.log, hm.stuck, ?_, hm.nodup, hm.bound, hm.born, ?_, ?_, hm.removed, ?_⟩,
          ⟨hs.subscriptions, hs.elements⟩, hq, hc⟩
        · simp [hm.reading]
        · rw [hfront]
          have := hm.core
          rw [hfront'] at this
          exact ⟨this.callbacks, this.listeners⟩
        · intro x hx
          rw [hfront]
          have := hm.nodes x hx
          rwa [hfront'] at this
        · intro x hx
          rcases List.mem_append.1 hx with hx | hx
          · obtain ⟨f1, f2, f3⟩ := hm.files x hx
            exact ⟨f1, ⟨f2.number, f2.same⟩, f3⟩
          · simp only [List.mem_singleton] at hx
            subst hx
            exact ⟨hkind, ⟨hk.number, hk.same⟩, e3⟩
  · rw [if_neg (fun hm => hh (hmem.1 hm)), if_neg hh]
    exact ⟨hr, rfl, fun _ h => h⟩

theorem invokes_rel (program : Program) (lossy : List UInt8 → String) {e : Event} (he : e.Fits) : ∀ (l : List Handler) {s : App} {p : Spec} (f : Flags),
    Rel s p → (∀ h ∈ l, Known p h) → Agree p ((l.map listener).foldl (invoke program lossy e) (s, f)) (l.foldl (Spec.invoke program e) (p, f))
  | [], _, _, _, hr, _ => ⟨hr, rfl, fun _ h => h⟩
  | h :: l, s, p, f, hr, hk => by
    obtain ⟨h1, h2, h3⟩ := invoke_rel program lossy he hr f (hk h List.mem_cons_self)
    simp only [List.map_cons, List.foldl_cons]
    generalize invoke program lossy e (s, f) (listener h) = a at h1 h2
    obtain ⟨a1, a2⟩ := a
    generalize Spec.invoke program e (p, f) h = b at h1 h2 h3
    obtain ⟨b1, b2⟩ := b
    simp only at h1 h2 h3
    subst h2
    obtain ⟨g1, g2, g3⟩ := invokes_rel program lossy he l a2 h1 fun x hx => h3 x (hk x (List.mem_cons_of_mem _ hx))
    exact ⟨g1, g2, fun x hx => g3 x (h3 x hx)⟩

theorem visit_rel (program : Program) (lossy : List UInt8 → String) {e : Event} (he : e.Fits) : ∀ (path : List Target) {s : App} {p : Spec} (f : Flags),
    Rel s p → Rel (visit program lossy e path (s, f)).1 (Spec.visit program e path (p, f)).1 ∧
      (visit program lossy e path (s, f)).2 = (Spec.visit program e path (p, f)).2
  | [], _, _, _, hr => ⟨hr, rfl⟩
  | t :: path, s, p, f, hr => by
    simp only [visit, Spec.visit]
    by_cases hf : f.stopped = true
    · rw [if_pos hf, if_pos hf]
      exact ⟨hr, rfl⟩
    · rw [if_neg hf, if_neg hf]
      have hl : (s.browser.listeners.filter fun l => l.target = t ∧ l.type = e.type) = (p.handlers.filter fun h => h.waits = (t, e.type)).map listener := by
        rw [hr.listeners, List.filter_map]
        congr 1
        apply List.filter_congr
        intro h _
        rw [Bool.eq_iff_iff]
        simp only [Function.comp, decide_eq_true_eq, listener, Prod.ext_iff]
        exact ⟨of_decide_eq_true, decide_eq_true⟩
      rw [hl]
      obtain ⟨h1, h2, -⟩ := invokes_rel program lossy he (p.handlers.filter fun h => h.waits = (t, e.type)) f hr
        fun h hh => hr.known (List.mem_filter.1 hh).1
      generalize ((p.handlers.filter fun h => h.waits = (t, e.type)).map listener).foldl (invoke program lossy e) (s, f) = a at h1 h2
      obtain ⟨a1, a2⟩ := a
      generalize (p.handlers.filter fun h => h.waits = (t, e.type)).foldl (Spec.invoke program e) (p, f) = b at h1 h2
      obtain ⟨b1, b2⟩ := b
      simp only at h1 h2
      subst h2
      exact visit_rel program lossy he path a2 h1

theorem map_eraseIdx {α β : Type} (f : α → β) : ∀ (l : List α) (i : Nat), (l.map f).eraseIdx i = (l.eraseIdx i).map f
  | [], _ => rfl
  | _ :: _, 0 => rfl
  | a :: l, i + 1 => congrArg (f a :: ·) (map_eraseIdx f l i)

theorem step_rel (program : Program) (lossy : List UInt8 → String) {s : App} {p : Spec} (hr : Rel s p) (x : Happening) (hx : x.Fits) :
    Rel (step program lossy s x) (p.step program x) := by
  cases x with
  | run ops => exact transaction_rel hr ops
  | event e path =>
    obtain ⟨h1, h2⟩ := visit_rel program lossy hx path ⟨false, false⟩ hr
    simp only [step, Spec.step, h2, h1.mid.log]
    exact h1.logged _
  | read i ok =>
    simp only [step, Spec.step, hr.mid.reading, List.getElem?_map]
    cases hi : p.reading[i]? with
    | none => exact hr
    | some x =>
      obtain ⟨h, files⟩ := x
      simp only [Option.map_some]
      have hmem : (h, files) ∈ p.reading := List.mem_of_getElem? hi
      obtain ⟨f1, f2, f3⟩ := hr.mid.files _ hmem
      have hr' : Rel { s with browser := { s.browser with reading := (p.reading.map fun x => (x.1.number, x.2)).eraseIdx i } } { p with reading := p.reading.eraseIdx i } := by
        obtain ⟨hm, hs, hq, hc⟩ := hr
        have hfront' : front s = s.browser := by simp [front, hq]
        refine ⟨⟨hm.store, hm.next, hm.created, hm.cells, hm.values, hm.log, hm.stuck, ?_, hm.nodup, hm.bound, hm.born, ?_, ?_, hm.removed, ?_⟩,
          ⟨hs.subscriptions, hs.elements⟩, hq, hc⟩
        · exact map_eraseIdx _ _ _
        · have := hm.core
          rw [hfront'] at this
          have e : front { s with browser := { s.browser with reading := (p.reading.map fun x => (x.1.number, x.2)).eraseIdx i } } =
            { s.browser with reading := (p.reading.map fun x => (x.1.number, x.2)).eraseIdx i } := by simp [front, hq]
          rw [e]
          exact ⟨this.callbacks, this.listeners⟩
        · intro x hx
          have := hm.nodes x hx
          rw [hfront'] at this
          have e : front { s with browser := { s.browser with reading := (p.reading.map fun x => (x.1.number, x.2)).eraseIdx i } } =
            { s.browser with reading := (p.reading.map fun x => (x.1.number, x.2)).eraseIdx i } := by simp [front, hq]
          rw [e]
          exact this
        · intro x hx
          obtain ⟨f1, f2, f3⟩ := hm.files x (List.mem_of_mem_eraseIdx hx)
          exact ⟨f1, ⟨f2.number, f2.same⟩, f3⟩
      cases ok with
      | false => simpa using hr'
      | true =>
        simp only [if_true, true_and]
        by_cases hh : h ∈ p.handlers
        · rw [if_pos hh]
          exact (call_rel program lossy hr' (h := h) hh (files_transfer f3) (d := .files files) (res := fun _ => .undefined) (by
            simp only at f1
            rw [f1]
            simp only [closure, files_decode]) undefined_cases).1
        · rw [if_neg hh]
          have hnone : s.store.lookup h.number = none := by
            rw [hr.mid.store]
            refine lookup_none (fun h => (h.kind, h.source)) _ ?_
            intro x hx e
            have : x = h := f2.same x hx e
            exact hh (this ▸ hx)
          simp only [callRust, files_transfer f3, wasmCallback, hnone]
          exact transaction_rel hr' []

theorem start_rel (values : Nat → Nat) : Rel (start values) (Spec.start values) := by
  refine ⟨⟨rfl, rfl, rfl, rfl, rfl, rfl, rfl, rfl, by simp [Spec.start], by simp [Spec.start], by simp [start], ⟨rfl, rfl⟩, by simp [start], by simp [start],
    by simp [Spec.start]⟩, ⟨rfl, by simp [Spec.start]⟩, rfl, rfl⟩

/-! ## Theorems -/

/-- **C55.** Whatever the program does and whatever happens in the browser, the functions that are called, with their data and in their order, and what is
asked of the browser for each event, are as specified, and there is no panic. -/
theorem C55_refines (program : Program) (lossy : List UInt8 → String) (values : Nat → Nat) (history : List Happening) (hf : ∀ x ∈ history, x.Fits) :
    (history.foldl (step program lossy) (start values)).log = (history.foldl (Spec.step program) (Spec.start values)).log ∧
    (history.foldl (step program lossy) (start values)).stuck = false := by
  have : ∀ (l : List Happening) (s : App) (p : Spec), Rel s p → (∀ x ∈ l, x.Fits) → Rel (l.foldl (step program lossy) s) (l.foldl (Spec.step program) p) := by
    intro l
    induction l with
    | nil => intro s p h _; exact h
    | cons x l ih => intro s p h hx; exact ih _ _ (step_rel program lossy h x (hx x List.mem_cons_self)) fun y hy => hx y (List.mem_cons_of_mem _ hy)
  have h := this history _ _ (start_rel values) hf
  exact ⟨h.mid.log, h.mid.stuck⟩

/-- What an event does to the handlers of the elements on its path if none of them changes anything or stops it. -/
theorem quiet_fold (program : Program) (quiet : ∀ log, program log = (false, [])) (e : Event) : ∀ (l : List Handler) (p : Spec) (f : Flags),
    e.drag = none → (∀ h ∈ l, h ∈ p.handlers) →
    (l.foldl (Spec.invoke program e) (p, f)).1 = { p with log := p.log ++ l.filterMap fun h => (sees h.kind e).map (.called (p.function h.source)) } ∧
    (l.foldl (Spec.invoke program e) (p, f)).2 = ⟨f.prevented || l.any fun h => preventsAlways h.kind, f.stopped⟩
  | [], p, f, _, _ => by simp
  | h :: l, p, f, hd, hl => by
    have hdr : dropped e = [] := by simp [dropped, hd]
    have hh : h ∈ p.handlers := hl h List.mem_cons_self
    have hstep : Spec.invoke program e (p, f) h =
        ({ p with log := p.log ++ ((sees h.kind e).map (Entry.called (p.function h.source))).toList }, ⟨f.prevented || preventsAlways h.kind, f.stopped⟩) := by
      simp only [Spec.invoke, if_pos hh]
      by_cases hk : h.kind = .dropFile
      · simp [hk, hdr, sees]
      · rw [if_neg hk]
        cases sees h.kind e with
        | none => simp
        | some d => simp [Spec.call, quiet]
    obtain ⟨h1, h2⟩ := quiet_fold program quiet e l { p with log := p.log ++ ((sees h.kind e).map (Entry.called (p.function h.source))).toList }
      ⟨f.prevented || preventsAlways h.kind, f.stopped⟩ hd fun x hx => hl x (List.mem_cons_of_mem _ hx)
    rw [List.foldl_cons, hstep, h1, h2]
    constructor
    · have hfun : ∀ log : List Entry, Spec.function { p with log := log } = p.function := by
        intro log; funext src; cases src <;> rfl
      cases hs : sees h.kind e with
      | none => simp [hs, hfun]
      | some d => simp [hs, hfun]
    · simp [Bool.or_assoc]

theorem quiet_visit (program : Program) (quiet : ∀ log, program log = (false, [])) (e : Event) (hd : e.drag = none) : ∀ (path : List Target) (p : Spec) (f : Flags),
    f.stopped = false →
    (Spec.visit program e path (p, f)).1 =
      { p with log := p.log ++ path.flatMap fun t =>
                (p.handlers.filter fun h => h.waits = (t, e.type)).filterMap fun h => (sees h.kind e).map (.called (p.function h.source)) } ∧
    (Spec.visit program e path (p, f)).2 = ⟨f.prevented || path.any fun t => (p.handlers.filter fun h => h.waits = (t, e.type)).any fun h => preventsAlways h.kind, false⟩
  | [], p, f, hf => by cases f; simp_all [Spec.visit]
  | t :: path, p, f, hf => by
    obtain ⟨h1, h2⟩ := quiet_fold program quiet e (p.handlers.filter fun h => h.waits = (t, e.type)) p f hd fun h hh => (List.mem_filter.1 hh).1
    simp only [Spec.visit, hf, Bool.false_eq_true, if_false]
    generalize (p.handlers.filter fun h => h.waits = (t, e.type)).foldl (Spec.invoke program e) (p, f) = b at h1 h2
    obtain ⟨b1, b2⟩ := b
    simp only at h1 h2
    subst h1 h2
    obtain ⟨g1, g2⟩ := quiet_visit program quiet e hd path
      { p with log := p.log ++ (p.handlers.filter fun h => h.waits = (t, e.type)).filterMap fun h => (sees h.kind e).map (.called (p.function h.source)) }
      ⟨f.prevented || (p.handlers.filter fun h => h.waits = (t, e.type)).any fun h => preventsAlways h.kind, f.stopped⟩ hf
    have hfun : ∀ log : List Entry, Spec.function { p with log := log } = p.function := by
      intro log; funext src; cases src <;> rfl
    rw [g1, g2]
    simp only [hfun, List.flatMap_cons, List.append_assoc, List.any_cons, Bool.or_assoc, and_self]

/-- **C55.** If no handler changes anything or stops the event, then an event calls, at each place of its path in turn, each handler that waits there for
events of that type, in the order in which they were added, once, and with what happened. The default is prevented if one of them is `on_click` or `on_load`. -/
theorem C55_quiet (program : Program) (lossy : List UInt8 → String) (values : Nat → Nat) (history : List Happening) (hf : ∀ x ∈ history, x.Fits)
    (quiet : ∀ log, program log = (false, [])) (e : Event) (he : e.Fits) (hd : e.drag = none) (path : List Target) :
    let p := history.foldl (Spec.step program) (Spec.start values)
    (step program lossy (history.foldl (step program lossy) (start values)) (.event e path)).log =
      p.log ++ (path.flatMap fun t => (p.handlers.filter fun h => h.waits = (t, e.type)).filterMap fun h => (sees h.kind e).map (.called (p.function h.source))) ++
        [.handled (path.any fun t => (p.handlers.filter fun h => h.waits = (t, e.type)).any fun h => h.kind = .click ∨ h.kind = .load ∨ h.kind = .dropFile) false] := by
  intro p
  have h := (C55_refines program lossy values (history ++ [.event e path]) (by
    intro x hx
    rcases List.mem_append.1 hx with hx | hx
    · exact hf x hx
    · simp only [List.mem_singleton] at hx
      subst hx
      exact he)).1
  simp only [List.foldl_append, List.foldl_cons, List.foldl_nil] at h
  obtain ⟨h1, h2⟩ := quiet_visit program quiet e hd path p ⟨false, false⟩ rfl
  rw [h]
  show (Spec.step program p _).log = _
  simp only [Spec.step, h1, h2, Bool.false_or]
  rfl

/-- Once an element has been dropped, none of the handlers that can be called is one of its handlers. -/
theorem spec_dropped (program : Program) (values : Nat → Nat) (history : List Happening) (element : Nat) (before : List Happening)
    (hc : element < (before.foldl (Spec.step program) (Spec.start values)).created) :
    ∀ h ∈ ((before ++ .run [.drop element] :: history).foldl (Spec.step program) (Spec.start values)).handlers, h.element ≠ element := by
  have hop : ∀ (p : Spec) (o : Op), element < p.created → (∀ h ∈ p.handlers, h.element ≠ element) →
      element < (p.op o).created ∧ ∀ h ∈ (p.op o).handlers, h.element ≠ element := by
    intro p o hc hn
    cases o with
    | create hs =>
      refine ⟨Nat.lt_succ_of_lt hc, ?_⟩
      intro h hh
      rcases List.mem_append.1 hh with hh | hh
      · exact hn h hh
      · have : ∀ (l : List (Kind × Source)) (n : Nat), ∀ h ∈ number p.created n l, h.element = p.created := by
          intro l
          induction l with
          | nil => intro n h hh; simp [number] at hh
          | cons a l ih =>
            intro n h hh
            rcases List.mem_cons.1 hh with rfl | hh
            · rfl
            · exact ih _ h hh
        have := this _ _ h hh
        omega
    | drop x => exact ⟨hc, fun h hh => hn h (List.mem_filter.1 hh).1⟩
    | set c f => exact ⟨hc, hn⟩
  have hops : ∀ (l : List Op) (p : Spec), element < p.created → (∀ h ∈ p.handlers, h.element ≠ element) →
      element < (l.foldl Spec.op p).created ∧ ∀ h ∈ (l.foldl Spec.op p).handlers, h.element ≠ element := by
    intro l
    induction l with
    | nil => exact fun p a b => ⟨a, b⟩
    | cons o l ih => intro p a b; exact ih _ (hop p o a b).1 (hop p o a b).2
  have hcall : ∀ (p : Spec) (h : Handler) (d : Data), element < p.created → (∀ h ∈ p.handlers, h.element ≠ element) →
      element < (p.call program h d).1.created ∧ ∀ x ∈ (p.call program h d).1.handlers, x.element ≠ element :=
    fun p h d a b => hops _ _ a b
  have hinv : ∀ (e : Event) (l : List Handler) (x : Spec × Flags), element < x.1.created → (∀ h ∈ x.1.handlers, h.element ≠ element) →
      element < (l.foldl (Spec.invoke program e) x).1.created ∧ ∀ h ∈ (l.foldl (Spec.invoke program e) x).1.handlers, h.element ≠ element := by
    intro e l
    induction l with
    | nil => exact fun p a b => ⟨a, b⟩
    | cons h l ih =>
      intro x a b
      have : element < (Spec.invoke program e x h).1.created ∧ ∀ y ∈ (Spec.invoke program e x h).1.handlers, y.element ≠ element := by
        simp only [Spec.invoke]
        split
        · split
          · split
            · exact ⟨a, b⟩
            · exact ⟨a, b⟩
          · split
            · exact ⟨a, b⟩
            · exact hcall _ _ _ a b
        · exact ⟨a, b⟩
      exact ih _ this.1 this.2
  have hvisit : ∀ (e : Event) (path : List Target) (x : Spec × Flags), element < x.1.created → (∀ h ∈ x.1.handlers, h.element ≠ element) →
      element < (Spec.visit program e path x).1.created ∧ ∀ h ∈ (Spec.visit program e path x).1.handlers, h.element ≠ element := by
    intro e path
    induction path with
    | nil => exact fun x a b => ⟨a, b⟩
    | cons t path ih =>
      intro x a b
      simp only [Spec.visit]
      split
      · exact ⟨a, b⟩
      · exact ih _ (hinv e _ x a b).1 (hinv e _ x a b).2
  have hstep : ∀ (p : Spec) (x : Happening), element < p.created → (∀ h ∈ p.handlers, h.element ≠ element) →
      element < (p.step program x).created ∧ ∀ h ∈ (p.step program x).handlers, h.element ≠ element := by
    intro p x a b
    cases x with
    | run ops => exact hops _ _ a b
    | event e path => exact hvisit e path (p, ⟨false, false⟩) a b
    | read i ok =>
      simp only [Spec.step]
      split
      · exact ⟨a, b⟩
      · split
        · exact hcall { p with reading := p.reading.eraseIdx i } _ _ a b
        · exact ⟨a, b⟩
  have hall : ∀ (l : List Happening) (p : Spec), element < p.created → (∀ h ∈ p.handlers, h.element ≠ element) →
      ∀ h ∈ (l.foldl (Spec.step program) p).handlers, h.element ≠ element := by
    intro l
    induction l with
    | nil => exact fun p a b => b
    | cons x l ih => intro p a b; exact ih _ (hstep p x a b).1 (hstep p x a b).2
  rw [List.foldl_append, List.foldl_cons]
  refine hall history _ hc ?_
  intro h hh
  have := (List.mem_filter.1 hh).2
  simpa using this

theorem steps_rel (program : Program) (lossy : List UInt8 → String) (values : Nat → Nat) (history : List Happening) (hf : ∀ x ∈ history, x.Fits) :
    Rel (history.foldl (step program lossy) (start values)) (history.foldl (Spec.step program) (Spec.start values)) := by
  have : ∀ (l : List Happening) (s : App) (p : Spec), Rel s p → (∀ x ∈ l, x.Fits) → Rel (l.foldl (step program lossy) s) (l.foldl (Spec.step program) p) := by
    intro l
    induction l with
    | nil => intro s p h _; exact h
    | cons x l ih => intro s p h hx; exact ih _ _ (step_rel program lossy h x (hx x List.mem_cons_self)) fun y hy => hx y (List.mem_cons_of_mem _ hy)
  exact this history _ _ (start_rel values) hf

/-- **C55.** Once an element that existed has been dropped, whatever happens then, the browser has no listener on its node, and no function is kept for one. -/
theorem C55_dropped (program : Program) (lossy : List UInt8 → String) (values : Nat → Nat) (before after : List Happening) (hb : ∀ x ∈ before, x.Fits)
    (ha : ∀ x ∈ after, x.Fits) (element : Nat) (hc : element < (before.foldl (step program lossy) (start values)).nextElement) :
    let s := (before ++ .run [.drop element] :: after).foldl (step program lossy) (start values)
    (∀ l ∈ s.browser.listeners, l.target ≠ .node element) ∧ s.store.length = s.browser.listeners.length := by
  intro s
  have h0 := steps_rel program lossy values before hb
  have h := steps_rel program lossy values (before ++ .run [.drop element] :: after) (by
    intro x hx
    rcases List.mem_append.1 hx with hx | hx
    · exact hb x hx
    · rcases List.mem_cons.1 hx with rfl | hx
      · trivial
      · exact ha x hx)
  have hn := spec_dropped program values after element before (by rw [← h0.mid.created]; exact hc)
  refine ⟨?_, ?_⟩
  · intro l hl
    have hl' : l ∈ s.browser.listeners := hl
    rw [h.listeners] at hl'
    obtain ⟨x, hx, rfl⟩ := List.mem_map.1 hl'
    have hne := hn x hx
    intro e
    apply hne
    have hw : x.waits.1 = .node element := e
    simp only [Handler.waits] at hw
    split at hw <;> simp_all
  · show s.store.length = s.browser.listeners.length
    rw [h.mid.store, h.listeners]
    simp

/-- The program of the examples: the function 7 drops element 0; 8 asks to prevent the default and to stop; the others do nothing. -/
def sample : Program := fun log =>
  match log.getLast? with
  | some (.called 7 _) => (false, [.drop 0])
  | some (.called 8 _) => (true, [])
  | _ => (false, [])

/-- Non-vacuity: a click on element 1 inside of element 0; the function 7 drops element 0, whose handler is then not called. -/
example (lossy : List UInt8 → String) :
    (([.run [.create [(.click, .basic 5)], .create [(.click, .computed 3), (.click, .basic 7)]], .run [.set 3 6],
      .event ⟨"click", .other, none, none⟩ [.node 1, .node 0, .document],
      .event ⟨"click", .other, none, none⟩ [.node 0, .document]] : List Happening).foldl (step sample lossy) (start fun _ => 1)).log =
    [.called 6 .unit, .called 7 .unit, .handled true false, .handled false false] := by
  rw [(C55_refines sample lossy _ _ (by simp [Happening.Fits, Event.Fits, dropped, filesSize])).1]
  decide

/-- Non-vacuity: a key goes no further when the handler says so; `on_input` is not called for a selection, `on_change` is; files arrive after they were read. -/
example (lossy : List UInt8 → String) :
    (([.run [.create [(.hookKeyDown, .basic 5)], .create [(.keyDown, .basic 8), (.input, .basic 2), (.change, .basic 4), (.dropFile, .basic 9)]],
      .event ⟨"keydown", .other, some ⟨"a", "KeyA", false, true, false, false⟩, none⟩ [.node 1, .document],
      .event ⟨"keydown", .other, some ⟨"a", "KeyA", false, true, false, false⟩, none⟩ [.document],
      .event ⟨"input", .select "x", none, none⟩ [.node 1],
      .event ⟨"change", .select "x", none, none⟩ [.node 1],
      .event ⟨"drop", .other, none, some (some [none, some ("f", [1, 2])])⟩ [.node 1],
      .read 0 true] : List Happening).foldl (step sample lossy) (start fun _ => 1)).log =
    [.called 8 (.key ⟨"a", "KeyA", false, true, false, false⟩), .handled true true,
     .called 5 (.key ⟨"a", "KeyA", false, true, false, false⟩), .handled false false,
     .handled false false, .called 4 (.text "x"), .handled false false, .handled true false, .called 9 (.files [("f", [1, 2])])] := by
  rw [(C55_refines sample lossy _ _ (by simp [Happening.Fits, Event.Fits, dropped, filesSize]; decide)).1]
  decide

/-- Non-vacuity of `C55_quiet`. -/
example (lossy : List UInt8 → String) :
    (step (fun _ => (false, [])) lossy (([.run [.create [(.click, .basic 5)], .create [(.click, .computed 3), (.mouseDown, .basic 7)]]] : List Happening).foldl
      (step (fun _ => (false, [])) lossy) (start fun _ => 1)) (.event ⟨"click", .other, none, none⟩ [.node 1, .node 0, .document])).log =
    [.called 1 .unit, .called 5 .unit, .handled true false] := by
  rw [C55_quiet _ lossy _ _ (by simp [Happening.Fits]) (fun _ => rfl) _ (by simp [Event.Fits, dropped, filesSize]) rfl]
  decide

/-- Non-vacuity of `C55_dropped`. -/
example (lossy : List UInt8 → String) :
    0 < (([.run [.create [(.click, .basic 5)]]] : List Happening).foldl (step sample lossy) (start fun _ => 1)).nextElement := by
  show 0 < 1
  decide

end Verif.Host.Events

import Mathlib.Data.List.Induction
/-!
# The router (C40)

`crates/vertigo/src/router.rs`, `crates/vertigo/src/driver_module/api/api_import.rs:320-448` and the browser
side `src_js/api_browser/historyLocation.ts` / `hashrouter.ts`.  The two routers are the same code up to how
they read and change the location, so the model has one router over an abstract browser: a type of
locations, `get` (which can throw: `decodeURIComponent` of a malformed hash) and `nav` (`pushState`,
`replaceState` or an assignment to `location.hash`; it can throw, for example for a url of another site).

The history is any sequence of: routers being created, observed and no longer observed (the connection of
`Value::with_connect`, see C09), routes being set, links being followed, the user changing the location,
events (`popstate`, `hashchange`) being delivered.  What runs inside a notification (subscribers that create
and drop things) is part of the history too; navigating inside a notification panics (a transaction inside of
a refresh, `transaction_state.rs:48-50`), so it does not occur here.
-/

namespace Verif.Host

/-- The browser as far as it matters: how a location reads and how a navigation changes it. -/
structure Browser (L : Type) where
  /-- `historyLocation.ts:48-50` or `hashrouter.ts:40-42`; `none`: it throws -/
  get : L → Option String
  /-- `window.history.pushState(null, '', url)` or `location.hash = url`; `none`: it throws -/
  nav : L → String → Option L

/-- `router.rs:64-68`: the value and, while it is observed, the id of the registered callback. -/
structure RouterState (T : Type) where
  value : T
  conn : Option Nat
  deriving DecidableEq

variable {L T : Type} [DecidableEq T]

/-- The browser and the application. -/
structure Nav (L T : Type) where
  loc : L
  /-- the user has changed the location and no listener has been called since (not part of the code) -/
  unseen : Bool
  routers : List (RouterState T)
  /-- the map of `historyLocation.ts:5`: the ids in insertion order -/
  jsMap : List Nat
  /-- the callback store (C38): the router whose callback is registered under an id -/
  store : List (Nat × Nat)
  nextId : Nat
  /-- the values given to routers: at their creation and by notifications (not part of the code) -/
  log : List (Nat × T)

/-- What can happen inside of a notification. -/
inductive Inner where
  | create
  | observe (r : Nat)
  | unobserve (r : Nat)
  deriving DecidableEq

/-- What happens. -/
inductive NavOp (L T : Type) where
  | inner (op : Inner)
  /-- `router.set(route)`; what subscribers do while the n-th listener runs -/
  | set (route : T) (inside : List (List Inner))
  /-- `router.change(f)` -/
  | change (r : Nat) (f : T → T) (inside : List (List Inner))
  /-- a link is followed (`dom.ts`), or the application calls `push` or `replace` with a url -/
  | push (url : String) (inside : List (List Inner))
  /-- the user changes the location -/
  | user (loc : L)
  /-- `popstate` / `hashchange` -/
  | event (inside : List (List Inner))

/-- `router.rs:88-91`: the initial value is parsed from the location; if reading it throws, nothing is
created. -/
def Nav.create (b : Browser L) (parse : String → T) (s : Nav L T) : Nav L T :=
  match b.get s.loc with
  | some url =>
    { s with
      routers := s.routers ++ [{ value := parse url, conn := none }]
      log := s.log ++ [(s.routers.length, parse url)] }
  | none => s

/-- `router.rs:93-103` with `api_import.rs:402-432`: the first observer connects; the callback is registered
and its id given to the browser. -/
def Nav.observe (s : Nav L T) (r : Nat) : Nav L T :=
  match s.routers[r]? with
  | some { value, conn := none } =>
    { s with
      routers := s.routers.set r { value, conn := some s.nextId }
      jsMap := s.jsMap ++ [s.nextId]
      store := s.store ++ [(s.nextId, r)]
      nextId := s.nextId + 1 }
  | _ => s

/-- `api_import.rs:439-447`: the last observer is gone. -/
def Nav.unobserve (s : Nav L T) (r : Nat) : Nav L T :=
  match s.routers[r]? with
  | some { value, conn := some id } =>
    { s with
      routers := s.routers.set r { value, conn := none }
      jsMap := s.jsMap.filter (· ≠ id)
      store := s.store.filter (·.1 ≠ id) }
  | _ => s

/-- One operation inside of a notification. -/
def Nav.inner (b : Browser L) (parse : String → T) (s : Nav L T) : Inner → Nav L T
  | .create => s.create b parse
  | .observe r => s.observe r
  | .unobserve r => s.unobserve r

/-- `wasm_callback(id, url)`: `api_import.rs:403-416` and `router.rs:94-96`, `set_value_and_compare`.  An id
that is not registered is ignored (C38). -/
def Nav.callback (parse : String → T) (s : Nav L T) (id : Nat) (url : String) : Nav L T :=
  match s.store.lookup id with
  | some r =>
    match s.routers[r]? with
    | some { value, conn } =>
      if value = parse url then s
      else
        { s with
          routers := s.routers.set r { value := parse url, conn }
          log := s.log ++ [(r, parse url)] }
    | none => s
  | none => s

/-- `historyLocation.ts:14-18` `trigger`: the listeners are copied before the first one is called, and each
of them reads the location again; an exception ends the loop. -/
def Nav.triggerAll (b : Browser L) (parse : String → T) : List Nat → List (List Inner) → Nav L T → Nav L T
  | [], _, s => s
  | id :: ids, inside, s =>
    match b.get s.loc with
    | none => s
    | some url =>
      let s := s.callback parse id url
      let s := (inside.headD []).foldl (Nav.inner b parse) s
      Nav.triggerAll b parse ids inside.tail s

/-- `trigger`. -/
def Nav.trigger (b : Browser L) (parse : String → T) (s : Nav L T) (inside : List (List Inner)) : Nav L T :=
  Nav.triggerAll b parse s.jsMap inside { s with unseen := false }

/-- `historyLocation.ts:30-46` `push` and `replace`, `hashrouter.ts:31-38` `push`. -/
def Nav.push (b : Browser L) (parse : String → T) (s : Nav L T) (url : String) (inside : List (List Inner)) :
    Nav L T :=
  match b.get s.loc with
  | none => s
  | some cur =>
    if cur = url then s
    else
      match b.nav s.loc url with
      | none => s
      | some loc => Nav.trigger b parse { s with loc } inside

/-- One operation: `router.rs:111-117` `set`, `118-124` `change`. -/
def Nav.step (b : Browser L) (parse : String → T) (toStr : T → String) (s : Nav L T) : NavOp L T → Nav L T
  | .inner op => s.inner b parse op
  | .set route inside => s.push b parse (toStr route) inside
  | .change r f inside =>
    match s.routers[r]? with
    | some { value, .. } => s.push b parse (toStr (f value)) inside
    | none => s
  | .push url inside => s.push b parse url inside
  | .user loc => { s with loc, unseen := true }
  | .event inside => s.trigger b parse inside

/-- The start. -/
def Nav.start (loc : L) : Nav L T :=
  { loc, unseen := false, routers := [], jsMap := [], store := [], nextId := 0, log := [] }

/-- A history. -/
def navigate (b : Browser L) (parse : String → T) (toStr : T → String) (loc : L) (ops : List (NavOp L T)) :
    Nav L T :=
  ops.foldl (Nav.step b parse toStr) (Nav.start loc)

/-! ## Specification -/

/-- The operation stops observing router `r`. -/
def NavOp.Unobserves (r : Nat) : NavOp L T → Prop
  | .inner op => op = .unobserve r
  | .set _ inside => ∃ l ∈ inside, .unobserve r ∈ l
  | .change _ _ inside => ∃ l ∈ inside, .unobserve r ∈ l
  | .push _ inside => ∃ l ∈ inside, .unobserve r ∈ l
  | .user _ => False
  | .event inside => ∃ l ∈ inside, .unobserve r ∈ l

/-- Router `r` shows the route of the current location (if the location can be read at all). -/
def Shows (b : Browser L) (parse : String → T) (s : Nav L T) (r : Nat) : Prop :=
  ∀ url, b.get s.loc = some url → (s.routers[r]?.map (·.value)) = some (parse url)

/-- Router `r` is observed. -/
def Observed (s : Nav L T) (r : Nat) : Prop := ∃ R, s.routers[r]? = some R ∧ R.conn.isSome

/-! ## Proof -/

structure Nav.Ok (s : Nav L T) : Prop where
  conn : ∀ (r : Nat) (R : RouterState T) (i : Nat), s.routers[r]? = some R → R.conn = some i → i ∈ s.jsMap ∧ s.store.lookup i = some r
  ids : ∀ i j, s.store.lookup i = some j → i < s.nextId

omit [DecidableEq T] in
theorem start_ok (loc : L) : (Nav.start (T := T) loc).Ok :=
  ⟨by simp [Nav.start], by simp [Nav.start]⟩

theorem lookup_cons_eq (i : Nat) (x : Nat × Nat) (l : List (Nat × Nat)) :
    (x :: l).lookup i = if i = x.1 then some x.2 else l.lookup i := by
  obtain ⟨a, c⟩ := x
  simp only [List.lookup]
  by_cases h : i = a
  · simp [h]
  · rw [show (i == a) = false from by simp [h], if_neg h]

theorem lookup_append_some {l m : List (Nat × Nat)} {i r : Nat} (h : l.lookup i = some r) :
    (l ++ m).lookup i = some r := by
  induction l with
  | nil => simp at h
  | cons x l ih =>
    rw [lookup_cons_eq] at h
    rw [List.cons_append, lookup_cons_eq]
    split at h
    · rename_i hx; rw [if_pos hx]; exact h
    · rename_i hx; rw [if_neg hx]; exact ih h

theorem lookup_append_none {l m : List (Nat × Nat)} {i : Nat} (h : l.lookup i = none) :
    (l ++ m).lookup i = m.lookup i := by
  induction l with
  | nil => rfl
  | cons x l ih =>
    rw [lookup_cons_eq] at h
    rw [List.cons_append, lookup_cons_eq]
    split at h
    · simp at h
    · rename_i hx; rw [if_neg hx]; exact ih h

theorem lookup_filter {l : List (Nat × Nat)} {i k : Nat} (h : i ≠ k) :
    (l.filter (·.1 ≠ k)).lookup i = l.lookup i := by
  induction l with
  | nil => rfl
  | cons x l ih =>
    by_cases hx : x.1 = k
    · rw [List.filter_cons_of_neg (by simp [hx]), ih, lookup_cons_eq, if_neg (by rw [hx]; exact h)]
    · rw [List.filter_cons_of_pos (by simp [hx]), lookup_cons_eq, lookup_cons_eq, ih]

theorem lookup_filter_self {l : List (Nat × Nat)} {k : Nat} : (l.filter (·.1 ≠ k)).lookup k = none := by
  induction l with
  | nil => rfl
  | cons x l ih =>
    by_cases hx : x.1 = k
    · rw [List.filter_cons_of_neg (by simp [hx]), ih]
    · rw [List.filter_cons_of_pos (by simp [hx]), lookup_cons_eq, ih, if_neg (fun h => hx h.symm)]

/-- What an operation inside of a notification keeps: connections that are not closed, values, the
location. -/
structure Keeps (s t : Nav L T) : Prop where
  loc : t.loc = s.loc
  unseen : t.unseen = s.unseen
  value : ∀ (r : Nat) (R : RouterState T), s.routers[r]? = some R → ∃ R' : RouterState T, t.routers[r]? = some R' ∧ R'.value = R.value

omit [DecidableEq T] in
theorem inner_ok (b : Browser L) (parse : String → T) {s : Nav L T} (h : s.Ok) (op : Inner) :
    (s.inner b parse op).Ok ∧ Keeps s (s.inner b parse op) ∧
      ∀ (r : Nat) (R : RouterState T) (i : Nat), s.routers[r]? = some R → R.conn = some i → op ≠ .unobserve r →
        ∃ R' : RouterState T, (s.inner b parse op).routers[r]? = some R' ∧ R'.conn = some i := by
  cases op with
  | create =>
    simp only [Nav.inner, Nav.create]
    split
    · rename_i url hu
      have hget : ∀ (r : Nat) (R : RouterState T), s.routers[r]? = some R →
          (s.routers ++ [({ value := parse url, conn := none } : RouterState T)])[r]? = some R := by
        intro r R hr
        rw [List.getElem?_append_left (List.getElem?_eq_some_iff.1 hr).1]
        exact hr
      refine ⟨⟨?_, h.ids⟩, ⟨rfl, rfl, fun r R hr => ⟨R, hget r R hr, rfl⟩⟩,
        fun r R i hr hc _ => ⟨R, hget r R hr, hc⟩⟩
      intro r R i hr hc
      dsimp only at hr
      rw [List.getElem?_append] at hr
      split at hr
      · exact h.conn r R i hr hc
      · have hm := List.mem_of_getElem? hr
        simp only [List.mem_singleton] at hm
        subst hm
        simp at hc
    · exact ⟨h, ⟨rfl, rfl, fun r R hr => ⟨R, hr, rfl⟩⟩, fun r R i hr hc _ => ⟨R, hr, hc⟩⟩
  | observe q =>
    simp only [Nav.inner, Nav.observe]
    split
    · rename_i v hq
      have hlt := (List.getElem?_eq_some_iff.1 hq).1
      refine ⟨⟨?_, ?_⟩, ⟨rfl, rfl, ?_⟩, ?_⟩
      · intro r R i hr hc
        dsimp only at hr ⊢
        rw [List.getElem?_set] at hr
        have hfresh : s.store.lookup s.nextId = none := by
          cases hl : s.store.lookup s.nextId with
          | none => rfl
          | some j => exact absurd (h.ids _ _ hl) (Nat.lt_irrefl _)
        split at hr
        · rename_i hqr
          subst hqr
          injection hr with hr
          subst hr
          injection hc with hc
          subst hc
          refine ⟨by simp, ?_⟩
          rw [lookup_append_none hfresh]
          simp
        · obtain ⟨h1, h2⟩ := h.conn r R i hr hc
          exact ⟨by simp [h1], lookup_append_some h2⟩
      · intro i j hl
        dsimp only at hl ⊢
        cases hl0 : s.store.lookup i with
        | some j' => exact Nat.lt_succ_of_lt (h.ids i j' hl0)
        | none =>
          rw [lookup_append_none hl0, lookup_cons_eq] at hl
          split at hl
          · rename_i he; dsimp only at he; omega
          · simp at hl
      · intro r R hr
        dsimp only
        by_cases hqr : q = r
        · subst hqr
          refine ⟨{ value := v, conn := some s.nextId }, by rw [List.getElem?_set]; simp [hlt], ?_⟩
          rw [hq] at hr; injection hr with hr; rw [← hr]
        · exact ⟨R, by rw [List.getElem?_set_ne hqr]; exact hr, rfl⟩
      · intro r R i hr hc _
        dsimp only
        by_cases hqr : q = r
        · subst hqr
          rw [hq] at hr; injection hr with hr; rw [← hr] at hc; simp at hc
        · exact ⟨R, by rw [List.getElem?_set_ne hqr]; exact hr, hc⟩
    · exact ⟨h, ⟨rfl, rfl, fun r R hr => ⟨R, hr, rfl⟩⟩, fun r R i hr hc _ => ⟨R, hr, hc⟩⟩
  | unobserve q =>
    simp only [Nav.inner, Nav.unobserve]
    split
    · rename_i v id hq
      have hlt := (List.getElem?_eq_some_iff.1 hq).1
      obtain ⟨_, hstore⟩ := h.conn q _ id hq rfl
      refine ⟨⟨?_, ?_⟩, ⟨rfl, rfl, ?_⟩, ?_⟩
      · intro r R i hr hc
        dsimp only at hr ⊢
        rw [List.getElem?_set] at hr
        split at hr
        · rename_i hqr
          subst hqr
          injection hr with hr
          subst hr
          simp at hc
        · rename_i hqr
          obtain ⟨h1, h2⟩ := h.conn r R i hr hc
          have hne : i ≠ id := by
            rintro rfl
            rw [hstore] at h2
            injection h2 with h2
            exact hqr h2
          exact ⟨by simp [h1, hne], by rw [lookup_filter hne]; exact h2⟩
      · intro i j hl
        dsimp only at hl ⊢
        by_cases hne : i = id
        · subst hne; rw [lookup_filter_self] at hl; simp at hl
        · rw [lookup_filter hne] at hl; exact h.ids i j hl
      · intro r R hr
        dsimp only
        by_cases hqr : q = r
        · subst hqr
          refine ⟨{ value := v, conn := none }, by rw [List.getElem?_set]; simp [hlt], ?_⟩
          rw [hq] at hr; injection hr with hr; rw [← hr]
        · exact ⟨R, by rw [List.getElem?_set_ne hqr]; exact hr, rfl⟩
      · intro r R i hr hc hne
        dsimp only
        have hqr : q ≠ r := fun h => hne (by rw [h])
        exact ⟨R, by rw [List.getElem?_set_ne hqr]; exact hr, hc⟩
    · exact ⟨h, ⟨rfl, rfl, fun r R hr => ⟨R, hr, rfl⟩⟩, fun r R i hr hc _ => ⟨R, hr, hc⟩⟩

omit [DecidableEq T] in
theorem inners_ok (b : Browser L) (parse : String → T) (ops : List Inner) {s : Nav L T} (h : s.Ok) :
    (ops.foldl (Nav.inner b parse) s).Ok ∧ Keeps s (ops.foldl (Nav.inner b parse) s) ∧
      ∀ (r : Nat) (R : RouterState T) (i : Nat), s.routers[r]? = some R → R.conn = some i →
        .unobserve r ∉ ops →
        ∃ R' : RouterState T, (ops.foldl (Nav.inner b parse) s).routers[r]? = some R' ∧ R'.conn = some i := by
  induction ops generalizing s with
  | nil => exact ⟨h, ⟨rfl, rfl, fun r R hr => ⟨R, hr, rfl⟩⟩, fun r R i hr hc _ => ⟨R, hr, hc⟩⟩
  | cons op ops ih =>
    obtain ⟨h1, h2, h3⟩ := inner_ok b parse h op
    obtain ⟨i1, i2, i3⟩ := ih h1
    refine ⟨i1, ⟨i2.loc.trans h2.loc, i2.unseen.trans h2.unseen, ?_⟩, ?_⟩
    · intro r R hr
      obtain ⟨R', hr', hv'⟩ := h2.value r R hr
      obtain ⟨R'', hr'', hv''⟩ := i2.value r R' hr'
      exact ⟨R'', hr'', hv''.trans hv'⟩
    · intro r R i hr hc hn
      obtain ⟨R', hr', hc'⟩ := h3 r R i hr hc (fun h => hn (by simp [h]))
      exact i3 r R' i hr' hc' (fun h => hn (by simp [h]))

theorem callback_ok (parse : String → T) {s : Nav L T} (h : s.Ok) (id : Nat) (url : String) :
    (s.callback parse id url).Ok ∧ (s.callback parse id url).loc = s.loc ∧
      (s.callback parse id url).unseen = s.unseen ∧
      (s.callback parse id url).jsMap = s.jsMap ∧
      ∀ (r : Nat) (R : RouterState T), s.routers[r]? = some R →
        ∃ R' : RouterState T, (s.callback parse id url).routers[r]? = some R' ∧ R'.conn = R.conn ∧
          (R.value = parse url ∨ s.store.lookup id = some r → R'.value = parse url) := by
  unfold Nav.callback
  split
  · rename_i q hq
    split
    · rename_i v c hrq
      have hlt := (List.getElem?_eq_some_iff.1 hrq).1
      split
      · rename_i hv
        refine ⟨h, rfl, rfl, rfl, fun r R hr => ⟨R, hr, rfl, ?_⟩⟩
        rintro (he | he)
        · exact he
        · rw [hq] at he
          injection he with he
          subst he
          rw [hrq] at hr
          injection hr with hr
          rw [← hr]; exact hv
      · refine ⟨⟨?_, h.ids⟩, rfl, rfl, rfl, ?_⟩
        · intro r R i hr hc
          dsimp only at hr ⊢
          rw [List.getElem?_set] at hr
          split at hr
          · rename_i hqr
            subst hqr
            injection hr with hr
            subst hr
            exact h.conn q _ i hrq hc
          · exact h.conn r R i hr hc
        · intro r R hr
          dsimp only
          by_cases hqr : q = r
          · subst hqr
            rw [hrq] at hr
            injection hr with hr
            refine ⟨{ value := parse url, conn := c }, by rw [List.getElem?_set]; simp [hlt], by rw [← hr], fun _ => rfl⟩
          · refine ⟨R, by rw [List.getElem?_set_ne hqr]; exact hr, rfl, ?_⟩
            rintro (he | he)
            · exact he
            · rw [hq] at he; injection he with he; exact absurd he hqr
    · rename_i hnone
      refine ⟨h, rfl, rfl, rfl, fun r R hr => ⟨R, hr, rfl, ?_⟩⟩
      rintro (he | he)
      · exact he
      · rw [hq] at he; injection he with he; subst he; rw [hnone] at hr; simp at hr
  · rename_i hnone
    refine ⟨h, rfl, rfl, rfl, fun r R hr => ⟨R, hr, rfl, ?_⟩⟩
    rintro (he | he)
    · exact he
    · rw [hnone] at he; simp at he

/-- After a trigger every listener that was copied and is still connected shows the location. -/
theorem triggerAll_ok (b : Browser L) (parse : String → T) (ids : List Nat) (inside : List (List Inner))
    {s : Nav L T} (h : s.Ok) :
    (Nav.triggerAll b parse ids inside s).Ok ∧ (Nav.triggerAll b parse ids inside s).loc = s.loc ∧
      (Nav.triggerAll b parse ids inside s).unseen = s.unseen ∧
      ∀ (r : Nat) (R : RouterState T) (i : Nat) (url : String), s.routers[r]? = some R → R.conn = some i →
        (∀ l ∈ inside, .unobserve r ∉ l) →
        ∃ R' : RouterState T, (Nav.triggerAll b parse ids inside s).routers[r]? = some R' ∧ R'.conn = some i ∧
          (b.get s.loc = some url → R.value = parse url ∨ i ∈ ids → R'.value = parse url) := by
  induction ids generalizing s inside with
  | nil =>
    refine ⟨h, rfl, rfl, fun r R i url hr hc _ => ⟨R, hr, hc, fun _ h => ?_⟩⟩
    simpa using h
  | cons id ids ih =>
    unfold Nav.triggerAll
    split
    · rename_i hg
      refine ⟨h, rfl, rfl, fun r R i url hr hc _ => ⟨R, hr, hc, fun hu => ?_⟩⟩
      rw [hg] at hu; simp at hu
    · rename_i u hg
      obtain ⟨c1, c2, c3, _, c4⟩ := callback_ok parse h id u
      obtain ⟨n1, n2, n3⟩ := inners_ok b parse (inside.headD []) c1
      obtain ⟨i1, i2, i3, i4⟩ := ih inside.tail n1
      refine ⟨i1, i2.trans (n2.loc.trans c2), i3.trans (n2.unseen.trans c3), ?_⟩
      intro r R i url hr hc hun
      obtain ⟨R1, hr1, hc1, hv1⟩ := c4 r R hr
      have hun1 : .unobserve r ∉ inside.headD [] := by
        cases inside with
        | nil => simp
        | cons l inside => exact hun l (by simp)
      have hun2 : ∀ l ∈ inside.tail, .unobserve r ∉ l := by
        intro l hl; exact hun l (List.mem_of_mem_tail hl)
      obtain ⟨R2, hr2, hc2⟩ := n3 r R1 i hr1 (hc1.trans hc) hun1
      obtain ⟨R2', hr2', hv2⟩ := n2.value r R1 hr1
      rw [hr2] at hr2'
      injection hr2' with hr2'
      subst hr2'
      obtain ⟨R3, hr3, hc3, hv3⟩ := i4 r R2 i url hr2 hc2 hun2
      refine ⟨R3, hr3, hc3, ?_⟩
      intro hu hor
      rw [hg] at hu
      injection hu with hu
      subst hu
      apply hv3 (by rw [n2.loc, c2]; exact hg)
      rcases hor with hv | hi
      · left; rw [hv2]; exact hv1 (.inl hv)
      · rcases List.mem_cons.1 hi with rfl | hi
        · left; rw [hv2]; exact hv1 (.inr (h.conn r R _ hr hc).2)
        · exact .inr hi

theorem trigger_ok (b : Browser L) (parse : String → T) (inside : List (List Inner)) {s : Nav L T} (h : s.Ok) :
    (s.trigger b parse inside).Ok ∧ (s.trigger b parse inside).loc = s.loc ∧
      (s.trigger b parse inside).unseen = false ∧
      ∀ (r : Nat) (R : RouterState T) (i : Nat), s.routers[r]? = some R → R.conn = some i →
        (∀ l ∈ inside, .unobserve r ∉ l) →
        ∃ R' : RouterState T, (s.trigger b parse inside).routers[r]? = some R' ∧ R'.conn = some i ∧
          ∀ url, b.get s.loc = some url → R'.value = parse url := by
  have h' : ({ s with unseen := false } : Nav L T).Ok := ⟨h.conn, h.ids⟩
  obtain ⟨t1, t2, t3, t4⟩ := triggerAll_ok b parse s.jsMap inside h'
  refine ⟨t1, t2, t3, ?_⟩
  intro r R i hr hc hun
  cases hg : b.get s.loc with
  | none =>
    obtain ⟨R', hr', hc', _⟩ := t4 r R i "" hr hc hun
    exact ⟨R', hr', hc', by simp⟩
  | some url =>
    obtain ⟨R', hr', hc', hv⟩ := t4 r R i url hr hc hun
    refine ⟨R', hr', hc', ?_⟩
    intro u hu
    injection hu with hu
    subst hu
    exact hv hg (.inr (h.conn r R i hr hc).1)

/-- Connected with the id `i`, and in step with the location unless the user has just changed it. -/
def Mirrors (b : Browser L) (parse : String → T) (s : Nav L T) (r i : Nat) : Prop :=
  ∃ R : RouterState T, s.routers[r]? = some R ∧ R.conn = some i ∧
    (s.unseen = true ∨ ∀ url, b.get s.loc = some url → R.value = parse url)

theorem push_ok (b : Browser L) (parse : String → T) {s : Nav L T} (h : s.Ok) (url : String)
    (inside : List (List Inner)) :
    (s.push b parse url inside).Ok ∧
      ∀ r i, Mirrors b parse s r i → (∀ l ∈ inside, .unobserve r ∉ l) →
        Mirrors b parse (s.push b parse url inside) r i := by
  unfold Nav.push
  split
  · exact ⟨h, fun r i hm _ => hm⟩
  · split
    · exact ⟨h, fun r i hm _ => hm⟩
    · split
      · exact ⟨h, fun r i hm _ => hm⟩
      · rename_i loc _
        have h' : ({ s with loc } : Nav L T).Ok := ⟨h.conn, h.ids⟩
        obtain ⟨t1, t2, _, t4⟩ := trigger_ok b parse inside h'
        refine ⟨t1, ?_⟩
        rintro r i ⟨R, hr, hc, _⟩ hun
        obtain ⟨R', hr', hc', hv⟩ := t4 r R i hr hc hun
        exact ⟨R', hr', hc', .inr (by rw [t2]; exact hv)⟩

theorem step_ok (b : Browser L) (parse : String → T) (toStr : T → String) {s : Nav L T} (h : s.Ok)
    (op : NavOp L T) :
    (s.step b parse toStr op).Ok ∧
      ∀ r i, Mirrors b parse s r i → ¬ op.Unobserves r → Mirrors b parse (s.step b parse toStr op) r i := by
  have lists : ∀ (inside : List (List Inner)) (r : Nat), ¬ (∃ l ∈ inside, Inner.unobserve r ∈ l) →
      ∀ l ∈ inside, .unobserve r ∉ l := fun inside r hn l hl hm => hn ⟨l, hl, hm⟩
  cases op with
  | inner op =>
    obtain ⟨h1, h2, h3⟩ := inner_ok b parse h op
    refine ⟨h1, ?_⟩
    rintro r i ⟨R, hr, hc, hv⟩ hun
    obtain ⟨R', hr', hc'⟩ := h3 r R i hr hc hun
    obtain ⟨R'', hr'', hv''⟩ := h2.value r R hr
    rw [hr'] at hr''
    injection hr'' with hr''
    subst hr''
    refine ⟨R', hr', hc', ?_⟩
    simp only [Nav.step]
    rw [h2.unseen, h2.loc, hv'']
    exact hv
  | set route inside =>
    obtain ⟨h1, h2⟩ := push_ok b parse h (toStr route) inside
    exact ⟨h1, fun r i hm hun => h2 r i hm (lists inside r hun)⟩
  | change q f inside =>
    simp only [Nav.step]
    split
    · obtain ⟨h1, h2⟩ := push_ok b parse h (toStr (f _)) inside
      exact ⟨h1, fun r i hm hun => h2 r i hm (lists inside r hun)⟩
    · exact ⟨h, fun r i hm _ => hm⟩
  | push url inside =>
    obtain ⟨h1, h2⟩ := push_ok b parse h url inside
    exact ⟨h1, fun r i hm hun => h2 r i hm (lists inside r hun)⟩
  | user loc =>
    exact ⟨⟨h.conn, h.ids⟩, fun r i ⟨R, hr, hc, _⟩ _ => ⟨R, hr, hc, .inl rfl⟩⟩
  | event inside =>
    obtain ⟨t1, t2, _, t4⟩ := trigger_ok b parse inside h
    refine ⟨t1, ?_⟩
    rintro r i ⟨R, hr, hc, _⟩ hun
    obtain ⟨R', hr', hc', hv⟩ := t4 r R i hr hc (lists inside r hun)
    exact ⟨R', hr', hc', .inr (by simp only [Nav.step]; rw [t2]; exact hv)⟩

theorem navigate_ok (b : Browser L) (parse : String → T) (toStr : T → String) (loc : L) (ops : List (NavOp L T)) :
    (navigate b parse toStr loc ops).Ok := by
  unfold navigate
  induction ops using List.reverseRecOn with
  | nil => exact start_ok loc
  | append_singleton ops op ih => rw [List.foldl_append]; exact (step_ok b parse toStr ih op).1

theorem steps_mirror (b : Browser L) (parse : String → T) (toStr : T → String) (ops : List (NavOp L T))
    {s : Nav L T} (h : s.Ok) (r i : Nat) (hm : Mirrors b parse s r i) (hun : ∀ op ∈ ops, ¬ op.Unobserves r) :
    Mirrors b parse (ops.foldl (Nav.step b parse toStr) s) r i := by
  induction ops generalizing s with
  | nil => exact hm
  | cons op ops ih =>
    obtain ⟨h1, h2⟩ := step_ok b parse toStr h op
    exact ih h1 (h2 r i hm (hun op (by simp))) (fun o ho => hun o (by simp [ho]))

/-- **C40** (observed from the start).  A router that is observed right after its creation shows the route of
the current location as long as it is observed, after every history of navigations, except between a change
of the location by the user and the event that reports it.  Missing: routers that were not observed while the
location changed, see `C40_unobserved_violated`. -/
theorem C40_mirrors_partial (b : Browser L) (parse : String → T) (toStr : T → String) (loc : L)
    (before later : List (NavOp L T)) (url : String)
    (hread : b.get (navigate b parse toStr loc before).loc = some url)
    (hun : ∀ op ∈ later, ¬ op.Unobserves (navigate b parse toStr loc before).routers.length) :
    let r := (navigate b parse toStr loc before).routers.length
    let s := navigate b parse toStr loc (before ++ [.inner .create, .inner (.observe r)] ++ later)
    Observed s r ∧ (s.unseen = false → Shows b parse s r) := by
  intro r s
  have hok := navigate_ok b parse toStr loc before
  have hs : s = later.foldl (Nav.step b parse toStr)
      (((navigate b parse toStr loc before).create b parse).observe r) := by
    simp [s, navigate, Nav.step, Nav.inner]
  have hok1 := (inner_ok b parse hok .create).1
  have hok2 := (inner_ok b parse hok1 (.observe r)).1
  simp only [Nav.inner] at hok1 hok2
  have hm : Mirrors b parse (((navigate b parse toStr loc before).create b parse).observe r) r
      (navigate b parse toStr loc before).nextId := by
    unfold Nav.create
    rw [hread]
    simp only [Nav.observe, r]
    rw [show ((navigate b parse toStr loc before).routers ++
        [({ value := parse url, conn := none } : RouterState T)])[(navigate b parse toStr loc before).routers.length]? =
        some { value := parse url, conn := none } from by simp]
    refine ⟨{ value := parse url, conn := some (navigate b parse toStr loc before).nextId }, by simp, rfl, .inr ?_⟩
    intro u hu
    dsimp only at hu
    rw [hread] at hu
    injection hu with hu
    rw [hu]
  obtain ⟨R, hr, hc, hv⟩ := steps_mirror b parse toStr later hok2 r _ hm hun
  rw [hs]
  refine ⟨⟨R, hr, by simp [hc]⟩, ?_⟩
  intro hns u hu
  rw [hr]
  simp only [Option.map_some]
  rcases hv with hv | hv
  · rw [hns] at hv; simp at hv
  · rw [hv u hu]

/-- **C40** (while observed).  Whatever happened before: if a router is observed and shows the location, it
goes on doing so for as long as it is observed. -/
theorem C40_keeps_mirroring (b : Browser L) (parse : String → T) (toStr : T → String) (loc : L)
    (before later : List (NavOp L T)) (r : Nat)
    (hobs : Observed (navigate b parse toStr loc before) r)
    (hshows : Shows b parse (navigate b parse toStr loc before) r)
    (hun : ∀ op ∈ later, ¬ op.Unobserves r) :
    Observed (navigate b parse toStr loc (before ++ later)) r ∧
      ((navigate b parse toStr loc (before ++ later)).unseen = false →
        Shows b parse (navigate b parse toStr loc (before ++ later)) r) := by
  have hok := navigate_ok b parse toStr loc before
  obtain ⟨R, hr, hc⟩ := hobs
  obtain ⟨i, hi⟩ := Option.isSome_iff_exists.1 hc
  have hm : Mirrors b parse (navigate b parse toStr loc before) r i := by
    refine ⟨R, hr, hi, .inr ?_⟩
    intro u hu
    have := hshows u hu
    rw [hr] at this
    simpa using this
  have hs : navigate b parse toStr loc (before ++ later) =
      later.foldl (Nav.step b parse toStr) (navigate b parse toStr loc before) := by simp [navigate]
  obtain ⟨R', hr', hc', hv'⟩ := steps_mirror b parse toStr later hok r i hm hun
  rw [hs]
  refine ⟨⟨R', hr', by simp [hc']⟩, ?_⟩
  intro hns u hu
  rw [hr']
  simp only [Option.map_some]
  rcases hv' with hv' | hv'
  · rw [hns] at hv'; simp at hv'
  · rw [hv' u hu]

/-- **C40** (set).  Setting a route whose url the browser keeps as it is changes the location to this url,
and every observed router then shows the route parsed from it. -/
theorem C40_set (b : Browser L) (parse : String → T) (toStr : T → String) (loc : L) (before : List (NavOp L T))
    (route : T) (cur : String) (loc' : L) (inside : List (List Inner))
    (hread : b.get (navigate b parse toStr loc before).loc = some cur)
    (hnav : b.nav (navigate b parse toStr loc before).loc (toStr route) = some loc')
    (hkeep : b.get loc' = some (toStr route)) (hne : cur ≠ toStr route) :
    let s := navigate b parse toStr loc (before ++ [.set route inside])
    b.get s.loc = some (toStr route) ∧
      ∀ r, Observed (navigate b parse toStr loc before) r → (∀ l ∈ inside, .unobserve r ∉ l) →
        (s.routers[r]?.map (·.value)) = some (parse (toStr route)) := by
  intro s
  have hok := navigate_ok b parse toStr loc before
  have hs : s = Nav.trigger b parse { (navigate b parse toStr loc before) with loc := loc' } inside := by
    simp only [s, navigate, List.foldl_append, List.foldl_cons, List.foldl_nil, Nav.step]
    rw [← navigate]
    simp only [Nav.push, hread, if_neg hne, hnav]
  have hok' : ({ (navigate b parse toStr loc before) with loc := loc' } : Nav L T).Ok := ⟨hok.conn, hok.ids⟩
  obtain ⟨t1, t2, _, t4⟩ := trigger_ok b parse inside hok'
  rw [hs]
  refine ⟨by rw [t2]; exact hkeep, ?_⟩
  rintro r ⟨R, hr, hc⟩ hun
  obtain ⟨i, hi⟩ := Option.isSome_iff_exists.1 hc
  obtain ⟨R', hr', _, hv⟩ := t4 r R i hr hi hun
  rw [hr']
  simp only [Option.map_some]
  rw [hv _ hkeep]

/-- **C40** (identical navigation).  Navigating to the url of the current location does nothing. -/
theorem C40_identical (b : Browser L) (parse : String → T) (toStr : T → String) (s : Nav L T) (url : String)
    (inside : List (List Inner)) (h : b.get s.loc = some url) :
    s.step b parse toStr (.push url inside) = s ∧
      ∀ route, toStr route = url → s.step b parse toStr (.set route inside) = s := by
  refine ⟨by simp [Nav.step, Nav.push, h], ?_⟩
  intro route hr
  simp [Nav.step, Nav.push, h, hr]

/-- The values router `r` has had, in order. -/
def valuesOf (r : Nat) (log : List (Nat × T)) : List T := (log.filter (·.1 = r)).map (·.2)

/-- No value is followed by the same value. -/
def NoRepeat (l : List T) : Prop := ∀ a x y c, l = a ++ x :: y :: c → x ≠ y

omit [DecidableEq T] in
theorem NoRepeat.snoc {l : List T} (h : NoRepeat l) (y : T) (hy : ∀ z, l.getLast? = some z → z ≠ y) :
    NoRepeat (l ++ [y]) := by
  intro a x w c heq
  rcases List.eq_nil_or_concat c with rfl | ⟨c', q, rfl⟩
  · have e1 : l ++ [y] = (a ++ [x]) ++ [w] := by rw [heq]; simp
    obtain ⟨e2, e3⟩ := List.append_inj' e1 rfl
    simp only [List.cons.injEq, and_true] at e3
    subst e3
    exact hy x (by rw [e2]; simp)
  · rw [List.concat_eq_append] at heq
    have e1 : l ++ [y] = (a ++ x :: w :: c') ++ [q] := by rw [heq]; simp
    exact h a x w c' (List.append_inj' e1 rfl).1

/-- The log and the values agree. -/
def Logged (s : Nav L T) : Prop :=
  ∀ r, (s.routers[r]?.map (·.value)) = (valuesOf r s.log).getLast? ∧ NoRepeat (valuesOf r s.log)

omit [DecidableEq T] in
theorem valuesOf_snoc (r q : Nat) (v : T) (log : List (Nat × T)) :
    valuesOf r (log ++ [(q, v)]) = if q = r then valuesOf r log ++ [v] else valuesOf r log := by
  unfold valuesOf
  rw [List.filter_append]
  split <;> simp_all

omit [DecidableEq T] in
theorem inner_logged (b : Browser L) (parse : String → T) {s : Nav L T} (h : Logged s) (op : Inner) :
    Logged (s.inner b parse op) := by
  cases op with
  | create =>
    simp only [Nav.inner, Nav.create]
    split
    · rename_i url _
      intro r
      dsimp only
      rw [valuesOf_snoc]
      have hr := h r
      by_cases he : s.routers.length = r
      · rw [if_pos he]
        have hnone : s.routers[r]? = none := by rw [List.getElem?_eq_none_iff]; omega
        rw [hnone] at hr
        have hnil : valuesOf r s.log = [] := by simpa using hr.1.symm
        rw [hnil, ← he]
        refine ⟨by simp, ?_⟩
        intro a x y c hc
        cases a <;> simp at hc
      · rw [if_neg he]
        refine ⟨?_, hr.2⟩
        rw [← hr.1]
        rcases Nat.lt_or_ge r s.routers.length with hlt | hge
        · rw [List.getElem?_append_left hlt]
        · rw [List.getElem?_eq_none (by simp; omega), List.getElem?_eq_none hge]
    · exact h
  | observe q =>
    simp only [Nav.inner, Nav.observe]
    split
    · rename_i v hq
      intro r
      refine ⟨?_, (h r).2⟩
      dsimp only
      rw [← (h r).1]
      by_cases he : q = r
      · subst he
        have hlt := (List.getElem?_eq_some_iff.1 hq).1
        rw [List.getElem?_set, hq]; simp [hlt]
      · rw [List.getElem?_set_ne he]
    · exact h
  | unobserve q =>
    simp only [Nav.inner, Nav.unobserve]
    split
    · rename_i v id hq
      intro r
      refine ⟨?_, (h r).2⟩
      dsimp only
      rw [← (h r).1]
      by_cases he : q = r
      · subst he
        have hlt := (List.getElem?_eq_some_iff.1 hq).1
        rw [List.getElem?_set, hq]; simp [hlt]
      · rw [List.getElem?_set_ne he]
    · exact h

theorem callback_logged (parse : String → T) {s : Nav L T} (h : Logged s) (id : Nat) (url : String) :
    Logged (s.callback parse id url) := by
  unfold Nav.callback
  split
  · rename_i q _
    split
    · rename_i v c hq
      split
      · exact h
      · rename_i hne
        intro r
        dsimp only
        rw [valuesOf_snoc]
        have hr := h r
        by_cases he : q = r
        · subst he
          rw [if_pos rfl]
          have hlt := (List.getElem?_eq_some_iff.1 hq).1
          refine ⟨by rw [List.getElem?_set]; simp [hlt], hr.2.snoc _ ?_⟩
          intro z hz
          rw [← hr.1, hq] at hz
          simp only [Option.map_some, Option.some.injEq] at hz
          rw [← hz]; exact hne
        · rw [if_neg he, List.getElem?_set_ne he]
          exact hr
    · exact h
  · exact h

theorem triggerAll_logged (b : Browser L) (parse : String → T) (ids : List Nat) (inside : List (List Inner))
    {s : Nav L T} (h : Logged s) : Logged (Nav.triggerAll b parse ids inside s) := by
  induction ids generalizing s inside with
  | nil => exact h
  | cons id ids ih =>
    unfold Nav.triggerAll
    split
    · exact h
    · apply ih
      have hc := callback_logged parse h id (by assumption)
      generalize Nav.callback parse s id _ = t at hc
      generalize inside.headD [] = l
      induction l generalizing t with
      | nil => exact hc
      | cons op l ihl => exact ihl (t := t.inner b parse op) (inner_logged b parse hc op)

theorem navigate_logged (b : Browser L) (parse : String → T) (toStr : T → String) (loc : L)
    (ops : List (NavOp L T)) : Logged (navigate b parse toStr loc ops) := by
  unfold navigate
  induction ops using List.reverseRecOn with
  | nil => intro r; exact ⟨by simp [Nav.start, valuesOf], by intro a x y c hc; cases a <;> simp [Nav.start, valuesOf] at hc⟩
  | append_singleton ops op ih =>
    rw [List.foldl_append, List.foldl_cons, List.foldl_nil]
    generalize ops.foldl _ _ = s at ih
    have hp : ∀ url inside, Logged (s.push b parse url inside) := by
      intro url inside
      unfold Nav.push
      repeat' split
      all_goals first | exact ih | exact triggerAll_logged b parse _ inside (s := { s with loc := _, unseen := false }) ih
    cases op with
    | inner op => exact inner_logged b parse ih op
    | set route inside => exact hp _ _
    | change q f inside =>
      simp only [Nav.step]
      split
      · exact hp _ _
      · exact ih
    | push url inside => exact hp _ _
    | user loc => exact ih
    | event inside => exact triggerAll_logged b parse _ inside (s := { s with unseen := false }) ih

/-- **C40** (only changes are notified).  In every history, the values given to a router (when it is created
and by notifications) never repeat, and the last one is its current value. -/
theorem C40_only_changes (b : Browser L) (parse : String → T) (toStr : T → String) (loc : L)
    (ops : List (NavOp L T)) (r : Nat) :
    let s := navigate b parse toStr loc ops
    (s.routers[r]?.map (·.value)) = (valuesOf r s.log).getLast? ∧ NoRepeat (valuesOf r s.log) :=
  navigate_logged b parse toStr loc ops r

/-! ## Listeners -/

/-- Every history consists of these steps. -/
theorem navigate_inv (b : Browser L) (parse : String → T) (toStr : T → String) {P : Nav L T → Prop}
    (hin : ∀ s op, P s → P (s.inner b parse op)) (hcb : ∀ s id url, P s → P (s.callback parse id url))
    (hloc : ∀ (s : Nav L T) loc u, P s → P { s with loc, unseen := u }) (loc : L) (h0 : P (Nav.start loc))
    (ops : List (NavOp L T)) : P (navigate b parse toStr loc ops) := by
  have hins : ∀ (l : List Inner) s, P s → P (l.foldl (Nav.inner b parse) s) := by
    intro l
    induction l with
    | nil => exact fun s h => h
    | cons op l ih => exact fun s h => ih _ (hin s op h)
  have hall : ∀ ids inside s, P s → P (Nav.triggerAll b parse ids inside s) := by
    intro ids
    induction ids with
    | nil => exact fun _ s h => h
    | cons id ids ih =>
      intro inside s h
      simp only [Nav.triggerAll]
      split
      · exact h
      · exact ih _ _ (hins _ _ (hcb _ _ _ h))
  have hpush : ∀ s url inside, P s → P (Nav.push b parse s url inside) := by
    intro s url inside h
    simp only [Nav.push]
    split
    · exact h
    · split
      · exact h
      · split
        · exact h
        · exact hall _ _ _ (hloc s _ false h)
  have hstep : ∀ s op, P s → P (Nav.step b parse toStr s op) := by
    intro s op h
    cases op with
    | inner op => exact hin s op h
    | set route inside => exact hpush _ _ _ h
    | change r f inside =>
      simp only [Nav.step]
      split
      · exact hpush _ _ _ h
      · exact h
    | push url inside => exact hpush _ _ _ h
    | user loc => exact hloc s loc true h
    | event inside => exact hall _ _ _ (hloc s s.loc false h)
  unfold navigate
  induction ops using List.reverseRecOn with
  | nil => exact h0
  | append_singleton ops op ih => rw [List.foldl_append]; exact hstep _ _ ih

theorem split_at {α : Type} {l : List α} {r : Nat} {a : α} (h : l[r]? = some a) (c : α) :
    ∃ x y, l = x ++ a :: y ∧ l.set r c = x ++ c :: y := by
  induction l generalizing r with
  | nil => simp at h
  | cons z l ih =>
    cases r with
    | zero =>
      simp only [List.getElem?_cons_zero, Option.some.injEq] at h
      exact ⟨[], l, by simp [h], by simp⟩
    | succ r =>
      obtain ⟨x, y, h1, h2⟩ := ih (by simpa using h)
      exact ⟨z :: x, y, by simp [h1], by simp [h2]⟩

/-- The listeners of the browser and the registered callbacks are those of the observed routers. -/
structure Nav.Listens (s : Nav L T) : Prop where
  perm : s.jsMap.Perm (s.routers.filterMap (·.conn))
  same : s.store.map (·.1) = s.jsMap
  nodup : s.jsMap.Nodup
  lt : ∀ i ∈ s.jsMap, i < s.nextId

omit [DecidableEq T] in
theorem inner_listens (b : Browser L) (parse : String → T) (s : Nav L T) (op : Inner) (h : s.Listens) :
    (s.inner b parse op).Listens := by
  cases op with
  | create =>
    simp only [Nav.inner, Nav.create]
    split
    · exact ⟨by simpa using h.perm, h.same, h.nodup, h.lt⟩
    · exact h
  | observe q =>
    simp only [Nav.inner, Nav.observe]
    split
    · rename_i v hq
      obtain ⟨x, y, h1, h2⟩ := split_at hq { value := v, conn := some s.nextId }
      have hp := h.perm
      have hn : s.nextId ∉ s.jsMap := fun hm => Nat.lt_irrefl _ (h.lt _ hm)
      refine ⟨?_, by simp [h.same], ?_, ?_⟩
      · dsimp only
        rw [h2, List.filterMap_append, List.filterMap_cons_some (b := s.nextId) (by rfl)]
        rw [h1, List.filterMap_append, List.filterMap_cons_none (by rfl)] at hp
        exact (List.perm_append_singleton _ _).trans ((hp.cons _).trans List.perm_middle.symm)
      · dsimp only
        rw [List.nodup_append]
        exact ⟨h.nodup, by simp, by intro a ha c hc; obtain rfl : c = s.nextId := by simpa using hc
                                    rintro rfl; exact hn ha⟩
      · intro i hi
        dsimp only at hi ⊢
        rcases List.mem_append.1 hi with hi | hi
        · exact Nat.lt_succ_of_lt (h.lt i hi)
        · obtain rfl : i = s.nextId := by simpa using hi
          exact Nat.lt_succ_self _
    · exact h
  | unobserve q =>
    simp only [Nav.inner, Nav.unobserve]
    split
    · rename_i v id hq
      obtain ⟨x, y, h1, h2⟩ := split_at hq { value := v, conn := none }
      have hp := h.perm
      refine ⟨?_, ?_, h.nodup.filter _, fun i hi => h.lt i (List.mem_filter.1 hi).1⟩
      · dsimp only
        rw [h2, List.filterMap_append, List.filterMap_cons_none (by rfl)]
        rw [h1, List.filterMap_append, List.filterMap_cons_some (b := id) (by rfl)] at hp
        have hnd := hp.nodup_iff.1 h.nodup
        have hx := List.perm_middle.nodup_iff.1 hnd
        rw [List.nodup_cons] at hx
        have hf := hp.filter (fun i => decide (i ≠ id))
        rw [List.filter_append, List.filter_cons_of_neg (by simp), ← List.filter_append,
          List.filter_eq_self (l := x.filterMap (·.conn) ++ y.filterMap (·.conn)) |>.2 (fun a ha => by
            simp only [decide_eq_true_eq]
            rintro rfl
            exact hx.1 ha)] at hf
        exact hf
      · dsimp only
        rw [← h.same, List.filter_map]
        rfl
    · exact h

theorem callback_listens (parse : String → T) (s : Nav L T) (id : Nat) (url : String) (h : s.Listens) :
    (s.callback parse id url).Listens := by
  unfold Nav.callback
  split
  · split
    · rename_i r v c hr
      split
      · exact h
      · obtain ⟨x, y, h1, h2⟩ := split_at hr { value := parse url, conn := c }
        refine ⟨?_, h.same, h.nodup, h.lt⟩
        have hp := h.perm
        dsimp only
        rw [h2]
        rw [h1] at hp
        simpa [List.filterMap_append, List.filterMap_cons] using hp
    · exact h
  · exact h

/-- **C40** (listeners).  After every history, the listeners in the browser are exactly those of the observed
routers, one for each, and no other callback is registered: nothing is left behind by a router that is no
longer observed. -/
theorem C40_listeners (b : Browser L) (parse : String → T) (toStr : T → String) (loc : L)
    (ops : List (NavOp L T)) :
    let s := navigate b parse toStr loc ops
    s.jsMap.Nodup ∧ s.store.map (·.1) = s.jsMap ∧
      (∀ i, i ∈ s.jsMap ↔ ∃ (r : Nat) (R : RouterState T), s.routers[r]? = some R ∧ R.conn = some i) ∧
      s.jsMap.length = (s.routers.filter (·.conn.isSome)).length := by
  intro s
  have h : s.Listens := navigate_inv b parse toStr (P := Nav.Listens) (fun s op h => inner_listens b parse s op h)
    (fun s i u h => callback_listens parse s i u h) (fun s l u h => ⟨h.perm, h.same, h.nodup, h.lt⟩) loc
    ⟨by simp [Nav.start], by simp [Nav.start], by simp [Nav.start], by simp [Nav.start]⟩ ops
  refine ⟨h.nodup, h.same, fun i => ?_, ?_⟩
  · rw [h.perm.mem_iff, List.mem_filterMap]
    constructor
    · rintro ⟨R, hR, hc⟩
      obtain ⟨r, hr⟩ := List.getElem?_of_mem hR
      exact ⟨r, R, hr, hc⟩
    · rintro ⟨r, R, hr, hc⟩
      exact ⟨R, List.mem_of_getElem? hr, hc⟩
  · rw [h.perm.length_eq, ← List.countP_eq_length_filter, List.length_filterMap_eq_countP]

/-! ## A browser that keeps every url, and a history -/

/-- Locations are urls, and every url is kept as it is. -/
def plain : Browser String := { get := some, nav := fun _ url => some url }

/-- If the location changes while the router is not observed, the router shows the old route afterwards,
also when it is observed again: the initial value is only read when the router is created
(`router.rs:88-91`). -/
theorem C40_unobserved_violated :
    let s := navigate plain id id "/a" [.inner .create, .set "/b" [], .inner (.observe 0)]
    Observed s 0 ∧ s.unseen = false ∧ ¬ Shows plain id s 0 := by
  refine ⟨⟨{ value := "/a", conn := some 0 }, rfl, rfl⟩, rfl, ?_⟩
  intro h
  have := h "/b" rfl
  revert this
  decide

/-- `router.change` then computes from the old route. -/
example : (navigate plain id id "/a" [.inner .create, .set "/b" [], .change 0 (· ++ "/c") []]).loc = "/a/c" := by
  decide

/-- A history with a second router, created inside of a notification. -/
def sampleNav : List (NavOp String String) :=
  [.inner .create, .inner (.observe 0), .set "/b" [[.create, .observe 1]], .user "/c", .event [],
    .push "/d" [[.unobserve 1]]]

example : let s := navigate plain id id "/a" sampleNav
    s.routers = [{ value := "/d", conn := some 0 }, { value := "/c", conn := none }] ∧
      valuesOf 0 s.log = ["/a", "/b", "/c", "/d"] ∧ s.jsMap = [0] := by decide

/-- The hypotheses of the theorems in this history. -/
example : let ops : List (NavOp String String) := [.set "/b" [[.create, .observe 1]], .user "/c", .event []]
    plain.get (navigate plain id id "/a" []).loc = some "/a" ∧
      ∀ op ∈ ops, ¬ op.Unobserves (navigate plain id id "/a" []).routers.length := by
  simp [plain, navigate, Nav.start, NavOp.Unobserves]

/-- A malformed hash cannot be read: a route cannot even be set then (`hashrouter.ts:32` throws). -/
example : (navigate (T := String) { get := fun l => if l = "%" then none else some l, nav := fun _ url => some url } id id
    "/a" [.user "%", .event [], .set "/b" []]).loc = "%" := by decide

end Verif.Host

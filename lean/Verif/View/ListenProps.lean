import Verif.View.ListenProof
/-!
# C67: the application answers its user
-/
namespace Verif.View
open Verif.Dom Verif.Codec
open Verif.Host.Events (Kind Data Event Flags action closure receive sees preventsAlways preventsIfAsked stopsIfAsked
  callbackClick callbackMouse callbackPlain callbackInput callbackChange callbackKeydown callbackLoad nothing truthy jsBool
  receive_eq transfer_str action_kind jsBool_cases undefined_cases truthy_jsBool key_decode key_transfer)
open Verif.Host (transfer)

theorem Stands.cons {b : Browser} {y xs x} (h : Stands b (y :: xs) x) : x = y ∨ Stands b (b.children y) x ∨ Stands b xs x := by
  cases h with
  | here h =>
    rcases List.mem_cons.mp h with h | h
    · exact Or.inl h
    · exact Or.inr (Or.inr (.here h))
  | deeper h h' =>
    rcases List.mem_cons.mp h with rfl | h
    · exact Or.inr (Or.inl h')
    · exact Or.inr (Or.inr (.deeper h h'))

theorem Stands.last {b : Browser} {l x} (h : Stands b l x) : x ∈ l ∨ ∃ y, Stands b l y ∧ x ∈ b.children y := by
  induction h with
  | here h => exact Or.inl h
  | deeper hy _ ih =>
    rcases ih with h | ⟨z, h1, h2⟩
    · exact Or.inr ⟨_, .here hy, h⟩
    · exact Or.inr ⟨z, .deeper hy h1, h2⟩

theorem veil_attr {attr : String → Option String} : WithoutHandlers attr fun x => if (handlerKind x).isSome then none else attr x := by
  constructor
  · intro a ha
    cases hk : handlerKind a with
    | none => simp
    | some k => exact absurd rfl (ha _ (kind_handlers hk))
  · intro h hh
    simp [(handlers_kind h hh).1]

theorem Shows.displays {b : Browser} {xs hs} (h : Shows b xs hs) (L : List Listening) : Displays (veil b L) xs hs := by
  induction h with
  | nil => exact .nil
  | text e _ ih => exact .text (by simp [veil, e, bare]) ih
  | @comment x xs s hs e _ ih => exact .comment (s := s) (by simp [veil, e, bare]) ih
  | @element x xs name attr cs hs e _ _ ih1 ih2 =>
    exact .element (name := name) (page := fun x => if (handlerKind x).isSome then none else attr x) (by simp [veil, e, bare]) veil_attr ih1 ih2

theorem veil_comment {b : Browser} {L y s} (h : (veil b L).objects y = some (.comment s)) : b.objects y = some (.comment s) := by
  simp only [veil, Option.map_eq_some_iff] at h
  obtain ⟨o, h1, h2⟩ := h
  cases o <;> simp [bare] at h2
  rw [h1, h2]

theorem veil_element {b : Browser} {L y n a} (h : (veil b L).objects y = some (.element n a)) : ∃ a', b.objects y = some (.element n a') := by
  simp only [veil, Option.map_eq_some_iff] at h
  obtain ⟨o, h1, h2⟩ := h
  cases o <;> simp [bare] at h2
  exact ⟨_, by rw [h1, h2.1]⟩

theorem Written.object {b : Browser} {L xs hs x attr} (hw : Written (veil b L) xs hs x attr) (h : Shows b xs hs) :
    (∃ n, b.objects x = some (.element n attr)) ∧ Stands b xs x := by
  induction hw with
  | here e =>
    obtain ⟨a, e⟩ := veil_element e
    cases h with
    | comment e' _ => rw [e] at e'; cases e'
    | element e' _ _ => exact ⟨⟨_, e'⟩, .here List.mem_cons_self⟩
  | inside e _ ih =>
    obtain ⟨a, e⟩ := veil_element e
    cases h with
    | comment e' _ => rw [e] at e'; cases e'
    | element e' h1 _ =>
      obtain ⟨h2, h3⟩ := ih h1
      exact ⟨h2, .deeper List.mem_cons_self h3⟩
  | next e _ ih =>
    cases h with
    | @comment _ _ s' _ e' _ => exact absurd (by simp [veil, e', bare]) (e s')
    | text _ h1 => exact ⟨(ih h1).1, (ih h1).2.mono fun y hy => List.mem_cons_of_mem _ hy⟩
    | element _ _ h1 => exact ⟨(ih h1).1, (ih h1).2.mono fun y hy => List.mem_cons_of_mem _ hy⟩
  | comment e _ ih =>
    have e := veil_comment e
    cases h with
    | comment _ h1 => exact ⟨(ih h1).1, (ih h1).2.mono fun y hy => List.mem_cons_of_mem _ hy⟩
    | text e' _ => rw [e] at e'; cases e'
    | element e' _ _ => rw [e] at e'; cases e'

theorem stands_leaf {b : Browser} (hi : BInv b) {y x} (hn : ∀ n a, b.objects y ≠ some (.element n a)) : ¬ Stands b (b.children y) x := by
  have : ∀ z, z ∉ b.children y := by
    intro z hz
    obtain ⟨-, n, a, e⟩ := hi.par z y ((hi.link y z).mp hz)
    exact hn n a e
  intro h
  cases h with
  | here h => exact this _ h
  | deeper h _ => exact this _ h

theorem Shows.written {b : Browser} (hi : BInv b) {xs hs} (h : Shows b xs hs) {x n attr} (hx : Stands b xs x)
    (ho : b.objects x = some (.element n attr)) (L : List Listening) : Written (veil b L) xs hs x attr := by
  induction h with
  | nil =>
    cases hx with
    | here h => cases h
    | deeper h _ => cases h
  | text e _ ih =>
    rcases hx.cons with rfl | h | h
    · rw [ho] at e; cases e
    · exact absurd h (stands_leaf hi (by rw [e]; simp))
    · exact .next (by simp [veil, e, bare]) (ih h)
  | comment e _ ih =>
    rcases hx.cons with rfl | h | h
    · rw [ho] at e; cases e
    · exact absurd h (stands_leaf hi (by rw [e]; simp))
    · exact .comment (by simp [veil, e, bare]; rfl) (ih h)
  | element e _ _ ih1 ih2 =>
    rcases hx.cons with rfl | h | h
    · rw [ho] at e
      cases e
      exact .here (by simp [veil, ho, bare]; rfl)
    · exact .inside (by simp [veil, e, bare]; rfl) (ih1 h)
    · exact .next (by simp [veil, e, bare]) (ih2 h)

/-! ## Transactions -/

theorem tidy_modest {c : Cmd} (h : Tidy c) : Modest c := by
  cases c <;> first | exact h | exact trivial | exact h.elim

theorem removal_modest {c : Cmd} {x} (h : c.removes = some x) (hr : isRoot x = false) : Modest c := by
  cases c <;> simp [Cmd.removes] at h <;> subst h <;> exact hr

theorem calm_modest {c : Cmd} (h : Calm c) : Modest c := by
  rcases h with h | ⟨x, h1, h2⟩ | rfl
  · exact tidy_modest h
  · exact removal_modest h1 h2
  · trivial

theorem opening_modest : ∀ c ∈ opening, Modest c := by
  intro c hc
  simp only [opening, List.mem_cons, List.not_mem_nil, or_false] at hc
  rcases hc with rfl | rfl | rfl | rfl <;> trivial

theorem veil_init : veil Browser.init [] = Browser.init := by
  have : (fun x => (Browser.init.objects x).map bare) = Browser.init.objects := by
    funext x
    simp only [Browser.init]
    repeat' split
    all_goals simp [bare]
  unfold veil
  rw [this]
  rfl

section
variable [DecidableEq V]

/-- The running application and the page of C49. -/
structure Ready (views : List (View S V)) (b : Browser) (s : Site S V) : Prop where
  agree : Agree views b s.app
  due : dueAll s.state s.app.body = []
  map : ∀ x, b.inMap x = true → x ∈ idsAll s.app.body
  page : s.page = veil b s.listens.live
  wired : Wired b s.listens

theorem Ready.whole {views : List (View S V)} {b s} (h : Ready views b s) : Whole b := by
  intro x q hq
  have hi := h.agree.good.inv
  rcases (hi.par x q hq).1 with hx | hx
  · rw [h.agree.good.top x hx] at hq
    split at hq
    · cases hq
    · cases hq; exact Or.inl rfl
  · have hs := idsAll_stands _ h.agree.holds x (h.map x hx)
    rcases hs.last with h1 | ⟨y, h1, h2⟩
    · rw [← h.agree.body, hi.link, hq] at h1
      cases h1
      exact Or.inl rfl
    · rw [hi.link, hq] at h2
      cases h2
      exact Or.inr (holdsAll_inMap _ h.agree.holds _ (stands_ids h.agree.good h.agree.holds h1 (topsAll_sub _)))

theorem Ready.shows {views : List (View S V)} {b s} (h : Ready views b s) : Shows b (b.children 3) (htmls s.state views) := by
  have := showsAll_of _ h.agree.holds h.agree.fits h.due Shows.nil
  rw [h.agree.body]
  simpa using this

theorem Ready.view {views : List (View S V)} {b s} (h : Ready views b s) : ShowsView views s.state s.page := by
  rw [h.page]
  exact ⟨h.agree.html, h.shows.displays _⟩

theorem Ready.transaction {views : List (View S V)} (hok : ∀ v ∈ views, v.Fine) {w : World S V} (hw : w.Fair) {b s} (h : Ready views b s) (σ : S) :
    ∃ s' b', s.transaction w σ = some s' ∧ Ready views b' s' ∧ s'.state = σ := by
  obtain ⟨b', hr, ha, hd⟩ := change_agrees hok hw.order (w.subs s.time s.app σ) h.agree (hw.subs s.time s.app σ)
  have hacc := change_accounts hok hw.order (σ := σ) (w.subs s.time s.app σ) h.agree
  have hcalm := hr.calm
  have hmod : ∀ c ∈ (s.app.change σ w.order (w.subs s.time s.app σ)).2, Modest c := fun c hc => calm_modest (hcalm c hc)
  have hroot : ∀ c ∈ (s.app.change σ w.order (w.subs s.time s.app σ)).2, ∀ id, c.removes = some id → isRoot id = false := by
    intro c hc id hid
    have := hmod c hc
    cases c <;> simp [Cmd.removes] at hid <;> subst hid <;> exact this
  obtain ⟨h1, h2⟩ := listens_batch h.agree.good.inv h.wired hmod ((hr.inserts h.whole).1.above hroot) hr.run
  refine ⟨⟨(s.app.change σ w.order (w.subs s.time s.app σ)).1, σ, (s.listens.run (s.app.change σ w.order (w.subs s.time s.app σ)).2).1,
    veil b' (s.listens.run (s.app.change σ w.order (w.subs s.time s.app σ)).2).1.live, s.time + 1⟩, b', ?_, ⟨ha, hd, fun x hx => ?_, rfl, h2⟩, rfl⟩
  · simp only [Site.transaction, Site.send, h.page, h1]
  · rcases run_inMap hr.run hx with h3 | h3
    · rcases hacc x (Or.inl (h.map x h3)) with h4 | h4
      · exact h4
      · rw [((gone_run hr.run).2 x h4).2] at hx; cases hx
    · rcases hacc x (Or.inr h3) with h4 | h4
      · exact h4
      · rw [((gone_run hr.run).2 x h4).2] at hx; cases hx

theorem start_ready {views : List (View S V)} (hok : ∀ v ∈ views, v.Fine) (σ : S) :
    ∃ s b, Site.start σ views = some s ∧ Ready views b s ∧ s.state = σ := by
  have hc : Complete (fun x => x) ([] : List (S × List Sub)) (App.start σ views).1 := trivial
  obtain ⟨b, hs⟩ := sends (order := fun x => x) hok (fun l => .refl l) hc
  have hmap := map_ids hok (fun l => .refl l) hc hs
  have e : App.sent σ views (fun x => x) ([] : List (S × List Sub)) = (App.start σ views).2 := by simp [App.sent, App.history]
  have hmod : ∀ c ∈ (App.start σ views).2, Modest c := by
    obtain ⟨rest, e1, e2, -⟩ := hs.split
    rw [e] at e1
    intro c hc
    rw [e1] at hc
    rcases List.mem_append.mp hc with hc | hc
    · exact opening_modest c hc
    · exact calm_modest (e2 c hc)
  have hw : Wired Browser.init {} := by
    refine ⟨by simp, by simp, by simp, by simp, fun x n a name k v hx => ?_⟩
    simp [Browser.init] at hx
  have hrun := hs.run
  have hno := hs.inserts.above hs.removes
  rw [e] at hrun hno
  obtain ⟨h1, h2⟩ := listens_batch binv_init hw hmod hno hrun
  rw [show ({} : Listens).live = [] from rfl, veil_init] at h1
  refine ⟨⟨(App.start σ views).1, σ, (({} : Listens).run (App.start σ views).2).1,
    veil b (({} : Listens).run (App.start σ views).2).1.live, 1⟩, b, ?_, ⟨hs.agree, hs.due, fun x hx => (hmap x).mp hx, rfl, h2⟩, rfl⟩
  simp only [Site.start, Site.send]
  rw [show (⟨[], 1⟩ : Listens) = {} from rfl, h1]

/-! ## Events -/

/-- The handlers of a node for a type of events are those of the view. -/
theorem Ready.handles {views : List (View S V)} {b s} (h : Ready views b s) (x : Id) (type : String) (k : Kind) (name : String) :
    Handles views s.state s.page x type k name ↔ ∃ l ∈ s.listens.live, l.element = x ∧ l.kind = k ∧ k.name = type ∧ l.current = name := by
  rw [h.page]
  constructor
  · rintro ⟨attr, written, h1, h2, h3⟩
    obtain ⟨⟨n, ho⟩, hst⟩ := h1.object h.shows
    have hin : b.inMap x = true := by
      change Stands b (b.children 3) x at hst
      rw [h.agree.body] at hst
      exact holdsAll_inMap _ h.agree.holds _ (stands_ids h.agree.good h.agree.holds hst (topsAll_sub _))
    obtain ⟨h4, h5⟩ := handlers_kind _ h2
    obtain ⟨l, hl, e1, e2, e3⟩ := h.wired.all x n attr written k name hin ho h4 h3
    exact ⟨l, hl, e1, e2, h5.symm, e3⟩
  · rintro ⟨l, hl, rfl, rfl, rfl, rfl⟩
    obtain ⟨hin, n, attr, name, ho, hk, ha⟩ := h.wired.here l hl
    refine ⟨attr, name, ?_, kind_handlers hk, ha⟩
    refine h.shows.written h.agree.good.inv ?_ ho _
    rw [h.agree.body]
    exact idsAll_stands _ h.agree.holds _ (h.map _ hin)

theorem alone {α : Type} : ∀ {l : List α}, l.Nodup → (∀ a ∈ l, ∀ b ∈ l, a = b) → l = [] ∨ ∃ a, l = [a]
  | [], _, _ => Or.inl rfl
  | [a], _, _ => Or.inr ⟨a, rfl⟩
  | a :: b :: l, h, hs => by
      have := hs a (by simp) b (by simp)
      subst this
      simp at h

omit [DecidableEq V] in
/-- There is at most one of them. -/
theorem Wired.one {b : Browser} {s : Listens} (h : Wired b s) (x : Id) (type : String) :
    (∀ l ∈ s.live, ¬ (l.element = x ∧ l.kind.name = type)) ∧ (s.live.map Listening.entry).filter (fun l => l.2.1 = x ∧ l.2.2 = type) = [] ∨
    ∃ l ∈ s.live, (l.element = x ∧ l.kind.name = type) ∧ (s.live.map Listening.entry).filter (fun l => l.2.1 = x ∧ l.2.2 = type) = [l.entry] := by
  have hf : (s.live.map Listening.entry).filter (fun l => l.2.1 = x ∧ l.2.2 = type) =
      (s.live.filter fun l => l.element = x ∧ l.kind.name = type).map Listening.entry := by
    rw [List.filter_map]; rfl
  have hmem : ∀ l, l ∈ s.live.filter (fun l => l.element = x ∧ l.kind.name = type) ↔ l ∈ s.live ∧ l.element = x ∧ l.kind.name = type := by
    intro l; rw [List.mem_filter, decide_eq_true_eq]
  rcases alone (l := s.live.filter fun l => l.element = x ∧ l.kind.name = type) ((List.Nodup.of_map _ h.nodup).filter _) (by
    intro l hl l' hl'
    obtain ⟨h1, h2, h3⟩ := (hmem l).mp hl
    obtain ⟨h1', h2', h3'⟩ := (hmem l').mp hl'
    obtain ⟨-, _, _, _, -, hk, -⟩ := h.here l h1
    obtain ⟨-, _, _, _, -, hk', -⟩ := h.here l' h1'
    have := handlers_type _ (kind_handlers hk) _ (kind_handlers hk') (by rw [h3, h3'])
    exact h.single l h1 l' h1' (by rw [h2, h2']) (congrArg Prod.fst this)) with h1 | ⟨l, h1⟩
  · refine Or.inl ⟨fun l hl hc => ?_, by rw [hf, h1]; rfl⟩
    have := (hmem l).mpr ⟨hl, hc⟩
    rw [h1] at this
    cases this
  · obtain ⟨h2, h3⟩ := (hmem l).mp (by rw [h1]; simp)
    exact Or.inr ⟨l, h2, h3, by rw [hf, h1]; rfl⟩

theorem find_callback : ∀ {live : List Listening}, (live.map (·.callback)).Nodup → ∀ {l}, l ∈ live →
    live.find? (fun x => x.callback = l.callback) = some l
  | [], _, l, hl => by cases hl
  | a :: live, hn, l, hl => by
      obtain ⟨h1, h2⟩ := List.nodup_cons.mp hn
      rcases List.mem_cons.mp hl with rfl | hl
      · simp
      · have : a.callback ≠ l.callback := fun e => h1 (List.mem_map.mpr ⟨l, hl, e.symm⟩)
        rw [List.find?_cons_of_neg (by simpa using this)]
        exact find_callback h2 hl

/-- The handlers of the application and the listeners in the page. -/
structure Linked (b : Browser) (s : Site S V) : Prop where
  page : s.page = veil b s.listens.live
  wired : Wired b s.listens

/-- What is kept by all transactions. -/
structure Lasting (w : World S V) (R : Browser → Site S V → Prop) : Prop where
  linked : ∀ {b s}, R b s → Linked b s
  transaction : ∀ {b s}, R b s → ∀ σ, ∃ s' b', s.transaction w σ = some s' ∧ R b' s' ∧ s'.state = σ

theorem call_ok {w : World S V} {b s} (h : Linked b s) {l} (hl : l ∈ s.listens.live) {v d res}
    (hv : transfer v = .value v) (hc : closure l.kind v = .inl (d, res)) (hres : ∀ a, res a = .tru ∨ res a = .fls ∨ res a = .undefined)
    {s'} (ht : s.transaction w (w.program.update l.current d s.state) = some s') :
    s.callRust w l.callback v = some (s', res (w.program.answer l.current d s.state)) := by
  simp only [Site.callRust, hv, Site.wasmCallback, find_callback h.wired.nodup hl, hc, ht, receive_eq w.lossy (hres _)]

/-- An event comes to a handler. -/
theorem invoke_ok {w : World S V} {R : Browser → Site S V → Prop} (hR : Lasting w R) {b s} (h : R b s)
    {e : Event} (he : e.Fits) (f : Flags) (hf : f.stopped = false) {l} (hl : l ∈ s.listens.live) :
    (sees l.kind e = none ∧ s.invoke w e f l.entry = some (s, ⟨f.prevented || preventsAlways l.kind, false⟩)) ∨
    ∃ d s' b', sees l.kind e = some d ∧ R b' s' ∧ s'.state = w.program.update l.current d s.state ∧
      s.invoke w e f l.entry = some (s', ⟨f.prevented || preventsAlways l.kind || (preventsIfAsked l.kind && w.program.answer l.current d s.state),
        stopsIfAsked l.kind && w.program.answer l.current d s.state⟩) := by
  have h' := hR.linked h
  have hmem : l.entry ∈ s.page.listeners := by
    rw [h'.page]; exact List.mem_map.mpr ⟨l, hl, rfl⟩
  have hinv : s.invoke w e f l.entry = match action l.kind.name e with
      | .ignore prevent => some (s, { f with prevented := f.prevented || prevent })
      | .read prevent _ => some (s, { f with prevented := f.prevented || prevent })
      | .call prevent value after =>
          match s.callRust w l.callback value with
          | none => none
          | some (s', result) => some (s', ⟨f.prevented || prevent || (after result).1, f.stopped || (after result).2⟩) := by
    simp only [Site.invoke, hmem, if_true]
    rfl
  rw [hinv, action_kind]
  obtain ⟨-, _, _, _, -, hk, -⟩ := h'.wired.here l hl
  have hrow := kind_handlers hk
  obtain ⟨e1, e2, -⟩ := he
  have call : ∀ v d res, transfer v = .value v → closure l.kind v = .inl (d, res) → (∀ a, res a = .tru ∨ res a = .fls ∨ res a = .undefined) →
      ∃ s' b', R b' s' ∧ s'.state = w.program.update l.current d s.state ∧
        s.callRust w l.callback v = some (s', res (w.program.answer l.current d s.state)) := by
    intro v d res hv hc hres
    obtain ⟨s', b', h1, h2, h3⟩ := hR.transaction h (w.program.update l.current d s.state)
    exact ⟨s', b', h2, h3, call_ok h' hl hv hc hres h1⟩
  obtain ⟨fp, fs⟩ := f
  simp only at hf
  subst hf
  cases hkind : l.kind with
  | click =>
    obtain ⟨s', b', h1, h2, h3⟩ := call .undefined .unit (fun _ => .undefined) rfl (by rw [hkind]; rfl) undefined_cases
    exact .inr ⟨.unit, s', b', rfl, h1, h2, by simp [callbackClick, h3, nothing, preventsAlways, preventsIfAsked, stopsIfAsked]⟩
  | load =>
    obtain ⟨s', b', h1, h2, h3⟩ := call .undefined .unit (fun _ => .undefined) rfl (by rw [hkind]; rfl) undefined_cases
    exact .inr ⟨.unit, s', b', rfl, h1, h2, by simp [callbackLoad, h3, nothing, preventsAlways, preventsIfAsked, stopsIfAsked]⟩
  | mouseEnter =>
    obtain ⟨s', b', h1, h2, h3⟩ := call .undefined .unit (fun _ => .undefined) rfl (by rw [hkind]; rfl) undefined_cases
    exact .inr ⟨.unit, s', b', rfl, h1, h2, by simp [callbackPlain, h3, nothing, preventsAlways, preventsIfAsked, stopsIfAsked]⟩
  | mouseLeave =>
    obtain ⟨s', b', h1, h2, h3⟩ := call .undefined .unit (fun _ => .undefined) rfl (by rw [hkind]; rfl) undefined_cases
    exact .inr ⟨.unit, s', b', rfl, h1, h2, by simp [callbackPlain, h3, nothing, preventsAlways, preventsIfAsked, stopsIfAsked]⟩
  | blur =>
    obtain ⟨s', b', h1, h2, h3⟩ := call .undefined .unit (fun _ => .undefined) rfl (by rw [hkind]; rfl) undefined_cases
    exact .inr ⟨.unit, s', b', rfl, h1, h2, by simp [callbackPlain, h3, nothing, preventsAlways, preventsIfAsked, stopsIfAsked]⟩
  | mouseDown =>
    obtain ⟨s', b', h1, h2, h3⟩ := call .undefined .unit jsBool rfl (by rw [hkind]; rfl) jsBool_cases
    exact .inr ⟨.unit, s', b', rfl, h1, h2, by simp [callbackMouse, h3, truthy_jsBool, preventsAlways, preventsIfAsked, stopsIfAsked]⟩
  | mouseUp =>
    obtain ⟨s', b', h1, h2, h3⟩ := call .undefined .unit jsBool rfl (by rw [hkind]; rfl) jsBool_cases
    exact .inr ⟨.unit, s', b', rfl, h1, h2, by simp [callbackMouse, h3, truthy_jsBool, preventsAlways, preventsIfAsked, stopsIfAsked]⟩
  | keyDown =>
    cases hkey : e.key with
    | none => exact .inl ⟨by simp [sees, hkey], by simp [callbackKeydown, hkey, preventsAlways]⟩
    | some key =>
      obtain ⟨s1, s2⟩ := e2 key (by simp [hkey])
      obtain ⟨s', b', h1, h2, h3⟩ := call _ (.key key) jsBool (key_transfer s1 s2) (by rw [hkind]; simp only [closure, key_decode]) jsBool_cases
      refine .inr ⟨.key key, s', b', by simp [sees, hkey], h1, h2, ?_⟩
      simp only [callbackKeydown, hkey, h3]
      cases w.program.answer l.current (.key key) s.state <;> simp [jsBool, preventsAlways, preventsIfAsked, stopsIfAsked]
  | input =>
    cases ht : e.target with
    | input v =>
      rw [ht] at e1
      obtain ⟨s', b', h1, h2, h3⟩ := call (.str v) (.text v) (fun _ => .undefined) (transfer_str e1) (by rw [hkind]; rfl) undefined_cases
      exact .inr ⟨.text v, s', b', by simp [sees, ht], h1, h2, by
        simp [callbackInput, ht, h3, nothing, preventsAlways, preventsIfAsked, stopsIfAsked]⟩
    | textArea v =>
      rw [ht] at e1
      obtain ⟨s', b', h1, h2, h3⟩ := call (.str v) (.text v) (fun _ => .undefined) (transfer_str e1) (by rw [hkind]; rfl) undefined_cases
      exact .inr ⟨.text v, s', b', by simp [sees, ht], h1, h2, by
        simp [callbackInput, ht, h3, nothing, preventsAlways, preventsIfAsked, stopsIfAsked]⟩
    | select v => exact .inl ⟨by simp [sees, ht], by simp [callbackInput, ht, preventsAlways]⟩
    | other => exact .inl ⟨by simp [sees, ht], by simp [callbackInput, ht, preventsAlways]⟩
  | change =>
    cases ht : e.target with
    | input v =>
      rw [ht] at e1
      obtain ⟨s', b', h1, h2, h3⟩ := call (.str v) (.text v) (fun _ => .undefined) (transfer_str e1) (by rw [hkind]; rfl) undefined_cases
      exact .inr ⟨.text v, s', b', by simp [sees, ht], h1, h2, by
        simp [callbackChange, ht, h3, nothing, preventsAlways, preventsIfAsked, stopsIfAsked]⟩
    | textArea v =>
      rw [ht] at e1
      obtain ⟨s', b', h1, h2, h3⟩ := call (.str v) (.text v) (fun _ => .undefined) (transfer_str e1) (by rw [hkind]; rfl) undefined_cases
      exact .inr ⟨.text v, s', b', by simp [sees, ht], h1, h2, by
        simp [callbackChange, ht, h3, nothing, preventsAlways, preventsIfAsked, stopsIfAsked]⟩
    | select v =>
      rw [ht] at e1
      obtain ⟨s', b', h1, h2, h3⟩ := call (.str v) (.text v) (fun _ => .undefined) (transfer_str e1) (by rw [hkind]; rfl) undefined_cases
      exact .inr ⟨.text v, s', b', by simp [sees, ht], h1, h2, by
        simp [callbackChange, ht, h3, nothing, preventsAlways, preventsIfAsked, stopsIfAsked]⟩
    | other => exact .inl ⟨by simp [sees, ht], by simp [callbackChange, ht, preventsAlways]⟩
  | dropFile => rw [hkind] at hrow; simp [handlers] at hrow
  | hookKeyDown => rw [hkind] at hrow; simp [handlers] at hrow

theorem ready_kept {views : List (View S V)} (hok : ∀ v ∈ views, v.Fine) {w : World S V} (hw : w.Fair) : Lasting w (Ready views) :=
  ⟨fun h => ⟨h.page, h.wired⟩, fun h σ => h.transaction hok hw σ⟩

theorem visit_ok {views : List (View S V)} (hok : ∀ v ∈ views, v.Fine) {w : World S V} (hw : w.Fair) {e : Event} (he : e.Fits) :
    ∀ (path : List Id) {b s} (f : Flags), Ready views b s → ∃ s' b' f', s.visit w e path f = some (s', f') ∧ Ready views b' s' ∧
      Answers w.program views e path s.state s.page f s'.state s'.page f'
  | [], b, s, f, h => ⟨s, b, f, rfl, h, .done⟩
  | x :: path, b, s, f, h => by
      simp only [Site.visit]
      cases hf : f.stopped with
      | true => exact ⟨s, b, f, by simp, h, .stopped hf⟩
      | false =>
        simp only [Bool.false_eq_true, if_false]
        have hp : s.page.listeners = s.listens.live.map Listening.entry := by rw [h.page]; rfl
        rw [hp]
        rcases h.wired.one x e.type with ⟨h1, h2⟩ | ⟨l, hl, ⟨hx, ht⟩, h2⟩
        · rw [h2]
          simp only [Site.invokes]
          obtain ⟨s', b', f', h3, h4, h5⟩ := visit_ok hok hw he path f h
          refine ⟨s', b', f', h3, h4, .pass hf (fun k name hh => ?_) h5⟩
          obtain ⟨l, hl, e1, e2, e3, -⟩ := (h.handles x e.type k name).mp hh
          exact h1 l hl ⟨e1, by rw [e2]; exact e3⟩
        · rw [h2]
          have hh : Handles views s.state s.page x e.type l.kind l.current := (h.handles x e.type _ _).mpr ⟨l, hl, hx, rfl, ht, rfl⟩
          rcases invoke_ok (ready_kept hok hw) h he f hf hl with ⟨h3, h4⟩ | ⟨d, s1, b1, h3, h4, h5, h6⟩
          · simp only [Site.invokes, h4]
            obtain ⟨s', b', f', h5, h6, h7⟩ := visit_ok hok hw he path ⟨f.prevented || preventsAlways l.kind, false⟩ h
            exact ⟨s', b', f', h5, h6, .ignore hf hh h3 h7⟩
          · simp only [Site.invokes, h6]
            obtain ⟨s', b', f', h7, h8, h9⟩ := visit_ok hok hw he path
              ⟨f.prevented || preventsAlways l.kind || (preventsIfAsked l.kind && w.program.answer l.current d s.state),
                stopsIfAsked l.kind && w.program.answer l.current d s.state⟩ h4
            have hv := h4.view
            rw [h5] at h9 hv
            exact ⟨s', b', f', h7, h8, .call hf hh h3 hv h9⟩

theorem happens_ok {views : List (View S V)} (hok : ∀ v ∈ views, v.Fine) {w : World S V} (hw : w.Fair) :
    ∀ (xs : List (Happens S)) {b s}, (∀ x ∈ xs, x.Fits) → Ready views b s → ∃ s' b', s.run w xs = some s' ∧ Ready views b' s' ∧
      Lives w.program views xs s.state s.page s'.state s'.page
  | [], b, s, _, h => ⟨s, b, rfl, h, .done⟩
  | .changes σ :: xs, b, s, hf, h => by
      obtain ⟨s1, b1, h1, h2, h3⟩ := h.transaction hok hw σ
      obtain ⟨s', b', h4, h5, h6⟩ := happens_ok hok hw xs (fun x hx => hf x (List.mem_cons_of_mem _ hx)) h2
      have hv := h2.view
      rw [h3] at h6 hv
      exact ⟨s', b', by simp only [Site.run, Site.happens, h1, Option.map_some, h4], h5, .changes hv h6⟩
  | .event e path :: xs, b, s, hf, h => by
      obtain ⟨s1, b1, f, h1, h2, h3⟩ := visit_ok hok hw (hf _ List.mem_cons_self : e.Fits) path ⟨false, false⟩ h
      obtain ⟨s', b', h4, h5, h6⟩ := happens_ok hok hw xs (fun x hx => hf x (List.mem_cons_of_mem _ hx)) h2
      exact ⟨s', b', by simp only [Site.run, Site.happens, h1, h4], h5, .event h3 h6⟩

/-- **C67** (partial: `View.Ok`, as C49). The application starts in the state `σ`; then there are any transactions and any events, along any
paths. After each transaction the subscriptions whose value has changed are run in any order. Then the browser executes all commands without an
exception, the page always shows the view in the current state, and an event is answered by the handlers that are written in the view as it is
at that moment at the nodes on its way: with the data of the event, in the current state, and no others are called. -/
theorem C67_answers_partial (views : List (View S V)) (hok : ∀ v ∈ views, v.Ok) (w : World S V) (hw : w.Fair) (σ : S)
    (happens : List (Happens S)) (hf : ∀ x ∈ happens, x.Fits) :
    ∃ s s', Site.start σ views = some s ∧ ShowsView views σ s.page ∧ s.run w happens = some s' ∧
      Lives w.program views happens σ s.page s'.state s'.page := by
  have hok' := fun v hv => (hok v hv).fine
  obtain ⟨s, b, h1, h2, h3⟩ := start_ready hok' σ
  obtain ⟨s', b', h4, h5, h6⟩ := happens_ok hok' hw happens hf h2
  have hv := h2.view
  rw [h3] at hv h6
  exact ⟨s, s', h1, hv, h4, h6⟩

/-- **C67** (partial: `View.Ok`). At the end the page shows the view in the last state, and the listeners in the page are exactly the handlers of the
view in this state. -/
theorem C67_listeners_partial (views : List (View S V)) (hok : ∀ v ∈ views, v.Ok) (w : World S V) (hw : w.Fair) (σ : S)
    (happens : List (Happens S)) (hf : ∀ x ∈ happens, x.Fits) :
    ∃ s s', Site.start σ views = some s ∧ s.run w happens = some s' ∧ ShowsView views s'.state s'.page ∧
      (∀ x type, (∃ callback, (callback, x, type) ∈ s'.page.listeners) ↔ ∃ k name, Handles views s'.state s'.page x type k name) ∧
      (s'.page.listeners.map (·.2)).Nodup := by
  have hok' := fun v hv => (hok v hv).fine
  obtain ⟨s, b, h1, h2, h3⟩ := start_ready hok' σ
  obtain ⟨s', b', h4, h5, h6⟩ := happens_ok hok' hw happens hf h2
  have hp : s'.page.listeners = s'.listens.live.map Listening.entry := by rw [h5.page]; rfl
  refine ⟨s, s', h1, h4, h5.view, fun x type => ?_, ?_⟩
  · rw [hp]
    constructor
    · rintro ⟨cb, hm⟩
      obtain ⟨l, hl, e⟩ := List.mem_map.mp hm
      simp only [Listening.entry, Prod.mk.injEq] at e
      exact ⟨l.kind, l.current, (h5.handles x type _ _).mpr ⟨l, hl, e.2.1, rfl, e.2.2, rfl⟩⟩
    · rintro ⟨k, name, hh⟩
      obtain ⟨l, hl, e1, e2, e3, -⟩ := (h5.handles x type _ _).mp hh
      exact ⟨l.callback, List.mem_map.mpr ⟨l, hl, by simp only [Listening.entry, e1, e2, e3]⟩⟩
  · rw [hp, List.map_map]
    refine List.Nodup.map_on (fun l hl l' hl' e => ?_) (List.Nodup.of_map _ h5.wired.nodup)
    simp only [Function.comp, Listening.entry, Prod.mk.injEq] at e
    obtain ⟨-, _, _, _, -, hk, -⟩ := h5.wired.here l hl
    obtain ⟨-, _, _, _, -, hk', -⟩ := h5.wired.here l' hl'
    have := handlers_type _ (kind_handlers hk) _ (kind_handlers hk') e.2
    exact h5.wired.single l hl l' hl' e.1 (congrArg Prod.fst this)

end

/-! ## An example -/

/-- A button, whose handler depends on the state (`add` or `double`), and a list, whose items have handlers themselves; the list has a handler, too. -/
def exampleSite : List (View Nat Nat) :=
  [.element "button" [("on_click", fun n => some (if n < 2 then "add" else "double")), ("title", fun n => some (toString n))] [.text "+"],
   .element "ul" [("on_click", fun _ => some "add"), ("on_key_down", fun _ => some "clear")]
     [.list (fun n => List.range n) (fun v => v) fun v => .element "li" [("on_click", fun _ => some "add"), ("on_mouse_down", fun _ => some "drop")] [.text (toString v)]]]

theorem exampleSite_ok : ∀ v ∈ exampleSite, v.Ok := by
  intro v hv
  simp only [exampleSite, List.mem_cons, List.not_mem_nil, or_false] at hv
  have ht : ∀ (s : String), ∀ c ∈ [View.text s], View.Ok (S := Nat) (V := Nat) c := by
    intro s c hc
    simp only [List.mem_cons, List.not_mem_nil, or_false] at hc
    subst hc
    exact .text
  rcases hv with rfl | rfl
  · exact .element (by decide) (by decide) (by decide) (ht _)
  · refine .element (by decide) (by decide) (by decide) fun c hc => ?_
    simp only [List.mem_cons, List.not_mem_nil, or_false] at hc
    subst hc
    exact .list (fun v => .element (by decide) (by decide) (by decide) (ht _)) (fun _ => rfl) (fun _ _ e => by rw [show _ = _ from e])

/-- The subscriptions that are due are run in the reverse order. -/
def exampleWorld : World Nat Nat where
  program := ⟨fun name _ n => if name = "add" then n + 1 else if name = "double" then 2 * n else if name = "drop" then n - 1 else 0, fun name _ _ => name = "drop"⟩
  subs _ a σ := (dueAll σ a.body).reverse
  order := List.reverse
  lossy _ := ""

theorem exampleWorld_fair : exampleWorld.Fair := ⟨fun _ _ _ _ h => by simpa [exampleWorld] using h, List.reverse_perm⟩

/-- Clicks at the button (4), at the button once more, then at the list (6), at the first of its items (8), which goes on to the list; the state is set to 5; the
mouse is pressed at the last item, which stops the event. -/
def exampleHappens : List (Happens Nat) :=
  [.event ⟨"click", .other, none, none⟩ [4, 3, 1], .event ⟨"click", .other, none, none⟩ [4, 3, 1], .event ⟨"click", .other, none, none⟩ [4, 3, 1],
   .event ⟨"click", .other, none, none⟩ [6, 3, 1], .event ⟨"click", .other, none, none⟩ [8, 6, 3, 1], .changes 2, .event ⟨"mousedown", .other, none, none⟩ [10, 6, 3, 1],
   .event ⟨"keydown", .input "x", some ⟨"a", "KeyA", false, false, false, false⟩, none⟩ [6, 3, 1], .event ⟨"click", .other, none, none⟩ [4, 3, 1]]

theorem exampleHappens_fits : ∀ x ∈ exampleHappens, x.Fits := by
  intro x hx
  simp only [exampleHappens, List.mem_cons, List.not_mem_nil, or_false] at hx
  rcases hx with rfl | rfl | rfl | rfl | rfl | rfl | rfl | rfl | rfl
  all_goals trivial

example : ∃ s s', Site.start 0 exampleSite = some s ∧ ShowsView exampleSite 0 s.page ∧ s.run exampleWorld exampleHappens = some s' ∧
    Lives exampleWorld.program exampleSite exampleHappens 0 s.page s'.state s'.page :=
  C67_answers_partial exampleSite exampleSite_ok exampleWorld exampleWorld_fair 0 exampleHappens exampleHappens_fits

/-- The states after each of them, with the listeners in the page. -/
def exampleStates (n : Nat) : Option (Nat × List (Nat × Id × String)) :=
  match Site.start 0 exampleSite with
  | none => none
  | some s => (s.run exampleWorld (exampleHappens.take n)).map fun s => (s.state, s.page.listeners)

example : (exampleStates 5).map (·.1) = some 7 := by decide +kernel
example : (exampleStates 7).map (·.1) = some 1 := by decide +kernel
example : exampleStates 9 = some (1, [(1, 4, "click"), (2, 6, "click"), (3, 6, "keydown"), (18, 22, "click"), (19, 22, "mousedown")]) := by decide +kernel

end Verif.View

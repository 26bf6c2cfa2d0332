import Verif.View.ListenProps
import Verif.View.Content
/-!
# C67 for all views, up to the order of siblings

`C67_answers_partial` is for the views whose nodes the document has in order (C49). Here lists and fragments are of anything. The nodes of
the page are the elements and texts of the view up to the order of siblings, as in `C49_content_partial`; so it is said along with the page which
handlers are at which node: those that are written at the element of the view that the node stands for.
-/
namespace Verif.View
open Verif.Dom Verif.Codec
open Verif.Host.Events (Kind Data Event Flags sees preventsAlways preventsIfAsked stopsIfAsked)

/-! ## Specification -/

/-- The nodes `xs` of the page, with everything below them, are the document `hs` without the handlers, where the nodes below an element may stand in
another order; `handler x a` is the handler that is written as `a` at the element that the node `x` stands for. -/
inductive Presents (b : Browser) (handler : Id → String → Option String) : List Id → List Html → Prop where
  | nil : Presents b handler [] []
  | text {x xs s hs} : b.objects x = some (.text s) → Presents b handler xs hs → Presents b handler (x :: xs) (.text s :: hs)
  | comment {x xs s hs} : b.objects x = some (.comment s) → Presents b handler xs hs → Presents b handler (x :: xs) hs
  | element {x xs ys name attr page cs hs} : b.objects x = some (.element name page) → WithoutHandlers attr page →
      (∀ h ∈ handlers, handler x h.2.1 = attr h.2.1) → (b.children x).Perm ys → Presents b handler ys cs → Presents b handler xs hs →
      Presents b handler (x :: xs) (.element name attr cs :: hs)

/-- The page shows the view in the state `σ`, up to the order of siblings, with the handlers at its nodes; other nodes have none. -/
structure ShowsSomeView (views : List (View S V)) (σ : S) (b : Browser) (handler : Id → String → Option String) : Prop where
  html : b.children 1 = [2, 3]
  nodes : ∃ ys, (b.children 3).Perm ys ∧ Presents b handler ys (htmls σ views)
  only : ∀ x a name, handler x a = some name → Stands b (b.children 3) x ∧ ∃ h ∈ handlers, h.2.1 = a

/-- The handler `name` is at the node `x` for events of the type `type`. -/
def HandlesAt (handler : Id → String → Option String) (x : Id) (type : String) (k : Kind) (name : String) : Prop :=
  ∃ written, (k, written, type) ∈ handlers ∧ handler x written = some name

/-- An event goes along a path, as in `Answers`: the page with its handlers shows the view in the new state before the event goes on. -/
inductive AnswersSome (program : Program S) (views : List (View S V)) (e : Event) :
    List Id → S → (Id → String → Option String) → Flags → S → (Id → String → Option String) → Flags → Prop where
  | done {σ H f} : AnswersSome program views e [] σ H f σ H f
  | stopped {x path σ H f} : f.stopped = true → AnswersSome program views e (x :: path) σ H f σ H f
  | pass {x path σ H f σ' H' f'} : f.stopped = false → (∀ k name, ¬ HandlesAt H x e.type k name) →
      AnswersSome program views e path σ H f σ' H' f' → AnswersSome program views e (x :: path) σ H f σ' H' f'
  | ignore {x path σ H f σ' H' f' k name} : f.stopped = false → HandlesAt H x e.type k name → sees k e = none →
      AnswersSome program views e path σ H ⟨f.prevented || preventsAlways k, false⟩ σ' H' f' → AnswersSome program views e (x :: path) σ H f σ' H' f'
  | call {x path σ H f b1 H1 σ' H' f' k name data} : f.stopped = false → HandlesAt H x e.type k name → sees k e = some data →
      ShowsSomeView views (program.update name data σ) b1 H1 →
      AnswersSome program views e path (program.update name data σ) H1
        ⟨f.prevented || preventsAlways k || (preventsIfAsked k && program.answer name data σ), stopsIfAsked k && program.answer name data σ⟩ σ' H' f' →
      AnswersSome program views e (x :: path) σ H f σ' H' f'

/-- The states, pages and handlers of an application. -/
inductive LivesSome (program : Program S) (views : List (View S V)) :
    List (Happens S) → S → (Id → String → Option String) → S → Browser → (Id → String → Option String) → Prop where
  | done {σ b H} : ShowsSomeView views σ b H → LivesSome program views [] σ H σ b H
  | changes {σ H σ1 b1 H1 xs σ' b' H'} : ShowsSomeView views σ1 b1 H1 → LivesSome program views xs σ1 H1 σ' b' H' →
      LivesSome program views (.changes σ1 :: xs) σ H σ' b' H'
  | event {e path xs σ H σ1 H1 f σ' b' H'} : AnswersSome program views e path σ H ⟨false, false⟩ σ1 H1 f → LivesSome program views xs σ1 H1 σ' b' H' →
      LivesSome program views (.event e path :: xs) σ H σ' b' H'

/-! ## Proofs -/

/-- The handlers of the nodes. -/
def placed (b : Browser) (x : Id) (a : String) : Option String :=
  if b.inMap x = true ∧ (handlerKind a).isSome then
    match b.objects x with
    | some (.element _ attr) => attr a
    | _ => none
  else none

theorem placed_element {b : Browser} {x n attr a} (hm : b.inMap x = true) (ho : b.objects x = some (.element n attr)) (ha : (handlerKind a).isSome) :
    placed b x a = attr a := by
  unfold placed
  rw [if_pos ⟨hm, ha⟩, ho]

theorem placed_some {b : Browser} {x a name} (h : placed b x a = some name) :
    b.inMap x = true ∧ (handlerKind a).isSome ∧ ∃ n attr, b.objects x = some (.element n attr) ∧ attr a = some name := by
  unfold placed at h
  split at h
  · rename_i hc
    refine ⟨hc.1, hc.2, ?_⟩
    split at h
    · rename_i n attr e
      exact ⟨n, attr, e, h⟩
    · cases h
  · cases h

theorem ShowsSome.presents {b : Browser} {xs hs} (h : ShowsSome b xs hs) (L : List Listening) : (∀ x, Stands b xs x → b.inMap x = true) →
    Presents (veil b L) (placed b) xs hs := by
  induction h with
  | nil => exact fun _ => .nil
  | text e _ ih => exact fun hm => .text (by simp [veil, e, bare]) (ih fun x hx => hm x (hx.mono fun y hy => List.mem_cons_of_mem _ hy))
  | @comment x xs s hs e _ ih =>
    exact fun hm => .comment (s := s) (by simp [veil, e, bare]) (ih fun x hx => hm x (hx.mono fun y hy => List.mem_cons_of_mem _ hy))
  | @element x xs ys name attr cs hs e hp _ _ ih1 ih2 =>
    intro hm
    refine .element (name := name) (page := fun x => if (handlerKind x).isSome then none else attr x) (by simp [veil, e, bare]) veil_attr (fun r hr => ?_)
      (show (b.children x).Perm ys from hp) (ih1 fun y hy => hm y (.deeper List.mem_cons_self (hy.mono fun z hz => hp.mem_iff.mpr hz)))
      (ih2 fun y hy => hm y (hy.mono fun z hz => List.mem_cons_of_mem _ hz))
    exact placed_element (hm x (.here List.mem_cons_self)) e (by rw [(handlers_kind r hr).1]; rfl)

theorem stands_veil {b : Browser} {L xs x} (h : Stands b xs x) : Stands (veil b L) xs x := by
  induction h with
  | here h => exact .here h
  | deeper h _ ih => exact .deeper h ih

section
variable [DecidableEq V]

/-- The running application and the page. -/
structure ReadySome (views : List (View S V)) (b : Browser) (s : Site S V) : Prop where
  near : Near b s.app
  fits : FitsAll views s.app.body
  due : dueAll s.state s.app.body = []
  map : ∀ x, b.inMap x = true → x ∈ idsAll s.app.body
  page : s.page = veil b s.listens.live
  wired : Wired b s.listens

theorem ReadySome.stands {views : List (View S V)} {b s} (h : ReadySome views b s) {x} (hx : b.inMap x = true) : Stands b (b.children 3) x :=
  standsAll_of _ h.near.sits.has h.near.sits.tops x (h.map x hx)

theorem ReadySome.inMap {views : List (View S V)} {b s} (h : ReadySome views b s) {x} (hx : Stands b (b.children 3) x) : b.inMap x = true :=
  hasAll_inMap _ h.near.sits.has _ (of_stands h.near.good h.near.sits.has hx fun y hy => topsAll_sub _ y ((h.near.kids y).mp hy))

theorem ReadySome.whole {views : List (View S V)} {b s} (h : ReadySome views b s) : Whole b := by
  intro x q hq
  have hi := h.near.good.inv
  rcases (hi.par x q hq).1 with hx | hx
  · rw [h.near.good.top x hx] at hq
    split at hq
    · cases hq
    · cases hq; exact Or.inl rfl
  · rcases (h.stands hx).last with h1 | ⟨y, h1, h2⟩
    · rw [hi.link, hq] at h1
      cases h1
      exact Or.inl rfl
    · rw [hi.link, hq] at h2
      cases h2
      exact Or.inr (h.inMap h1)

theorem ReadySome.view {views : List (View S V)} (hok : ∀ v ∈ views, v.Keyed) {b s} (h : ReadySome views b s) :
    ShowsSomeView views s.state s.page (placed b) := by
  have hs := showsSomeAll_of h.near.good _ (fun v hv => (hok v hv).loose) h.near.sits.has h.fits h.due h.near.sits.nodup ShowsSome.nil
  have hp : (b.children 3).Perm (topsAll s.app.body) :=
    some_perm (h.near.good.inv.nodup 3) (topsAll_nodup _ h.near.sits.nodup) h.near.kids
  rw [h.page]
  refine ⟨h.near.html, ⟨_, hp, ?_⟩, fun x a name hn => ?_⟩
  · rw [List.append_nil, List.append_nil] at hs
    exact hs.presents _ fun x hx => h.inMap (hx.mono fun y hy => hp.mem_iff.mpr hy)
  · obtain ⟨h1, h2, -⟩ := placed_some hn
    obtain ⟨k, hk⟩ := Option.isSome_iff_exists.mp h2
    exact ⟨stands_veil (h.stands h1), _, kind_handlers hk, rfl⟩

theorem ReadySome.transaction {views : List (View S V)} (hok : ∀ v ∈ views, v.Keyed) {w : World S V} (hw : w.Fair) {b s} (h : ReadySome views b s) (σ : S) :
    ∃ s' b', s.transaction w σ = some s' ∧ ReadySome views b' s' ∧ s'.state = σ := by
  obtain ⟨b', hr, ha, hacc⟩ := change_near hw.order (σ := σ) (w.subs s.time s.app σ) h.near
  obtain ⟨hf, hd⟩ := change_made (fun v hv => (hok v hv).loose) hw.order (w.subs s.time s.app σ) h.near h.fits (hw.subs s.time s.app σ)
  have hmod : ∀ c ∈ (s.app.change σ w.order (w.subs s.time s.app σ)).2, Modest c := fun c hc => calm_modest (hr.calm c hc)
  have hroot : ∀ c ∈ (s.app.change σ w.order (w.subs s.time s.app σ)).2, ∀ id, c.removes = some id → isRoot id = false := by
    intro c hc id hid
    have := hmod c hc
    cases c <;> simp [Cmd.removes] at hid <;> subst hid <;> exact this
  obtain ⟨h1, h2⟩ := listens_batch h.near.good.inv h.wired hmod ((hr.inserts h.whole).1.above hroot) hr.run
  refine ⟨⟨(s.app.change σ w.order (w.subs s.time s.app σ)).1, σ, (s.listens.run (s.app.change σ w.order (w.subs s.time s.app σ)).2).1,
    veil b' (s.listens.run (s.app.change σ w.order (w.subs s.time s.app σ)).2).1.live, s.time + 1⟩, b', ?_, ⟨ha, hf, hd, fun x hx => ?_, rfl, h2⟩, rfl⟩
  · simp only [Site.transaction, Site.send, h.page, h1]
  · rcases run_inMap hr.run hx with h3 | h3
    · rcases hacc x (Or.inl (h.map x h3)) with h4 | h4
      · exact h4
      · rw [((gone_run hr.run).2 x h4).2] at hx; cases hx
    · rcases hacc x (Or.inr h3) with h4 | h4
      · exact h4
      · rw [((gone_run hr.run).2 x h4).2] at hx; cases hx

theorem some_kept {views : List (View S V)} (hok : ∀ v ∈ views, v.Keyed) {w : World S V} (hw : w.Fair) : Lasting w (ReadySome views) :=
  ⟨fun h => ⟨h.page, h.wired⟩, fun h σ => h.transaction hok hw σ⟩

theorem start_readySome {views : List (View S V)} (hok : ∀ v ∈ views, v.Keyed) (σ : S) :
    ∃ s b, Site.start σ views = some s ∧ ReadySome views b s ∧ s.state = σ := by
  obtain ⟨b, hs⟩ := leads σ views (order := fun x => x) (fun l => .refl l) []
  obtain ⟨hf, hd⟩ := start_made (σ := σ) fun v hv => (hok v hv).loose
  have hmap := hs.map
  have e : App.sent σ views (fun x => x) ([] : List (S × List Sub)) = (App.start σ views).2 := by simp [App.sent, App.history]
  have hmod : ∀ c ∈ (App.start σ views).2, Modest c := by
    obtain ⟨rest, e1, e2, -⟩ := hs.split
    rw [e] at e1
    intro c hc
    rw [e1] at hc
    rcases List.mem_append.mp hc with hc | hc
    · exact opening_modest c hc
    · exact calm_modest (e2 c hc)
  have hw : Wired Browser.init {} := by
    refine ⟨by simp, by simp, by simp, by simp, fun x n a name k v hx => ?_⟩
    simp [Browser.init] at hx
  have hrun := hs.run
  have hno := hs.inserts.above hs.removes
  rw [e] at hrun hno
  obtain ⟨h1, h2⟩ := listens_batch binv_init hw hmod hno hrun
  rw [show ({} : Listens).live = [] from rfl, veil_init] at h1
  refine ⟨⟨(App.start σ views).1, σ, (({} : Listens).run (App.start σ views).2).1,
    veil b (({} : Listens).run (App.start σ views).2).1.live, 1⟩, b, ?_, ⟨hs.near, hf, hd, fun x hx => (hmap x).mp hx, rfl, h2⟩, rfl⟩
  simp only [Site.start, Site.send]
  rw [show (⟨[], 1⟩ : Listens) = {} from rfl, h1]

theorem ReadySome.handles {views : List (View S V)} {b s} (h : ReadySome views b s) (x : Id) (type : String) (k : Kind) (name : String) :
    HandlesAt (placed b) x type k name ↔ ∃ l ∈ s.listens.live, l.element = x ∧ l.kind = k ∧ k.name = type ∧ l.current = name := by
  constructor
  · rintro ⟨written, h1, h2⟩
    obtain ⟨hin, -, n, attr, ho, ha⟩ := placed_some h2
    obtain ⟨h4, h5⟩ := handlers_kind _ h1
    obtain ⟨l, hl, e1, e2, e3⟩ := h.wired.all x n attr written k name hin ho h4 ha
    exact ⟨l, hl, e1, e2, h5.symm, e3⟩
  · rintro ⟨l, hl, rfl, rfl, rfl, rfl⟩
    obtain ⟨hin, n, attr, name, ho, hk, ha⟩ := h.wired.here l hl
    exact ⟨name, kind_handlers hk, by rw [placed_element hin ho (by rw [hk]; rfl), ha]⟩

theorem visitSome_ok {views : List (View S V)} (hok : ∀ v ∈ views, v.Keyed) {w : World S V} (hw : w.Fair) {e : Event} (he : e.Fits) :
    ∀ (path : List Id) {b s} (f : Flags), ReadySome views b s → ∃ s' b' f', s.visit w e path f = some (s', f') ∧ ReadySome views b' s' ∧
      AnswersSome w.program views e path s.state (placed b) f s'.state (placed b') f'
  | [], b, s, f, h => ⟨s, b, f, rfl, h, .done⟩
  | x :: path, b, s, f, h => by
      simp only [Site.visit]
      cases hf : f.stopped with
      | true => exact ⟨s, b, f, by simp, h, .stopped hf⟩
      | false =>
        simp only [Bool.false_eq_true, if_false]
        have hp : s.page.listeners = s.listens.live.map Listening.entry := by rw [h.page]; rfl
        rw [hp]
        rcases h.wired.one x e.type with ⟨h1, h2⟩ | ⟨l, hl, ⟨hx, ht⟩, h2⟩
        · rw [h2]
          simp only [Site.invokes]
          obtain ⟨s', b', f', h3, h4, h5⟩ := visitSome_ok hok hw he path f h
          refine ⟨s', b', f', h3, h4, .pass hf (fun k name hh => ?_) h5⟩
          obtain ⟨l, hl, e1, e2, e3, -⟩ := (h.handles x e.type k name).mp hh
          exact h1 l hl ⟨e1, by rw [e2]; exact e3⟩
        · rw [h2]
          have hh : HandlesAt (placed b) x e.type l.kind l.current := (h.handles x e.type _ _).mpr ⟨l, hl, hx, rfl, ht, rfl⟩
          rcases invoke_ok (some_kept hok hw) h he f hf hl with ⟨h3, h4⟩ | ⟨d, s1, b1, h3, h4, h5, h6⟩
          · simp only [Site.invokes, h4]
            obtain ⟨s', b', f', h5, h6, h7⟩ := visitSome_ok hok hw he path ⟨f.prevented || preventsAlways l.kind, false⟩ h
            exact ⟨s', b', f', h5, h6, .ignore hf hh h3 h7⟩
          · simp only [Site.invokes, h6]
            obtain ⟨s', b', f', h7, h8, h9⟩ := visitSome_ok hok hw he path
              ⟨f.prevented || preventsAlways l.kind || (preventsIfAsked l.kind && w.program.answer l.current d s.state),
                stopsIfAsked l.kind && w.program.answer l.current d s.state⟩ h4
            have hv := h4.view hok
            rw [h5] at h9 hv
            exact ⟨s', b', f', h7, h8, .call hf hh h3 hv h9⟩

theorem happensSome_ok {views : List (View S V)} (hok : ∀ v ∈ views, v.Keyed) {w : World S V} (hw : w.Fair) :
    ∀ (xs : List (Happens S)) {b s}, (∀ x ∈ xs, x.Fits) → ReadySome views b s → ∃ s' b', s.run w xs = some s' ∧ ReadySome views b' s' ∧
      LivesSome w.program views xs s.state (placed b) s'.state s'.page (placed b')
  | [], b, s, _, h => ⟨s, b, rfl, h, .done (h.view hok)⟩
  | .changes σ :: xs, b, s, hf, h => by
      obtain ⟨s1, b1, h1, h2, h3⟩ := h.transaction hok hw σ
      obtain ⟨s', b', h4, h5, h6⟩ := happensSome_ok hok hw xs (fun x hx => hf x (List.mem_cons_of_mem _ hx)) h2
      have hv := h2.view hok
      rw [h3] at h6 hv
      exact ⟨s', b', by simp only [Site.run, Site.happens, h1, Option.map_some, h4], h5, .changes hv h6⟩
  | .event e path :: xs, b, s, hf, h => by
      obtain ⟨s1, b1, f, h1, h2, h3⟩ := visitSome_ok hok hw (hf _ List.mem_cons_self : e.Fits) path ⟨false, false⟩ h
      obtain ⟨s', b', h4, h5, h6⟩ := happensSome_ok hok hw xs (fun x hx => hf x (List.mem_cons_of_mem _ hx)) h2
      exact ⟨s', b', by simp only [Site.run, Site.happens, h1, h4], h5, .event h3 h6⟩

/-! ## Theorems -/

/-- **C67** up to the order of siblings: lists and fragments of anything. The application starts in the state `σ`; then there are any transactions
and any events, along any paths. Then the browser executes all commands without an exception; at every time the page has exactly the elements and texts
of the view in the current state, up to the order of siblings; and an event is answered by the handlers that are written in the view at the
elements whose nodes are on its way, as they are at that moment: with the data of the event, in the current state, and no others are called. At the end the
listeners in the page are exactly these handlers. -/
theorem C67_content_partial (views : List (View S V)) (hok : ∀ v ∈ views, v.Keyed) (w : World S V) (hw : w.Fair) (σ : S)
    (happens : List (Happens S)) (hf : ∀ x ∈ happens, x.Fits) :
    ∃ s s' H H', Site.start σ views = some s ∧ ShowsSomeView views σ s.page H ∧ s.run w happens = some s' ∧
      LivesSome w.program views happens σ H s'.state s'.page H' ∧
      (∀ x type, (∃ callback, (callback, x, type) ∈ s'.page.listeners) ↔ ∃ k name, HandlesAt H' x type k name) ∧
      (s'.page.listeners.map (·.2)).Nodup := by
  obtain ⟨s, b, h1, h2, h3⟩ := start_readySome hok σ
  obtain ⟨s', b', h4, h5, h6⟩ := happensSome_ok hok hw happens hf h2
  have hv := h2.view hok
  rw [h3] at hv h6
  have hp : s'.page.listeners = s'.listens.live.map Listening.entry := by rw [h5.page]; rfl
  refine ⟨s, s', placed b, placed b', h1, hv, h4, h6, fun x type => ?_, ?_⟩
  · rw [hp]
    constructor
    · rintro ⟨cb, hm⟩
      obtain ⟨l, hl, e⟩ := List.mem_map.mp hm
      simp only [Listening.entry, Prod.mk.injEq] at e
      exact ⟨l.kind, l.current, (h5.handles x type _ _).mpr ⟨l, hl, e.2.1, rfl, e.2.2, rfl⟩⟩
    · rintro ⟨k, name, hh⟩
      obtain ⟨l, hl, e1, e2, e3, -⟩ := (h5.handles x type _ _).mp hh
      exact ⟨l.callback, List.mem_map.mpr ⟨l, hl, by simp only [Listening.entry, e1, e2, e3]⟩⟩
  · rw [hp, List.map_map]
    refine List.Nodup.map_on (fun l hl l' hl' e => ?_) (List.Nodup.of_map _ h5.wired.nodup)
    simp only [Function.comp, Listening.entry, Prod.mk.injEq] at e
    obtain ⟨-, _, _, _, -, hk, -⟩ := h5.wired.here l hl
    obtain ⟨-, _, _, _, -, hk', -⟩ := h5.wired.here l' hl'
    have := handlers_type _ (kind_handlers hk) _ (kind_handlers hk') e.2
    exact h5.wired.single l hl l' hl' e.1 (congrArg Prod.fst this)

end

/-! ## An example -/

/-- A list whose items are fragments of a button and a value; a click at the button of an item adds to the state, a click at the value sets it to zero. -/
def mixedSite : List (View Nat Nat) :=
  [.list (fun n => List.range n) (fun v => v) fun v => .fragment [.element "button" [("on_click", fun n => some (if n < 4 then "add" else "drop"))] [.text (toString v)],
    .value (fun n => n) (fun n => n % 2 = 0) fun n => .element "i" [("on_click", fun _ => some "clear")] [.text (toString (v + n))]]]

theorem mixedSite_keyed : ∀ v ∈ mixedSite, v.Keyed := by
  intro v hv
  simp only [mixedSite, List.mem_cons, List.not_mem_nil, or_false] at hv
  subst hv
  have ht : ∀ (s : String), ∀ c ∈ [View.text s], View.Keyed (S := Nat) (V := Nat) c := by
    intro s c hc
    simp only [List.mem_cons, List.not_mem_nil, or_false] at hc
    subst hc
    exact .text
  refine .list (fun v => .fragment fun c hc => ?_) (fun _ _ e => by rw [show _ = _ from e])
  simp only [List.mem_cons, List.not_mem_nil, or_false] at hc
  rcases hc with rfl | rfl
  · exact .element (by decide) (by decide) (by decide) (ht _)
  · exact .value fun _ => .element (by decide) (by decide) (by decide) (ht _)

/-- At the start there are three items. A click at the button of the last one (5): there are four items, with values. The next one (9) now drops one; the state is
set to 2, a click at the same button now adds one; the state is set to 2 again, a click at the value of an item (41) sets it to zero. -/
def mixedHappens : List (Happens Nat) :=
  [.event ⟨"click", .other, none, none⟩ [5, 3, 1], .event ⟨"click", .other, none, none⟩ [9, 3, 1], .changes 2, .event ⟨"click", .other, none, none⟩ [9, 3, 1],
   .changes 2, .event ⟨"click", .other, none, none⟩ [41, 3, 1]]

theorem mixedHappens_fits : ∀ x ∈ mixedHappens, x.Fits := by
  intro x hx
  simp only [mixedHappens, List.mem_cons, List.not_mem_nil, or_false] at hx
  rcases hx with rfl | rfl | rfl | rfl | rfl | rfl
  all_goals trivial

example : ∃ s s' H H', Site.start 3 mixedSite = some s ∧ ShowsSomeView mixedSite 3 s.page H ∧ s.run exampleWorld mixedHappens = some s' ∧
    LivesSome exampleWorld.program mixedSite mixedHappens 3 H s'.state s'.page H' ∧
    (∀ x type, (∃ callback, (callback, x, type) ∈ s'.page.listeners) ↔ ∃ k name, HandlesAt H' x type k name) ∧
    (s'.page.listeners.map (·.2)).Nodup :=
  C67_content_partial mixedSite mixedSite_keyed exampleWorld exampleWorld_fair 3 mixedHappens mixedHappens_fits

/-- The states after each of them, with the listeners in the page. -/
def mixedStates (n : Nat) : Option (Nat × List (Nat × Id × String)) :=
  match Site.start 3 mixedSite with
  | none => none
  | some s => (s.run exampleWorld (mixedHappens.take n)).map fun s => (s.state, s.page.listeners)

example : (mixedStates 1).map (·.1) = some 4 ∧ (mixedStates 2).map (·.1) = some 3 ∧ (mixedStates 4).map (·.1) = some 3 := by decide +kernel
example : mixedStates 5 = some (2, [(2, 9, "click"), (3, 13, "click"), (14, 41, "click"), (15, 43, "click")]) ∧ mixedStates 6 = some (0, []) := by decide +kernel

end Verif.View

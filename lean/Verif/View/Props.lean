import Verif.View.Run
/-!
# C49: the document shows the current state of the view
-/
namespace Verif.View
open Verif.Dom

/-- The page and the application agree. -/
structure Agree (views : List (View S V)) (b : Browser) (a : App S V) : Prop where
  good : Good b a.next
  usable : Usable b 3
  html : b.children 1 = [2, 3]
  body : b.children 3 = topsAll a.body
  holds : HoldsAll b 3 a.body
  fits : FitsAll views a.body
  nodup : (idsAll a.body).Nodup
  ids : ∀ x : Nat, x ∈ idsAll a.body → 4 ≤ x

section
variable [DecidableEq V]

/-- What is sent before the content of the body. -/
def opening : List Cmd := [.createNode 1 "html", .createNode 2 "head", .insertBefore 1 2 none, .createNode 3 "body"]

theorem opening_ok : ∃ b1, Browser.init.run opening = .ok b1 ∧ Good b1 4 ∧ Into Browser.init 1 2 [3, 2] b1 := by
  have hg0 : Good Browser.init 4 := ⟨binv_init, Nat.le_refl _, fun x hx => by
    have h1 : x ≠ 1 := by rintro rfl; exact absurd hx (by decide)
    have h2 : x ≠ 2 := by rintro rfl; exact absurd hx (by decide)
    have h3 : x ≠ 3 := by rintro rfl; exact absurd hx (by decide)
    simp [Browser.init, h1, h2, h3], fun x hx => by simp [Browser.init] at hx, fun x hx => by
    rcases isRoot_iff.mp hx with rfl | rfl | rfl <;> rfl⟩
  have hu1 : Takes Browser.init 1 := ⟨_, _, rfl, Or.inl rfl⟩
  have hup : ∀ c, c ≠ 1 → ∀ l, Up Browser.init.parent 1 l → c ∉ l := by
    intro c hc l hl
    cases hl with
    | top _ => simpa using hc
    | up e _ => simp [Browser.init] at e
  obtain ⟨b1, hb1, hi1⟩ := insert_step (c := 2) (L := [3]) (R := []) hg0 hu1 (o := .element "head" fun _ => none) rfl (Or.inl ⟨rfl, rfl⟩)
    (Or.inr rfl) (hup 2 (by decide)) (by decide)
  refine ⟨b1, ?_, hi1.good _ hg0, hi1⟩
  have e1 : Browser.init.step (.createNode 1 "html") = .ok Browser.init := rfl
  have e2 : Browser.init.step (.createNode 2 "head") = .ok Browser.init := rfl
  have e3 : b1.step (.createNode 3 "body") = .ok b1 := rfl
  simp only [List.head?_nil] at hb1
  simp only [opening, Browser.run, e1, e2, hb1, e3]

/-- The commands of the start, and what each part of them does. -/
theorem start_agrees {views : List (View S V)} (hok : ∀ v ∈ views, v.Fine) (σ : S) :
    ∃ b1 cs b2 b, (App.start σ views).2 = opening ++ cs ++ [.insertBefore 1 3 none] ∧ Browser.init.run opening = .ok b1 ∧
      Runs b1 cs b2 ∧ b2.step (.insertBefore 1 3 none) = .ok b ∧ Agree views b (App.start σ views).1 ∧
      dueAll σ (App.start σ views).1.body = [] := by
  obtain ⟨b1, e1, hg1, hi1⟩ := opening_ok
  have h3 := hi1.same 3 (by decide) (by decide)
  have hu1 : Takes b1 1 := ⟨"html", fun _ => none, by rw [hi1.but.objects]; rfl, Or.inl rfl⟩
  have hu3 : Usable b1 3 := ⟨⟨"body", _, by rw [h3.objects]; rfl, Or.inl rfl⟩, by decide, by decide⟩
  obtain ⟨b2, hb2, he, hd⟩ := children_ok (σ := σ) (p := 3) views (L := []) (fun v hv => builds (hok v hv)) hg1 hu3
    (by rw [h3.children]; rfl)
  have h1 : SameAt b1 b2 1 := he.same 1 (by decide) id (by decide)
  have hp3 : b2.parent 3 = some 1 := by rw [he.but.parent, h3.parent]; rfl
  have hc1 : b2.children 1 = [3, 2] := by rw [h1.children, hi1.children]
  have hids : ∀ x : Nat, x ∈ idsAll (createChildren σ 3 views 4).1 → 4 ≤ x := fun x hx => (he.ids x hx).resolve_left fun h => h
  obtain ⟨b3, hb3, hi3⟩ := insert_step (c := 3) (p := 1) (L := [2]) (R := []) (o := .element "body" fun _ => none) he.good
    (hu1.same h1.but) (by rw [he.but.objects, h3.objects]; rfl) (Or.inl ⟨rfl, hp3⟩)
    (Or.inr hp3) (fun l hl => child_not_up hp3 hl) (by rw [hc1]; decide)
  refine ⟨b1, _, b2, b3, rfl, e1, hb2, hb3, ⟨hi3.good _ he.good, ?_, hi3.children, ?_, ?_, he.fits, he.nodup, hids⟩, hd⟩
  · obtain ⟨⟨nm, f, h, h'⟩, -⟩ := hu3.same he.but
    exact ⟨⟨nm, f, by rw [hi3.objects, h], Or.inl rfl⟩, by decide, by decide⟩
  · rw [hi3.below, he.children]; simp [App.start]
  · refine HoldsAll.frame _ (fun x hx => ?_) he.holds
    have := hids x hx
    have := hi3.same x (by omega) (by omega)
    exact ⟨this.objects, this.inMap, this.children⟩

theorem change_agrees {views : List (View S V)} (hok : ∀ v ∈ views, v.Fine) {order : List (Inst S V) → List (Inst S V)}
    (hord : ∀ l, (order l).Perm l) {σ : S} : ∀ (subs : List Sub) {b : Browser} {a : App S V}, Agree views b a →
    (∀ t ∈ dueAll σ a.body, t ∈ subs) →
    ∃ b', Runs b (a.change σ order subs).2 b' ∧ Agree views b' (a.change σ order subs).1 ∧
      dueAll σ (a.change σ order subs).1.body = []
  | [], b, a, h, hs => ⟨b, .nil, h, List.eq_nil_iff_forall_not_mem.mpr fun t ht => by simpa using hs t ht⟩
  | s :: subs, b, a, h, hs => by
      have hne : 3 ∉ idsAll a.body := fun h3 => absurd (h.ids 3 h3) (by decide)
      obtain ⟨b1, hb1, he1, hd1⟩ := runAll_ok (σ := σ) hord (s := s) a.body (L := []) (R := []) hok h.good h.usable h.holds h.fits h.nodup hne
        (by rw [h.body]; simp)
      have h4 := h.good.four
      have h1 : SameAt b b1 1 := he1.same 1 (by omega) (fun h1 => absurd (h.ids 1 h1) (by decide)) (by decide)
      have ha : Agree views b1 ⟨(runAll σ order s a.body a.next).1, (runAll σ order s a.body a.next).2.2⟩ :=
        ⟨he1.good, h.usable.same he1.but, by rw [h1.children, h.html], by rw [he1.children]; simp, he1.holds, he1.fits, he1.nodup,
          fun x hx => (he1.ids x hx).elim (h.ids x) (Nat.le_trans h4)⟩
      obtain ⟨b2, hb2, ha2, hd2⟩ := change_agrees hok hord subs ha (fun t ht => by
        have := hd1 t ht
        rcases List.mem_cons.mp (hs t this.1) with h | h
        · exact absurd h this.2
        · exact h)
      exact ⟨b2, run_append hb1 hb2, ha2, hd2⟩

theorem history_agrees {views : List (View S V)} (hok : ∀ v ∈ views, v.Fine) {order : List (Inst S V) → List (Inst S V)}
    (hord : ∀ l, (order l).Perm l) : ∀ (h : List (S × List Sub)) {σ : S} {b : Browser} {a : App S V}, Agree views b a → dueAll σ a.body = [] →
    Complete order h a →
    ∃ b', Runs b (a.history order h).2 b' ∧ Agree views b' (a.history order h).1 ∧
      dueAll (lastState σ h) (a.history order h).1.body = []
  | [], σ, b, a, ha, hd, _ => ⟨b, .nil, ha, hd⟩
  | (σ', subs) :: h, σ, b, a, ha, hd, hc => by
      obtain ⟨b1, hb1, ha1, hd1⟩ := change_agrees hok hord (σ := σ') subs ha hc.1
      obtain ⟨b2, hb2, ha2, hd2⟩ := history_agrees hok hord h ha1 hd1 hc.2
      exact ⟨b2, run_append hb1 hb2, ha2, hd2⟩

omit [DecidableEq V] in
/-- What the page shows is determined by the page. -/
theorem Shows.unique {b : Browser} {ids hs hs'} (h : Shows b ids hs) (h' : Shows b ids hs') : hs = hs' := by
  induction h generalizing hs' with
  | nil => cases h'; rfl
  | text e _ ih => cases h' with
    | text e' h' => rw [e] at e'; cases e'; rw [ih h']
    | comment e' _ => rw [e] at e'; cases e'
    | element e' _ _ => rw [e] at e'; cases e'
  | comment e _ ih => cases h' with
    | text e' _ => rw [e] at e'; cases e'
    | comment e' h' => exact ih h'
    | element e' _ _ => rw [e] at e'; cases e'
  | element e _ _ ih1 ih2 => cases h' with
    | text e' _ => rw [e] at e'; cases e'
    | comment e' _ => rw [e] at e'; cases e'
    | element e' h1 h2 => rw [e] at e'; cases e'; rw [ih1 h1, ih2 h2]

/-- The commands of a view, executed as they are. -/
theorem shows_fine (views : List (View S V)) (hok : ∀ v ∈ views, v.Fine) (order : List (Inst S V) → List (Inst S V))
    (hord : ∀ l, (order l).Perm l) (σ : S) (h : List (S × List Sub)) (hc : Complete order h (App.start σ views).1) :
    ∃ b, Browser.init.run ((App.start σ views).2 ++ ((App.start σ views).1.history order h).2) = .ok b ∧
      b.children 1 = [2, 3] ∧ Shows b (b.children 3) (htmls (lastState σ h) views) := by
  obtain ⟨b1, cs, b2, b3, e, h1, h2, h3, ha1, hd1⟩ := start_agrees hok σ
  obtain ⟨b4, hb4, ha2, hd2⟩ := history_agrees hok hord h ha1 hd1 hc
  refine ⟨b4, ?_, ha2.html, ?_⟩
  · rw [e]
    simp only [List.append_assoc, Verif.Dom.run_append, h1, h2.run, Browser.run, List.cons_append, List.nil_append, h3, hb4.run]
  have := showsAll_of _ ha2.holds ha2.fits hd2 Shows.nil
  rw [ha2.body]
  simpa using this

/-- **C49** (partial: `View.Ok`). The application starts in the state `σ` and goes through any number of transactions;
after each of them the subscriptions whose value has changed are run, in any order. Then the browser has executed all
commands without an error, and the page shows the view in the last state: what would be there if the application had
been started in that state.

What is missing for the full property: views in which an item of a list, or a node of a fragment other than the first,
is itself a marker; and lists in which two items have the same key but are rendered differently. For these the property
does not hold (`C49_item_violated`, `C49_fragment_violated`, `C49_key_violated`). -/
theorem C49_shows_partial (views : List (View S V)) (hok : ∀ v ∈ views, v.Ok) (order : List (Inst S V) → List (Inst S V))
    (hord : ∀ l, (order l).Perm l) (σ : S) (h : List (S × List Sub)) (hc : Complete order h (App.start σ views).1) :
    ∃ b, Browser.init.run ((App.start σ views).2 ++ ((App.start σ views).1.history order h).2) = .ok b ∧
      b.children 1 = [2, 3] ∧ Shows b (b.children 3) (htmls (lastState σ h) views) := by
  exact shows_fine views (fun v hv => (hok v hv).fine) order hord σ h hc

end

/-! ## A view with everything in it -/

/-- A counter with a style that is there when it is positive, a text, a part that is shown for even numbers and has a
text of its own, and a list of the numbers below. -/
def exampleView : List (View Nat Nat) :=
  [.element "p" [("style", fun n => if 0 < n then some "x" else none)] [.text "n = ", .computedText fun n => toString n],
   .value (fun n => n) (fun n => n % 2 = 0) (fun n => .element "b" [] [.text (toString n), .computedText fun n => toString (n + 1)]),
   .element "ul" [] [.list (fun n => List.range n) (fun v => v) fun v => .element "li" [] [.text (toString v)]]]

theorem exampleView_ok : ∀ v ∈ exampleView, v.Ok := by
  intro v hv
  simp only [exampleView, List.mem_cons, List.not_mem_nil, or_false] at hv
  have ht : ∀ (f : Nat → String) (s : String), ∀ c ∈ [View.text s, View.computedText f], View.Ok (S := Nat) (V := Nat) c := by
    intro f s c hc
    simp only [List.mem_cons, List.not_mem_nil, or_false] at hc
    rcases hc with rfl | rfl
    · exact .text
    · exact .computedText
  rcases hv with rfl | rfl | rfl
  · exact .element (by decide) (by decide) (by decide) (ht _ _)
  · exact .value fun v => .element (by decide) (by decide) (by decide) (ht _ _)
  · refine .element (by decide) (by decide) (by decide) fun c hc => ?_
    simp only [List.mem_cons, List.not_mem_nil, or_false] at hc
    subst hc
    refine .list (fun v => .element (by decide) (by decide) (by decide) fun c hc => ?_) (fun _ => rfl) (fun _ _ e => by rw [show _ = _ from e])
    simp only [List.mem_cons, List.not_mem_nil, or_false] at hc
    subst hc
    exact .text

/-- 0, then 3, then 2; the subscriptions that are due are run, in the reverse order. -/
def exampleHistory : List (Nat × List Sub) :=
  [(3, (dueAll 3 (App.start 0 exampleView).1.body).reverse),
   (2, (dueAll 2 ((App.start 0 exampleView).1.change 3 List.reverse (dueAll 3 (App.start 0 exampleView).1.body).reverse).1.body).reverse)]

theorem exampleHistory_complete : Complete List.reverse exampleHistory (App.start 0 exampleView).1 :=
  ⟨fun _ h => by simpa using h, fun _ h => by simpa using h, trivial⟩

/-- Five subscriptions are due after the first transaction, three of them markers and texts at the top. -/
example : (dueAll 3 (App.start 0 exampleView).1.body) =
    [(4, some "style"), (6, none), (7, none), (10, none), (12, none)] := by decide +kernel

example : ∃ b, Browser.init.run ((App.start 0 exampleView).2 ++ ((App.start 0 exampleView).1.history List.reverse exampleHistory).2) = .ok b ∧
    b.children 1 = [2, 3] ∧ Shows b (b.children 3) (htmls 2 exampleView) :=
  C49_shows_partial exampleView exampleView_ok List.reverse List.reverse_perm 0 exampleHistory exampleHistory_complete

/-! ## Where the document is not the view -/

/-- The nodes of the page, in a form that can be compared. -/
def seen (b : Browser) : Nat → List Id → List String
  | 0, _ => []
  | n + 1, ids => ids.flatMap fun x => match b.objects x with
      | some (.text s) => [s]
      | some (.element name _) => ("<" ++ name ++ ">") :: seen b n (b.children x) ++ ["</" ++ name ++ ">"]
      | _ => []

mutual
def Html.seen : Nat → Html → List String
  | 0, _ => []
  | _ + 1, .text s => [s]
  | n + 1, .element name _ cs => ("<" ++ name ++ ">") :: Html.seens n cs ++ ["</" ++ name ++ ">"]
def Html.seens : Nat → List Html → List String
  | _, [] => []
  | n, h :: hs => Html.seen n h ++ Html.seens n hs
end

theorem seen_shows {b : Browser} {ids hs} (h : Shows b ids hs) : ∀ n, seen b n ids = Html.seens n hs := by
  induction h with
  | nil => intro n; cases n <;> simp [seen, Html.seens]
  | @text x xs s hs e _ ih =>
    intro n
    cases n with
    | zero => simpa [seen, Html.seens, Html.seen] using ih 0
    | succ n =>
      have := ih (n + 1)
      simp only [seen] at this
      simp only [seen, List.flatMap_cons, e, Html.seens, Html.seen, this]
  | @comment x xs s hs e _ ih =>
    intro n
    cases n with
    | zero => simpa [seen] using ih 0
    | succ n =>
      have := ih (n + 1)
      simp only [seen] at this
      simp only [seen, List.flatMap_cons, e, List.nil_append, this]
  | @element x xs name attr cs hs e _ _ ih1 ih2 =>
    intro n
    cases n with
    | zero => simpa [seen, Html.seens, Html.seen] using ih2 0
    | succ n =>
      have := ih2 (n + 1)
      simp only [seen] at this
      simp only [seen, List.flatMap_cons, e, Html.seens, Html.seen, this, ih1 n]

/-- What a run of commands leaves, as far as it can be compared. -/
def seenAfter (cs : List Cmd) : Option (List String) :=
  match Browser.init.run cs with
  | .ok b => some (seen b 5 (b.children 3))
  | .error _ => none

theorem not_shows {cs : List Cmd} {l} (h : seenAfter cs = some l) {hs : List Html} (hne : l ≠ Html.seens 5 hs) :
    ∃ b, Browser.init.run cs = .ok b ∧ ¬ Shows b (b.children 3) hs := by
  unfold seenAfter at h
  split at h
  · rename_i b hb
    refine ⟨b, hb, fun hs' => hne ?_⟩
    rw [← seen_shows hs' 5]
    exact (Option.some.inj h).symm
  · cases h

/-- A fragment of an element and a value: the value is placed before the element. -/
def fragmentView : List (View Nat Nat) :=
  [.fragment [.element "a" [] [], .value (fun n => n) (fun _ => true) fun n => .text (toString n)]]

/-- **C49** does not hold for fragments with a marker that is not the first node: the document is wrong from the
start (dom_comment.rs:72-90). -/
theorem C49_fragment_violated : ∃ b, Browser.init.run (App.start 7 fragmentView).2 = .ok b ∧
    ¬ Shows b (b.children 3) (htmls 7 fragmentView) :=
  not_shows (l := ["7", "<a>", "</a>"]) (by decide +kernel) (by decide +kernel)

/-- A list of numbers, each rendered as a value. -/
def itemView : List (View Nat Nat) :=
  [.list (fun n => List.range n) (fun v => v) fun v => .value (fun _ => v) (fun _ => true) fun v => .text (toString v)]

/-- **C49** does not hold for lists whose items are markers: the items are in the wrong order from the start
(dom_list.rs:203-252). -/
theorem C49_item_violated : ∃ b, Browser.init.run (App.start 2 itemView).2 = .ok b ∧
    ¬ Shows b (b.children 3) (htmls 2 itemView) :=
  not_shows (l := ["1", "0"]) (by decide +kernel) (by decide +kernel)

/-- A list of one number, whose key does not depend on the number. -/
def keyView : List (View Nat Nat) := [.list (fun n => [n]) (fun _ => 0) fun v => .text (toString v)]

/-- The value of the list has changed from `[1]` to `[2]`; its subscription is run. -/
def keyHistory : List (Nat × List Sub) := [(2, [(4, none)])]

/-- **C49** does not hold for lists in which the rendering depends on more than the key: the node of the old item with
this key is kept as it is (dom_list.rs:236-252). -/
theorem C49_key_violated : Complete (fun l => l) keyHistory (App.start 1 keyView).1 ∧
    ∃ b, Browser.init.run ((App.start 1 keyView).2 ++ ((App.start 1 keyView).1.history (fun l => l) keyHistory).2) = .ok b ∧
      ¬ Shows b (b.children 3) (htmls (lastState 1 keyHistory) keyView) := by
  refine ⟨⟨?_, trivial⟩, not_shows (l := ["1"]) (by decide +kernel) (by decide +kernel)⟩
  have : dueAll 2 (App.start 1 keyView).1.body = [(4, none)] := by decide +kernel
  rw [this]; exact fun _ h => h

end Verif.View

import Verif.Whole.Proof
/-!
# C70: the page shows the current state
-/
namespace Verif.Whole
open Verif.Reactive Verif.View
open Verif.Dom (Browser)

section
variable {V : Type} [DecidableEq V]

theorem reach_inv {D} {lim} (hD : Private D) {views : List (View (State V) V)} (hok : ∀ v ∈ views, v.Fine) {order : List (Inst (State V) V) → List (Inst (State V) V)}
    (hord : ∀ l, (order l).Perm l) {z : Sys V} (h : Reach D lim order views z) : Inv D lim views z := by
  induction h with
  | mount h hf hF => exact mount_inv hD hok h hf hF
  | move _ hm ih => exact move_inv hD hok hord ih hm

/-- Outside of transactions, every subscription was last called with the value of its computed. -/
theorem linked_current {D} {lim} (hD : Private D) {s : St (Val V)} {l : Links} (h : OI D lim (fun _ => False) s l) (hidle : s.tx = .idle) {e : Fact (State V) V}
    (hL : Linked D s l e) : e.f (contents s) = e.last := by
  obtain ⟨c, cl, -, hc, hst, hp, hsd⟩ := hL
  obtain ⟨ha, -, hS⟩ := private_star hD h.star
  obtain ⟨hrun, hready⟩ := h.ready hc
  have ht := ((hS h.static).1.cs c cl hc).clean hready ⟨h.quiet c, Or.inl hsd⟩ hst.1
  have hnp : c ∉ s.pending := by simp [St.pending, hidle, ha.ci.todo (by rw [hidle]; simp)]
  obtain ⟨-, s2, s3⟩ := (ha.ci.each c cl id hc).sync hrun hnp ht
  rw [hp] at s2
  exact (hst.value (ha.good.cache _ _ s2 s3).scratch).symm

/-- **C70** (partial: the views of C49, computeds whose conditional dependencies are private, and rendering code that only creates computeds). An application
is started and anything happens in it, in any order: values are created and set, in nested transactions or not, computeds are read, subscribers are
refreshed. Whenever no transaction is open and no subscriber is being refreshed, the browser has accepted everything that was sent to it, and the
page is what the views stand for when they are built for the contents that the values have now. -/
theorem C70_shows_partial {D : GraphId → Prog (Val V) → Prop} (hD : Private D) {lim : Nat} {order : List (Inst (State V) V) → List (Inst (State V) V)} (hord : ∀ l, (order l).Perm l)
    {views : List (View (State V) V)} (hok : ∀ v ∈ views, v.Ok) {z : Sys V} (h : Reach D lim order views z) (hidle : z.st.tx = .idle) :
    ∃ b, Browser.init.run z.sent = .ok b ∧ b.children 1 = [2, 3] ∧
      Shows b (b.children 3) (htmls (fun x => (z.st.vals x).getD default) views) := by
  have hI := reach_inv hD (fun v hv => (hok v hv).fine) hord h
  obtain ⟨b, hb, hA⟩ := hI.page
  refine ⟨b, hb, hA.html, ?_⟩
  have hd : dueAll (contents z.st) z.app.body = [] := dueAll_none _ fun e he =>
    (hI.all e he).elim (linked_current hD hI.core hidle) fun h => h _
  have := showsAll_of _ hA.holds hA.fits hd Shows.nil
  rw [hA.body]
  have e : (fun x => (z.st.vals x).getD default) = contents z.st := rfl
  rw [e]
  simpa using this

/-- **C70**, the other part: at no time is a subscription open whose node the browser has been told to forget, and no node has two subscriptions
for the same thing. -/
theorem C70_no_subscription_left_partial {D : GraphId → Prog (Val V) → Prop} (hD : Private D) {lim : Nat} {order : List (Inst (State V) V) → List (Inst (State V) V)} (hord : ∀ l, (order l).Perm l)
    {views : List (View (State V) V)} (hok : ∀ v ∈ views, v.Ok) {z : Sys V} (h : Reach D lim order views z) :
    ∃ b, Browser.init.run z.sent = .ok b ∧ ∃ owner : GraphId → Sub,
      (∀ c, z.st.clients c ≠ none → b.inMap (owner c).1 = true) ∧
      ∀ c c', z.st.clients c ≠ none → z.st.clients c' ≠ none → owner c = owner c' → c = c' := by
  have hI := reach_inv hD (fun v hv => (hok v hv).fine) hord h
  obtain ⟨b, hb, hA⟩ := hI.page
  have hown : ∀ c, ∃ t, z.st.clients c ≠ none → (t, c) ∈ z.links := by
    intro c
    cases hc : z.st.clients c with
    | none => exact ⟨(0, none), fun h => absurd rfl h⟩
    | some cl =>
      obtain ⟨p, hp, he⟩ := List.mem_map.mp (hI.core.owned c cl hc)
      exact ⟨p.1, fun _ => by rw [← he]; exact hp⟩
  refine ⟨b, hb, fun c => (hown c).choose, fun c hc => ?_, fun c c' hc hc' he => ?_⟩
  · obtain ⟨e, he, hs⟩ := List.mem_map.mp (hI.subs _ ((hown c).choose_spec hc))
    show b.inMap (hown c).choose.1 = true
    simp only at hs
    rw [← hs]
    exact holdsAll_inMap _ hA.holds _ (factsAll_ids _ he)
  · have := inj_of_nodup hI.core.n1 ((hown c).choose_spec hc) ((hown c').choose_spec hc') he
    exact congrArg Prod.snd this

end

end Verif.Whole

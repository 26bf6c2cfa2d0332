import Verif.Whole.Facts
/-!
# C70: a name stands for one subscription
-/
namespace Verif.Whole
open Verif.View

/-- There is one subscription of each name. -/
def Uniq (fs : List (Fact S V)) : Prop := ∀ e ∈ fs, ∀ e' ∈ fs, e.sub = e'.sub → e = e'

theorem Uniq.cons {e : Fact S V} {fs : List (Fact S V)} (h : Uniq fs) (he : ∀ e' ∈ fs, e'.sub ≠ e.sub) : Uniq (e :: fs) := by
  intro a ha b hb hab
  rcases List.mem_cons.mp ha with ha | ha <;> rcases List.mem_cons.mp hb with hb | hb
  · rw [ha, hb]
  · exact absurd (by rw [← ha, hab]) (he b hb)
  · exact absurd (by rw [← hb, hab]) (he a ha)
  · exact h a ha b hb hab

theorem Uniq.append {fs gs : List (Fact S V)} (h : Uniq fs) (h' : Uniq gs) (hd : ∀ e ∈ fs, ∀ e' ∈ gs, e.sub ≠ e'.sub) : Uniq (fs ++ gs) := by
  intro a ha b hb hab
  rcases List.mem_append.mp ha with ha | ha <;> rcases List.mem_append.mp hb with hb | hb
  · exact h a ha b hb hab
  · exact absurd hab (hd a ha b hb)
  · exact absurd hab.symm (hd b hb a ha)
  · exact h' a ha b hb hab

theorem uniq_attrs {id : Verif.Dom.Id} : ∀ {as : List (Attr S)}, (as.map (·.name)).Nodup →
    Uniq (as.map fun a => (⟨(id, some a.name), fun σ => .attr (a.f σ), .attr a.last⟩ : Fact S V))
  | [], _ => by intro a ha; simp at ha
  | a :: as, h => by
      simp only [List.map_cons, List.nodup_cons] at h
      refine (uniq_attrs h.2).cons fun e' he' hs => h.1 ?_
      obtain ⟨a', ha', rfl⟩ := List.mem_map.mp he'
      simp only [Prod.mk.injEq, Option.some.injEq, true_and] at hs
      exact List.mem_map.mpr ⟨a', ha', hs⟩

mutual
theorem uniq : ∀ (i : Inst S V) {v : View S V}, v.Fine → Fits v i → (ids i).Nodup → Uniq (facts i)
  | .element id name attrs children, v, hv, hf, hn => by
      cases v <;> simp only [Fits] at hf
      obtain ⟨-, h2, h3⟩ := hf
      cases hv with
      | element _ ha hc =>
      simp only [ids, List.nodup_cons] at hn
      refine Uniq.append (uniq_attrs ?_) (uniqAll children hc h3 hn.2) fun e he e' he' hs => ?_
      · rw [← h2] at ha; simpa [Function.comp_def] using ha
      · obtain ⟨a, -, rfl⟩ := List.mem_map.mp he
        exact hn.1 (by have := factsAll_ids children he'; rwa [← hs] at this)
  | .text .., v, _, _, _ => by intro a ha; simp [facts] at ha
  | .computedText .., v, _, _, _ => by intro a ha b hb _; simp only [facts, List.mem_singleton] at ha hb; rw [ha, hb]
  | .value id p f shown render last content, v, hv, hf, hn => by
      cases v <;> simp only [Fits] at hf
      obtain ⟨rfl, rfl, rfl, h3⟩ := hf
      cases hv with
      | value hr =>
      simp only [ids, List.nodup_cons] at hn
      refine (uniqAll content (fun w hw => ?_) h3 hn.2).cons fun e' he' hs => hn.1 ?_
      · split at hw
        · rw [List.mem_singleton.mp hw]; exact hr _
        · cases hw
      · have := factsAll_ids content he'; rwa [hs] at this
  | .list id p f key render items content, v, hv, hf, hn => by
      cases v <;> simp only [Fits] at hf
      obtain ⟨rfl, rfl, rfl, h3⟩ := hf
      cases hv with
      | list hr _ _ =>
      simp only [ids, List.nodup_cons] at hn
      refine (uniqAll content (fun w hw => ?_) h3 hn.2).cons fun e' he' hs => hn.1 ?_
      · obtain ⟨x, -, rfl⟩ := List.mem_map.mp hw; exact hr x
      · have := factsAll_ids content he'; rwa [hs] at this
  | .fragment id p content, v, hv, hf, hn => by
      cases v <;> simp only [Fits] at hf
      cases hv with
      | fragment hc _ =>
      simp only [ids, List.nodup_cons] at hn
      exact uniqAll content hc hf hn.2
theorem uniqAll : ∀ (is : List (Inst S V)) {vs : List (View S V)}, (∀ v ∈ vs, v.Fine) → FitsAll vs is → (idsAll is).Nodup → Uniq (factsAll is)
  | [], _, _, _, _ => by intro a ha; simp [factsAll] at ha
  | i :: is, [], _, hf, _ => hf.elim
  | i :: is, v :: vs, hv, hf, hn => by
      simp only [idsAll] at hn
      obtain ⟨h1, h2, h3⟩ := List.nodup_append.mp hn
      exact (uniq i (hv v (by simp)) hf.1 h1).append (uniqAll is (fun w hw => hv w (List.mem_cons_of_mem _ hw)) hf.2 h2) fun e he e' he' hs =>
        h3 _ (facts_ids i he) _ (factsAll_ids is he') (by rw [hs])
end

end Verif.Whole

import Verif.View.Spec
import Verif.View.Page
/-!
# Nodes and the page: the invariant of C49
-/
namespace Verif.View
open Verif.Dom

mutual
/-- The children of its parent that a node accounts for. -/
def tops : Inst S V → List Id
  | .element id _ _ _ => [id]
  | .text id _ => [id]
  | .computedText id _ _ => [id]
  | .value id _ _ _ _ _ content => topsAll content ++ [id]
  | .list id _ _ _ _ _ content => topsAll content ++ [id]
  | .fragment id _ content => topsAll content ++ [id]
def topsAll : List (Inst S V) → List Id
  | [] => []
  | i :: is => tops i ++ topsAll is
end

mutual
/-- All its nodes. -/
def ids : Inst S V → List Id
  | .element id _ _ children => id :: idsAll children
  | .text id _ => [id]
  | .computedText id _ _ => [id]
  | .value id _ _ _ _ _ content => id :: idsAll content
  | .list id _ _ _ _ _ content => id :: idsAll content
  | .fragment id _ content => id :: idsAll content
def idsAll : List (Inst S V) → List Id
  | [] => []
  | i :: is => ids i ++ idsAll is
end

/-- The attributes of an element. -/
def attrFn (attrs : List (Attr S)) : String → Option String :=
  fun x => (attrs.find? fun a => a.name = x).bind fun a => a.last

mutual
/-- The page has the node, below `p`, as it was last rendered. -/
def Holds (b : Browser) (p : Id) : Inst S V → Prop
  | .element id name attrs children =>
      b.inMap id = true ∧ b.objects id = some (.element name (attrFn attrs)) ∧ b.children id = topsAll children ∧
        HoldsAll b id children
  | .text id value => b.inMap id = true ∧ b.objects id = some (.text value)
  | .computedText id _ last => b.inMap id = true ∧ b.objects id = some (.text last)
  | .value id p' _ _ _ _ content =>
      p' = p ∧ b.inMap id = true ∧ (∃ s, b.objects id = some (.comment s)) ∧ HoldsAll b p content
  | .list id p' _ _ _ _ content =>
      p' = p ∧ b.inMap id = true ∧ (∃ s, b.objects id = some (.comment s)) ∧ HoldsAll b p content
  | .fragment id p' content =>
      p' = p ∧ b.inMap id = true ∧ (∃ s, b.objects id = some (.comment s)) ∧ HoldsAll b p content
def HoldsAll (b : Browser) (p : Id) : List (Inst S V) → Prop
  | [] => True
  | i :: is => Holds b p i ∧ HoldsAll b p is
end

mutual
/-- The node was made from the view. -/
def Fits : View S V → Inst S V → Prop
  | .element name attrs vs, .element _ name' attrs' is =>
      name' = name ∧ attrs'.map (fun a => (a.name, a.f)) = attrs ∧ FitsAll vs is
  | .text value, .text _ value' => value' = value
  | .computedText f, .computedText _ f' _ => f' = f
  | .value f shown render, .value _ _ f' shown' render' last content =>
      f' = f ∧ shown' = shown ∧ render' = render ∧ FitsAll (if shown last then [render last] else []) content
  | .list f key render, .list _ _ f' key' render' items content =>
      f' = f ∧ key' = key ∧ render' = render ∧ FitsAll (items.map render) content
  | .fragment vs, .fragment _ _ is => FitsAll vs is
  | _, _ => False
def FitsAll : List (View S V) → List (Inst S V) → Prop
  | [], [] => True
  | v :: vs, i :: is => Fits v i ∧ FitsAll vs is
  | _, _ => False
end

theorem topsAll_append : ∀ (is js : List (Inst S V)), topsAll (is ++ js) = topsAll is ++ topsAll js
  | [], _ => rfl
  | i :: is, js => by simp [topsAll, topsAll_append is js]
theorem idsAll_append : ∀ (is js : List (Inst S V)), idsAll (is ++ js) = idsAll is ++ idsAll js
  | [], _ => rfl
  | i :: is, js => by simp [idsAll, idsAll_append is js]
theorem holdsAll_append {b : Browser} {p} : ∀ (is js : List (Inst S V)),
    HoldsAll b p (is ++ js) ↔ HoldsAll b p is ∧ HoldsAll b p js
  | [], _ => by simp [HoldsAll]
  | i :: is, js => by simp [HoldsAll, holdsAll_append is js, and_assoc]
theorem fitsAll_append : ∀ {vs ws : List (View S V)} {is js : List (Inst S V)}, FitsAll vs is → FitsAll ws js →
    FitsAll (vs ++ ws) (is ++ js)
  | [], _, [], _, _, h => h
  | _ :: _, _, _ :: _, _, h, h' => ⟨h.1, fitsAll_append h.2 h'⟩
  | [], _, _ :: _, _, h, _ => h.elim
  | _ :: _, _, [], _, h, _ => h.elim

theorem id_mem_ids (i : Inst S V) : i.id ∈ ids i := by cases i <;> simp [Inst.id, ids]

mutual
theorem tops_sub : ∀ (i : Inst S V), ∀ x ∈ tops i, x ∈ ids i
  | .element .., x, h => by simp [tops] at h; simp [ids, h]
  | .text .., x, h => h
  | .computedText .., x, h => h
  | .value _ _ _ _ _ _ content, x, h => by
      rcases List.mem_append.mp h with h | h
      · exact List.mem_cons_of_mem _ (topsAll_sub content x h)
      · rw [List.mem_singleton.mp h]; exact List.mem_cons_self
  | .list _ _ _ _ _ _ content, x, h => by
      rcases List.mem_append.mp h with h | h
      · exact List.mem_cons_of_mem _ (topsAll_sub content x h)
      · rw [List.mem_singleton.mp h]; exact List.mem_cons_self
  | .fragment _ _ content, x, h => by
      rcases List.mem_append.mp h with h | h
      · exact List.mem_cons_of_mem _ (topsAll_sub content x h)
      · rw [List.mem_singleton.mp h]; exact List.mem_cons_self
theorem topsAll_sub : ∀ (is : List (Inst S V)), ∀ x ∈ topsAll is, x ∈ idsAll is
  | [], _, h => h
  | i :: is, x, h => by
      simp only [topsAll, idsAll, List.mem_append] at h ⊢
      exact h.imp (tops_sub i x) (topsAll_sub is x)
end

/-- What `Holds` depends on. -/
def SameOn (b b' : Browser) (xs : List Id) : Prop :=
  ∀ x ∈ xs, b'.objects x = b.objects x ∧ b'.inMap x = b.inMap x ∧ b'.children x = b.children x

theorem SameOn.cons {b b' : Browser} {x xs} : SameOn b b' (x :: xs) ↔
    (b'.objects x = b.objects x ∧ b'.inMap x = b.inMap x ∧ b'.children x = b.children x) ∧ SameOn b b' xs := by
  simp [SameOn]

theorem SameOn.append {b b' : Browser} {xs ys} : SameOn b b' (xs ++ ys) ↔ SameOn b b' xs ∧ SameOn b b' ys := by
  simp only [SameOn, List.mem_append]
  exact ⟨fun h => ⟨fun x hx => h x (Or.inl hx), fun x hx => h x (Or.inr hx)⟩,
    fun h x hx => hx.elim (h.1 x) (h.2 x)⟩

mutual
theorem Holds.frame {b b' : Browser} : ∀ (i : Inst S V) {p}, SameOn b b' (ids i) → Holds b p i → Holds b' p i
  | .element id _ _ children, _, hs, h => by
      obtain ⟨h1, h2⟩ := SameOn.cons.mp hs
      obtain ⟨a, c, d, e⟩ := h
      exact ⟨by rw [h1.2.1, a], by rw [h1.1, c], by rw [h1.2.2, d], HoldsAll.frame children h2 e⟩
  | .text id _, _, hs, h => by
      obtain ⟨h1, -⟩ := SameOn.cons.mp hs
      exact ⟨by rw [h1.2.1, h.1], by rw [h1.1, h.2]⟩
  | .computedText id _ _, _, hs, h => by
      obtain ⟨h1, -⟩ := SameOn.cons.mp hs
      exact ⟨by rw [h1.2.1, h.1], by rw [h1.1, h.2]⟩
  | .value id _ _ _ _ _ content, _, hs, h => by
      obtain ⟨h1, h2⟩ := SameOn.cons.mp hs
      obtain ⟨a, c, ⟨s, d⟩, e⟩ := h
      exact ⟨a, by rw [h1.2.1, c], ⟨s, by rw [h1.1, d]⟩, HoldsAll.frame content h2 e⟩
  | .list id _ _ _ _ _ content, _, hs, h => by
      obtain ⟨h1, h2⟩ := SameOn.cons.mp hs
      obtain ⟨a, c, ⟨s, d⟩, e⟩ := h
      exact ⟨a, by rw [h1.2.1, c], ⟨s, by rw [h1.1, d]⟩, HoldsAll.frame content h2 e⟩
  | .fragment id _ content, _, hs, h => by
      obtain ⟨h1, h2⟩ := SameOn.cons.mp hs
      obtain ⟨a, c, ⟨s, d⟩, e⟩ := h
      exact ⟨a, by rw [h1.2.1, c], ⟨s, by rw [h1.1, d]⟩, HoldsAll.frame content h2 e⟩
theorem HoldsAll.frame {b b' : Browser} : ∀ (is : List (Inst S V)) {p}, SameOn b b' (idsAll is) → HoldsAll b p is →
    HoldsAll b' p is
  | [], _, _, _ => trivial
  | i :: is, _, hs, h => by
      obtain ⟨h1, h2⟩ := SameOn.append.mp hs
      exact ⟨Holds.frame i h1 h.1, HoldsAll.frame is h2 h.2⟩
end

mutual
theorem holds_inMap {b : Browser} : ∀ (i : Inst S V) {p}, Holds b p i → ∀ x ∈ ids i, b.inMap x = true
  | .element id _ _ children, _, h, x, hx => by
      rcases List.mem_cons.mp hx with rfl | hx
      · exact h.1
      · exact holdsAll_inMap children h.2.2.2 x hx
  | .text id _, _, h, x, hx => by rw [List.mem_singleton.mp hx]; exact h.1
  | .computedText id _ _, _, h, x, hx => by rw [List.mem_singleton.mp hx]; exact h.1
  | .value id _ _ _ _ _ content, _, h, x, hx => by
      rcases List.mem_cons.mp hx with rfl | hx
      · exact h.2.1
      · exact holdsAll_inMap content h.2.2.2 x hx
  | .list id _ _ _ _ _ content, _, h, x, hx => by
      rcases List.mem_cons.mp hx with rfl | hx
      · exact h.2.1
      · exact holdsAll_inMap content h.2.2.2 x hx
  | .fragment id _ content, _, h, x, hx => by
      rcases List.mem_cons.mp hx with rfl | hx
      · exact h.2.1
      · exact holdsAll_inMap content h.2.2.2 x hx
theorem holdsAll_inMap {b : Browser} : ∀ (is : List (Inst S V)) {p}, HoldsAll b p is → ∀ x ∈ idsAll is, b.inMap x = true
  | [], _, _, x, hx => by cases hx
  | i :: is, _, h, x, hx => by
      rcases List.mem_append.mp hx with hx | hx
      · exact holds_inMap i h.1 x hx
      · exact holdsAll_inMap is h.2 x hx
end

mutual
/-- The children of nodes that an element accounts for are its own. -/
theorem holds_children {b : Browser} : ∀ (i : Inst S V) {p}, Holds b p i → ∀ x ∈ ids i, ∀ y ∈ b.children x,
    y ∈ ids i ∨ ∃ s, b.objects x = some (.comment s) ∨ b.objects x = some (.text s)
  | .element id _ _ children, _, h, x, hx, y, hy => by
      rcases List.mem_cons.mp hx with rfl | hx
      · rw [h.2.2.1] at hy
        exact Or.inl (List.mem_cons_of_mem _ (topsAll_sub children y hy))
      · exact (holdsAll_children children h.2.2.2 x hx y hy).imp (List.mem_cons_of_mem _) (fun h => h)
  | .text id _, _, h, x, hx, y, hy => by
      rw [List.mem_singleton.mp hx]; exact Or.inr ⟨_, Or.inr h.2⟩
  | .computedText id _ _, _, h, x, hx, y, hy => by
      rw [List.mem_singleton.mp hx]; exact Or.inr ⟨_, Or.inr h.2⟩
  | .value id _ _ _ _ _ content, _, h, x, hx, y, hy => by
      rcases List.mem_cons.mp hx with rfl | hx
      · obtain ⟨s, e⟩ := h.2.2.1; exact Or.inr ⟨s, Or.inl e⟩
      · exact (holdsAll_children content h.2.2.2 x hx y hy).imp (List.mem_cons_of_mem _) (fun h => h)
  | .list id _ _ _ _ _ content, _, h, x, hx, y, hy => by
      rcases List.mem_cons.mp hx with rfl | hx
      · obtain ⟨s, e⟩ := h.2.2.1; exact Or.inr ⟨s, Or.inl e⟩
      · exact (holdsAll_children content h.2.2.2 x hx y hy).imp (List.mem_cons_of_mem _) (fun h => h)
  | .fragment id _ content, _, h, x, hx, y, hy => by
      rcases List.mem_cons.mp hx with rfl | hx
      · obtain ⟨s, e⟩ := h.2.2.1; exact Or.inr ⟨s, Or.inl e⟩
      · exact (holdsAll_children content h.2.2.2 x hx y hy).imp (List.mem_cons_of_mem _) (fun h => h)
theorem holdsAll_children {b : Browser} : ∀ (is : List (Inst S V)) {p}, HoldsAll b p is → ∀ x ∈ idsAll is,
    ∀ y ∈ b.children x, y ∈ idsAll is ∨ ∃ s, b.objects x = some (.comment s) ∨ b.objects x = some (.text s)
  | [], _, _, x, hx, _, _ => by cases hx
  | i :: is, _, h, x, hx, y, hy => by
      rcases List.mem_append.mp hx with hx | hx
      · exact (holds_children i h.1 x hx y hy).imp (List.mem_append_left _) (fun h => h)
      · exact (holdsAll_children is h.2 x hx y hy).imp (List.mem_append_right _) (fun h => h)
end

/-- In a page the children of nodes in `ids` are in `ids`. -/
theorem holdsAll_closed {b : Browser} {n} (hg : Good b n) {is : List (Inst S V)} {p} (h : HoldsAll b p is) {x} (hx : x ∈ idsAll is)
    {y} (hy : y ∈ b.children x) : y ∈ idsAll is := by
  rcases holdsAll_children is h x hx y hy with h1 | ⟨s, h1⟩
  · exact h1
  · obtain ⟨-, nm, f, e⟩ := hg.inv.par y x ((hg.inv.link x y).mp hy)
    rcases h1 with h1 | h1 <;> rw [e] at h1 <;> cases h1

section
variable [DecidableEq V]

mutual
/-- A node that the page holds and for which nothing is due shows the view in this state. -/
theorem shows_of {b : Browser} {σ : S} : ∀ (i : Inst S V) {v p}, Holds b p i → Fits v i → due σ i = [] →
    ∀ {rest hs}, Shows b rest hs → Shows b (tops i ++ rest) (html σ v ++ hs)
  | .element id name' attrs' is, v, p, h, hf, hd, rest, hs, hr => by
      cases v with
      | element name attrs vs =>
        obtain ⟨rfl, rfl, hf⟩ := hf
        simp only [due, List.append_eq_nil_iff, List.map_eq_nil_iff] at hd
        have hc := showsAll_of is h.2.2.2 hf hd.2 (Shows.nil)
        simp only [List.append_nil, ← h.2.2.1] at hc
        simp only [tops, html, List.singleton_append]
        have ha : attrFn attrs' = fun x =>
            ((attrs'.map fun a => (a.name, a.f)).find? fun p => p.1 = x).bind fun p => p.2 σ := by
          funext x
          have : ∀ a ∈ attrs', a.f σ = a.last := by simpa using List.filter_eq_nil_iff.mp hd.1
          clear h hd hc hf
          simp only [attrFn]
          induction attrs' with
          | nil => rfl
          | cons a as ih =>
            simp only [List.find?_cons, List.map_cons]
            by_cases e : a.name = x
            · simp [e, this a (by simp)]
            · simp only [e, decide_false]
              exact ih fun a ha => this a (List.mem_cons_of_mem _ ha)
        rw [← ha]
        exact .element h.2.1 hc hr
      | _ => exact hf.elim
  | .text id value', v, p, h, hf, hd, rest, hs, hr => by
      cases v with
      | text value => cases hf; exact .text h.2 hr
      | _ => exact hf.elim
  | .computedText id f' last, v, p, h, hf, hd, rest, hs, hr => by
      cases v with
      | computedText f =>
        cases hf
        have e : f' σ = last := by
          by_cases e : f' σ = last
          · exact e
          · simp [due, e] at hd
        simp only [html, e]
        exact .text h.2 hr
      | _ => exact hf.elim
  | .value id _ f' _ _ last content, v, p, h, hf, hd, rest, hs, hr => by
      cases v with
      | value f shown render =>
        obtain ⟨rfl, rfl, rfl, hf⟩ := hf
        simp only [due, List.append_eq_nil_iff] at hd
        have e : f' σ = last := by
          by_cases e : f' σ = last
          · exact e
          · simp [e] at hd
        obtain ⟨s, hs'⟩ := h.2.2.1
        have := showsAll_of content h.2.2.2 hf hd.2 (Shows.comment hs' hr)
        simp only [tops, List.append_assoc, List.singleton_append, html, e]
        split
        · rename_i hsh; simpa [hsh, htmls] using this
        · rename_i hsh; simpa [hsh, htmls] using this
      | _ => exact hf.elim
  | .list id _ f' _ render' items content, v, p, h, hf, hd, rest, hs, hr => by
      cases v with
      | list f key render =>
        obtain ⟨rfl, rfl, rfl, hf⟩ := hf
        simp only [due, List.append_eq_nil_iff] at hd
        have e : f' σ = items := by
          by_cases e : f' σ = items
          · exact e
          · simp [e] at hd
        obtain ⟨s, hs'⟩ := h.2.2.1
        have := showsAll_of content h.2.2.2 hf hd.2 (Shows.comment hs' hr)
        simp only [tops, List.append_assoc, List.singleton_append, html, e]
        have hm : ∀ l : List V, htmls σ (l.map render') = l.flatMap fun v => html σ (render' v) := by
          intro l
          induction l with
          | nil => rfl
          | cons a l ih => simp [htmls, ih]
        rw [← hm]; exact this
      | _ => exact hf.elim
  | .fragment id _ content, v, p, h, hf, hd, rest, hs, hr => by
      cases v with
      | fragment vs =>
        obtain ⟨s, hs'⟩ := h.2.2.1
        have := showsAll_of content h.2.2.2 hf hd (Shows.comment hs' hr)
        simpa only [tops, List.append_assoc, List.singleton_append, html] using this
      | _ => exact hf.elim
theorem showsAll_of {b : Browser} {σ : S} : ∀ (is : List (Inst S V)) {vs p}, HoldsAll b p is → FitsAll vs is →
    dueAll σ is = [] → ∀ {rest hs}, Shows b rest hs → Shows b (topsAll is ++ rest) (htmls σ vs ++ hs)
  | [], [], _, _, _, _, _, _, hr => hr
  | i :: is, v :: vs, p, h, hf, hd, rest, hs, hr => by
      simp only [dueAll, List.append_eq_nil_iff] at hd
      simp only [topsAll, htmls, List.append_assoc]
      exact shows_of i h.1 hf.1 hd.1 (showsAll_of is h.2 hf.2 hd.2 hr)
  | [], _ :: _, _, _, hf, _, _, _, _ => hf.elim
  | _ :: _, [], _, _, hf, _, _, _, _ => hf.elim
end
end

end Verif.View

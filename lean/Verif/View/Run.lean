import Verif.View.Update
/-!
# C49: running a subscription
-/
namespace Verif.View
open Verif.Dom

theorem fits_length : ∀ {vs : List (View S V)} {is : List (Inst S V)}, FitsAll vs is → vs.length = is.length
  | [], [], _ => rfl
  | _ :: _, _ :: _, h => by simp [fits_length h.2]
  | [], _ :: _, h => h.elim
  | _ :: _, [], h => h.elim

section
variable [DecidableEq V]

theorem remount_plain {σ : S} {v : View S V} {i : Inst S V} (h : Fits v i) (hp : v.plain = true) (p n) : remount σ i p n = (i, [], n) := by
  cases v with
  | element => cases i <;> first | exact h.elim | simp [remount]
  | text => cases i <;> first | exact h.elim | simp [remount]
  | computedText => cases i <;> first | exact h.elim | simp [remount]
  | value => simp [View.plain] at hp
  | list => simp [View.plain] at hp
  | fragment => simp [View.plain] at hp

mutual
theorem due_ids {σ : S} : ∀ (i : Inst S V), ∀ t ∈ due σ i, t.1 ∈ ids i
  | .element id _ attrs children, t, ht => by
      simp only [due, List.mem_append, List.mem_map] at ht
      rcases ht with ⟨a, -, rfl⟩ | ht
      · simp [ids]
      · exact List.mem_cons_of_mem _ (dueAll_ids children t ht)
  | .text .., t, ht => by cases ht
  | .computedText id f last, t, ht => by
      simp only [due] at ht
      split at ht
      · cases ht
      · simp at ht; subst ht; simp [ids]
  | .value id _ f _ _ last content, t, ht => by
      simp only [due, List.mem_append] at ht
      rcases ht with ht | ht
      · split at ht
        · cases ht
        · simp at ht; subst ht; simp [ids]
      · exact List.mem_cons_of_mem _ (dueAll_ids content t ht)
  | .list id _ f _ _ items content, t, ht => by
      simp only [due, List.mem_append] at ht
      rcases ht with ht | ht
      · split at ht
        · cases ht
        · simp at ht; subst ht; simp [ids]
      · exact List.mem_cons_of_mem _ (dueAll_ids content t ht)
  | .fragment _ _ content, t, ht => List.mem_cons_of_mem _ (dueAll_ids content t ht)
theorem dueAll_ids {σ : S} : ∀ (is : List (Inst S V)), ∀ t ∈ dueAll σ is, t.1 ∈ idsAll is
  | [], _, ht => by cases ht
  | i :: is, t, ht => by
      rcases List.mem_append.mp ht with ht | ht
      · exact List.mem_append_left _ (due_ids i t ht)
      · exact List.mem_append_right _ (dueAll_ids is t ht)
end

/-- The subscriptions of the attributes of an element. -/
theorem runAttrs_ok {σ : S} {id nm s} : ∀ (as : List (Attr S)) {b : Browser} {F}, (as.map (·.name)).Nodup →
    b.objects id = some (.element nm F) → b.inMap id = true → isRoot id = false → (∀ x, x ∈ as.map (·.name) → F x = attrFn as x) →
    ∃ b' G, Runs b (runAttrs σ id s as).2 b' ∧ Changed b id (.element nm G) b' ∧
      (∀ x, G x = if x ∈ as.map (·.name) then attrFn (runAttrs σ id s as).1 x else F x) ∧
      (runAttrs σ id s as).1.map (fun a => (a.name, a.f)) = as.map (fun a => (a.name, a.f)) ∧
      ∀ t ∈ ((runAttrs σ id s as).1.filter fun a => a.f σ ≠ a.last).map (fun a => ((id, some a.name) : Sub)),
        t ∈ (as.filter fun a => a.f σ ≠ a.last).map (fun a => ((id, some a.name) : Sub)) ∧ t ≠ s
  | [], b, F, _, ho, _, _, _ => ⟨b, F, .nil, ⟨fun _ h => h, fun x _ => .refl b x, ho, rfl, rfl, rfl⟩, by simp, rfl, by simp [runAttrs]⟩
  | a :: as, b, F, hn, ho, hm, hr, hF => by
      simp only [List.map_cons, List.nodup_cons] at hn
      by_cases hc : s = (id, some a.name) ∧ a.f σ ≠ a.last
      · obtain ⟨b1, hb1, hc1⟩ : ∃ b1, Step b (attrCmd id a.name (a.f σ)) b1 ∧
            Changed b id (.element nm fun x => if x = a.name then a.f σ else F x) b1 := by
          cases e : a.f σ with
          | some w => exact setAttr_ok ho hm hr
          | none => exact removeAttr_ok ho hm hr
        obtain ⟨b2, G, hb2, hc2, hG, hm2, hd2⟩ := runAttrs_ok (σ := σ) (s := s) as hn.2 hc1.object (by rw [hc1.inMap, hm]) hr (fun x hx => by
          have hxa : x ≠ a.name := by rintro rfl; exact hn.1 hx
          have := hF x (List.mem_cons_of_mem _ hx)
          have hxa' : ¬ a.name = x := fun e => hxa e.symm
          simp only [attrFn, List.find?_cons, hxa', decide_false] at this
          simp only [hxa, if_false, attrFn]; exact this)
        have er : runAttrs σ id s (a :: as) =
            ({ a with last := a.f σ } :: (runAttrs σ id s as).1, attrCmd id a.name (a.f σ) :: (runAttrs σ id s as).2) := by
          simp [runAttrs, Attr.run, hc]
        rw [er]
        refine ⟨b2, G, run_cons hb1 hb2, ⟨fun n h => hc2.good n (hc1.good n h), fun x hx => (hc1.same x hx).trans (hc2.same x hx),
          hc2.object, by rw [hc2.inMap, hc1.inMap], by rw [hc2.parent, hc1.parent], by rw [hc2.children, hc1.children]⟩, ?_, ?_, ?_⟩
        · intro x
          rw [hG x]
          by_cases h : x = a.name
          · subst h; simp [hn.1, attrFn]
          · have h' : ¬ a.name = x := fun e => h e.symm
            simp only [List.map_cons, List.mem_cons, h, false_or, attrFn, List.find?_cons, h', decide_false, if_false]
        · simp [hm2]
        · intro t ht
          simp only [List.filter_cons, ne_eq, not_true_eq_false, decide_false] at ht
          have := hd2 t (by simpa using ht)
          refine ⟨?_, this.2⟩
          rw [List.filter_cons, if_pos (by simpa using hc.2)]
          exact List.mem_cons_of_mem _ this.1
      · obtain ⟨b2, G, hb2, hc2, hG, hm2, hd2⟩ := runAttrs_ok (σ := σ) (s := s) as hn.2 ho hm hr (fun x hx => by
          have hxa : x ≠ a.name := by rintro rfl; exact hn.1 hx
          have := hF x (List.mem_cons_of_mem _ hx)
          have hxa' : ¬ a.name = x := fun e => hxa e.symm
          simp only [attrFn, List.find?_cons, hxa', decide_false] at this
          simp only [attrFn]; exact this)
        have er : runAttrs σ id s (a :: as) = (a :: (runAttrs σ id s as).1, (runAttrs σ id s as).2) := by
          simp [runAttrs, Attr.run, hc]
        rw [er]
        refine ⟨b2, G, hb2, hc2, ?_, ?_, ?_⟩
        · intro x
          rw [hG x]
          by_cases h : x = a.name
          · subst h
            rw [if_neg hn.1, hF _ (by simp)]
            simp [attrFn]
          · have h' : ¬ a.name = x := fun e => h e.symm
            simp only [List.map_cons, List.mem_cons, h, false_or, attrFn, List.find?_cons, h', decide_false]
        · simp [hm2]
        · intro t ht
          simp only [List.filter_cons, decide_eq_true_eq] at ht ⊢
          by_cases hl : a.f σ = a.last
          · rw [if_neg (by simp [hl])] at ht ⊢
            exact hd2 t ht
          · rw [if_pos hl] at ht ⊢
            simp only [List.map_cons, List.mem_cons] at ht ⊢
            rcases ht with rfl | ht
            · exact ⟨Or.inl rfl, fun e => hc ⟨e.symm, hl⟩⟩
            · exact ⟨Or.inr (hd2 t ht).1, (hd2 t ht).2⟩

theorem attrFn_none {as : List (Attr S)} {x} (h : x ∉ as.map (·.name)) : attrFn as x = none := by
  simp only [attrFn, Option.bind_eq_none_iff]
  intro a ha
  have h1 := List.mem_of_find?_eq_some ha
  have h2 := List.find?_some ha
  exact absurd (List.mem_map.mpr ⟨a, h1, by simpa using h2⟩) h

mutual
/-- A subscription is run. -/
theorem run_ok {σ : S} {order : List (Inst S V) → List (Inst S V)} (hord : ∀ l, (order l).Perm l) {s : Sub} :
    ∀ (i : Inst S V) {v : View S V} {b n L R} {p : Nat}, v.Fine → Good b n → Usable b p → Holds b p i → Fits v i → (ids i).Nodup →
    p ∉ ids i → b.children p = L ++ tops i ++ R →
    ∃ b', Runs b (run σ order s i n).2.1 b' ∧
      Ends b n p (· ∈ ids i) [v] L R [(run σ order s i n).1] b' (run σ order s i n).2.2 ∧
      ∀ t ∈ due σ (run σ order s i n).1, t ∈ due σ i ∧ t ≠ s
  | .element id name attrs children, v, b, n, L, R, p, hv, hg, hp, hh, hf, hn, hpi, hc => by
      cases v with
      | element nm as vs =>
        cases hv with
        | element _ hna hvs =>
        obtain ⟨rfl, rfl, hf⟩ := hf
        obtain ⟨hm, ho, hch, hhc⟩ := hh
        have hidn : id < n := hg.lt ho
        have hid : (id : Nat) ≠ p := fun e => hpi (by simp [ids, e])
        have hn' := List.nodup_cons.mp hn
        obtain ⟨b1, G, hb1, hc1, hG, hma, hda⟩ := runAttrs_ok (σ := σ) (s := s) attrs (by simpa [Function.comp_def] using hna) ho hm (hg.free _ hm) (fun _ _ => rfl)
        have hhc1 : HoldsAll b1 id children := HoldsAll.frame _ (fun x hx => by
          have := hc1.same x (fun e => hn'.1 (e ▸ hx))
          exact ⟨this.objects, this.inMap, this.children⟩) hhc
        obtain ⟨b2, hb2, he2, hd2⟩ := runAll_ok (σ := σ) hord (s := s) children (L := []) (R := []) hvs (hc1.good _ hg)
          ⟨⟨_, _, hc1.object, Or.inr (by rw [hc1.inMap, hm])⟩, by
            have := hg.free _ hm
            constructor <;> rintro rfl <;> cases this⟩ hhc1 hf hn'.2 hn'.1 (by rw [hc1.children, hch]; simp)
        have hsub : ∀ x : Nat, x ∉ ids (.element id name attrs children) → x ≠ id ∧ x ∉ idsAll children := fun x hx => by
          simpa [ids] using hx
        have hsame : ∀ x : Nat, x < n → x ∉ ids (.element id name attrs children) → SameAt b b2 x := fun x hxn hx =>
          (hc1.same x (hsub x hx).1).trans (he2.same x hxn (hsub x hx).2 (hsub x hx).1)
        have hpn := hp.lt hg
        refine ⟨b2, run_append hb1 hb2, ⟨he2.good, he2.le, fun x hx hxo _ => hsame x hx hxo, (hsame p hpn hpi).but, ?_, ⟨⟨?_, ?_, ?_, he2.holds⟩, trivial⟩,
          ⟨⟨rfl, hma, he2.fits⟩, trivial⟩, ?_, ?_, ?_⟩, ?_⟩
        · rw [(hsame p hpn hpi).children, hc]; simp [topsAll, tops, run]
        · rw [he2.but.inMap, hc1.inMap, hm]
        · rw [he2.but.objects, hc1.object]
          congr 2
          funext x
          rw [hG x]
          split
          · rfl
          · rename_i hx
            rw [attrFn_none hx]
            refine (attrFn_none ?_).symm
            have := congrArg (List.map Prod.fst) hma
            simp only [List.map_map, Function.comp_def] at this
            rw [this]; exact hx
        · rw [he2.children]; simp
        · simp only [idsAll, run, ids, List.append_nil, List.nodup_cons]
          exact ⟨he2.ne, he2.nodup⟩
        · intro x hx
          simp only [idsAll, run, ids, List.append_nil, List.mem_cons] at hx ⊢
          rcases hx with hx | hx
          · exact Or.inl (Or.inl hx)
          · exact (he2.ids x hx).imp Or.inr (fun h => h)
        · simp only [idsAll, run, ids, List.append_nil, List.mem_cons, not_or]
          refine ⟨fun e => hid e.symm, fun hx => ?_⟩
          rcases he2.ids p hx with h | h
          · exact hpi (List.mem_cons_of_mem _ h)
          · omega
        · intro t ht
          simp only [run, due, List.mem_append] at ht ⊢
          rcases ht with ht | ht
          · exact ⟨Or.inl (hda t ht).1, (hda t ht).2⟩
          · exact ⟨Or.inr (hd2 t ht).1, (hd2 t ht).2⟩
      | _ => exact hf.elim
  | .text id value, v, b, n, L, R, p, hv, hg, hp, hh, hf, hn, hpi, hc => by
      refine ⟨b, by simp only [run]; exact .nil, ?_, by simp [run, due]⟩
      simp only [run]
      exact Ends.self (vs := [v]) (is := [.text id value]) hg ⟨hh, trivial⟩ ⟨hf, trivial⟩ (by simp [idsAll, ids])
        (by simpa [idsAll] using hpi) (by simpa [topsAll] using hc) |> fun h => by simpa [idsAll] using h
  | .computedText id f last, v, b, n, L, R, p, hv, hg, hp, hh, hf, hn, hpi, hc => by
      by_cases hr : s = (id, none) ∧ f σ ≠ last
      · obtain ⟨b1, hb1, hc1⟩ := updateText_ok (w := f σ) hh.2 hh.1
        have er : run σ order s (.computedText id f last : Inst S V) n = (.computedText id f (f σ), [.updateText id (f σ)], n) := by
          simp only [run, if_pos hr]
        rw [er]
        have hid : (id : Nat) ≠ p := fun e => hpi (by simp [ids, e])
        refine ⟨b1, run_one hb1, ⟨hc1.good _ hg, Nat.le_refl _, fun x _ hx _ => hc1.same x (fun e => hx (by simp [ids, e])),
          (hc1.same p (fun e => hid e.symm)).but, ?_, ⟨⟨?_, ?_⟩, trivial⟩, ⟨?_, trivial⟩, by simp [idsAll, ids], ?_, ?_⟩, ?_⟩
        · rw [(hc1.same p (fun e => hid e.symm)).children, hc]; simp [topsAll, tops]
        · rw [hc1.inMap, hh.1]
        · rw [hc1.object]
        · cases v with
          | computedText g => cases hf; rfl
          | _ => exact hf.elim
        · intro x hx; simp [idsAll, ids] at hx; simp [ids, hx]
        · simpa [idsAll, ids] using hpi
        · simp [due]
      · have er : run σ order s (.computedText id f last : Inst S V) n = (.computedText id f last, [], n) := by
          simp only [run, if_neg hr]
        rw [er]
        refine ⟨b, .nil, ?_, ?_⟩
        · exact Ends.self (vs := [v]) (is := [.computedText id f last]) hg ⟨hh, trivial⟩ ⟨hf, trivial⟩ (by simp [idsAll, ids])
            (by simpa [idsAll] using hpi) (by simpa [topsAll] using hc) |> fun h => by simpa [idsAll] using h
        · intro t ht
          refine ⟨ht, ?_⟩
          rintro rfl
          simp only [due] at ht
          split at ht
          · cases ht
          · simp at ht; exact hr ⟨ht, by assumption⟩
  | .value id p' f shown render last content, v, b, n, L, R, p, hv, hg, hp, hh, hf, hn, hpi, hc => by
      cases v with
      | value f' shown' render' =>
        cases hv with
        | value hvr =>
        obtain ⟨rfl, rfl, rfl, hf⟩ := hf
        obtain ⟨rfl, hm, ⟨cm, ho⟩, hhc⟩ := hh
        have hidn : id < n := hg.lt ho
        have hid : (id : Nat) ≠ p' := fun e => hpi (by simp [ids, e])
        have hn' := List.nodup_cons.mp hn
        have hpc : p' ∉ idsAll content := fun h => hpi (List.mem_cons_of_mem _ h)
        have hc' : b.children p' = L ++ topsAll content ++ id :: R := by rw [hc]; simp [tops]
        by_cases hr : s = (id, none) ∧ f σ ≠ last
        · obtain ⟨b1, hb1, he1, hd1⟩ := value_ok (shown := shown) (v := f σ) (fun v => builds (hvr v)) hg hp hhc hn'.2 hpc hc'
          have er : run σ order s (.value id p' f shown render last content) n =
              let r := onValue (fun v m => create σ (render v) m) id p' shown (f σ) content n
              (.value id p' f shown render (f σ) r.1, r.2.1, r.2.2) := by simp only [run, if_pos hr]
          rw [er]
          refine ⟨b1, hb1, ?_, ?_⟩
          · exact he1.marker hm ho hidn hid (by simp [ids]) hn'.1 (fun x hx => List.mem_cons_of_mem _ hx) rfl rfl
              (fun h1 h2 h3 => ⟨rfl, h1, h2, h3⟩) (fun h => ⟨rfl, rfl, rfl, h⟩)
          · intro t ht
            simp only [due, if_true, List.nil_append, hd1] at ht
            cases ht
        · obtain ⟨b1, hb1, he1, hd1⟩ := runAll_ok (σ := σ) hord (s := s) content (L := L) (R := id :: R) (by
            intro w hw; split at hw
            · simp at hw; rw [hw]; exact hvr _
            · cases hw) hg hp hhc hf hn'.2 hpc hc'
          have er : run σ order s (.value id p' f shown render last content) n =
              let r := runAll σ order s content n
              (.value id p' f shown render last r.1, r.2.1, r.2.2) := by simp only [run, if_neg hr]
          rw [er]
          refine ⟨b1, hb1, ?_, ?_⟩
          · exact he1.marker hm ho hidn hid (by simp [ids]) hn'.1 (fun x hx => List.mem_cons_of_mem _ hx) rfl rfl
              (fun h1 h2 h3 => ⟨rfl, h1, h2, h3⟩) (fun h => ⟨rfl, rfl, rfl, h⟩)
          · intro t ht
            simp only [due, List.mem_append] at ht ⊢
            rcases ht with ht | ht
            · refine ⟨Or.inl ht, ?_⟩
              rintro rfl
              split at ht
              · cases ht
              · simp at ht; exact hr ⟨ht, by assumption⟩
            · exact ⟨Or.inr (hd1 t ht).1, (hd1 t ht).2⟩
      | _ => exact hf.elim
  | .list id p' f key render items content, v, b, n, L, R, p, hv, hg, hp, hh, hf, hn, hpi, hc => by
      cases v with
      | list f' key' render' =>
        cases hv with
        | list hvr hpl hk =>
        obtain ⟨rfl, rfl, rfl, hf⟩ := hf
        obtain ⟨rfl, hm, ⟨cm, ho⟩, hhc⟩ := hh
        have hidn : id < n := hg.lt ho
        have hid : (id : Nat) ≠ p' := fun e => hpi (by simp [ids, e])
        have hn' := List.nodup_cons.mp hn
        have hpc : p' ∉ idsAll content := fun h => hpi (List.mem_cons_of_mem _ h)
        have hc' : b.children p' = L ++ topsAll content ++ id :: R := by rw [hc]; simp [tops]
        by_cases hr : s = (id, none) ∧ f σ ≠ items
        · have hlen : items.length = content.length := by simpa using fits_length hf
          have hz2 : nodes (items.zip content) = content := List.map_snd_zip (by omega)
          have hz1 : (items.zip content).map (·.1) = items := List.map_fst_zip (by omega)
          have hz3 : (items.zip content).map (fun c => render c.1) = items.map render := by
            rw [← hz1, List.map_map]; simp [Function.comp_def, hz1]
          have hag : ∀ c ∈ items.zip content, ∀ ref n, insertAgain σ p' ref c.2 n = (c.2, [.insertBefore p' c.2.id (some ref)], n) := by
            intro c hcm ref m
            have : Fits (render c.1) c.2 := by
              clear hz1 hz2 hz3 hr hc' hpc hn' hn hhc hpi hc
              induction items generalizing content with
              | nil => simp at hcm
              | cons w items ih =>
                cases content with
                | nil => simp at hcm
                | cons j content =>
                  rcases List.mem_cons.mp hcm with rfl | hcm
                  · exact hf.1
                  · exact ih content hf.2 (by simpa using hlen) hcm
            simp only [insertAgain, remount_plain this (hpl _)]
          obtain ⟨b1, hb1, he1, hm1, hd1⟩ := list_ok (again := insertAgain σ p') (order := order) (cur := items.zip content) (new := f σ) (L := L) (R := R)
            (id := id) (fun v => builds (hvr v)) hpl hk hord hg hp hag (by rw [hz2]; exact hhc) (by rw [hz2, hz3]; exact hf) (by rw [hz2]; exact hn'.2)
            (by rw [hz2]; exact hpc) (by rw [hz2]; exact hc')
          rw [hz2] at he1 hd1
          have er : run σ order s (.list id p' f key render items content) n =
              let r := onList key (createBefore σ render p') (insertAgain σ p') order id (items.zip content) (f σ) n
              (.list id p' f key render (r.1.map (·.1)) (r.1.map (·.2)), r.2.1, r.2.2) := by simp only [run, if_pos hr]
          rw [er]
          refine ⟨b1, hb1, ?_, ?_⟩
          · refine he1.marker hm ho hidn hid (by simp [ids]) hn'.1 (fun x hx => List.mem_cons_of_mem _ hx) rfl rfl
              (fun h1 h2 h3 => ⟨rfl, h1, h2, h3⟩) (fun h => ⟨rfl, rfl, rfl, ?_⟩)
            exact hm1.symm ▸ h
          · intro t ht
            simp only [due, hm1, if_true, List.nil_append] at ht
            have := hd1 t ht
            refine ⟨List.mem_append_right _ this, ?_⟩
            rintro rfl
            have := dueAll_ids _ _ this
            rw [hr.1] at this
            exact hn'.1 this
        · obtain ⟨b1, hb1, he1, hd1⟩ := runAll_ok (σ := σ) hord (s := s) content (L := L) (R := id :: R) (by
            intro w hw; obtain ⟨x, -, rfl⟩ := List.mem_map.mp hw; exact hvr x) hg hp hhc hf hn'.2 hpc hc'
          have er : run σ order s (.list id p' f key render items content) n =
              let r := runAll σ order s content n
              (.list id p' f key render items r.1, r.2.1, r.2.2) := by simp only [run, if_neg hr]
          rw [er]
          refine ⟨b1, hb1, ?_, ?_⟩
          · exact he1.marker hm ho hidn hid (by simp [ids]) hn'.1 (fun x hx => List.mem_cons_of_mem _ hx) rfl rfl
              (fun h1 h2 h3 => ⟨rfl, h1, h2, h3⟩) (fun h => ⟨rfl, rfl, rfl, h⟩)
          · intro t ht
            simp only [due, List.mem_append] at ht ⊢
            rcases ht with ht | ht
            · refine ⟨Or.inl ht, ?_⟩
              rintro rfl
              split at ht
              · cases ht
              · simp at ht; exact hr ⟨ht, by assumption⟩
            · exact ⟨Or.inr (hd1 t ht).1, (hd1 t ht).2⟩
      | _ => exact hf.elim
  | .fragment id p' content, v, b, n, L, R, p, hv, hg, hp, hh, hf, hn, hpi, hc => by
      cases v with
      | fragment vs =>
        cases hv with
        | fragment hvs hpl =>
        obtain ⟨rfl, hm, ⟨cm, ho⟩, hhc⟩ := hh
        have hidn : id < n := hg.lt ho
        have hid : (id : Nat) ≠ p' := fun e => hpi (by simp [ids, e])
        have hn' := List.nodup_cons.mp hn
        have hpc : p' ∉ idsAll content := fun h => hpi (List.mem_cons_of_mem _ h)
        have hc' : b.children p' = L ++ topsAll content ++ id :: R := by rw [hc]; simp [tops]
        obtain ⟨b1, hb1, he1, hd1⟩ := runAll_ok (σ := σ) hord (s := s) content (L := L) (R := id :: R) hvs hg hp hhc hf hn'.2 hpc hc'
        have er : run σ order s (.fragment id p' content) n =
            let r := runAll σ order s content n
            (.fragment id p' r.1, r.2.1, r.2.2) := by simp only [run]
        rw [er]
        refine ⟨b1, hb1, ?_, hd1⟩
        exact he1.marker hm ho hidn hid (by simp [ids]) hn'.1 (fun x hx => List.mem_cons_of_mem _ hx) rfl rfl
          (fun h1 h2 h3 => ⟨rfl, h1, h2, h3⟩) (fun h => h)
      | _ => exact hf.elim
theorem runAll_ok {σ : S} {order : List (Inst S V) → List (Inst S V)} (hord : ∀ l, (order l).Perm l) {s : Sub} :
    ∀ (is : List (Inst S V)) {vs : List (View S V)} {b n L R} {p : Nat}, (∀ v ∈ vs, v.Fine) → Good b n → Usable b p → HoldsAll b p is →
    FitsAll vs is → (idsAll is).Nodup → p ∉ idsAll is → b.children p = L ++ topsAll is ++ R →
    ∃ b', Runs b (runAll σ order s is n).2.1 b' ∧
      Ends b n p (· ∈ idsAll is) vs L R (runAll σ order s is n).1 b' (runAll σ order s is n).2.2 ∧
      ∀ t ∈ dueAll σ (runAll σ order s is n).1, t ∈ dueAll σ is ∧ t ≠ s
  | [], [], b, n, L, R, p, _, hg, _, _, _, _, _, hc => by
      refine ⟨b, by simp only [runAll]; exact .nil, ?_, by simp [runAll, dueAll]⟩
      simp only [runAll]
      exact Ends.none _ hg (by simpa [topsAll] using hc)
  | [], _ :: _, _, _, _, _, _, _, _, _, _, hf, _, _, _ => hf.elim
  | _ :: _, [], _, _, _, _, _, _, _, _, _, hf, _, _, _ => hf.elim
  | i :: is, v :: vs, b, n, L, R, p, hv, hg, hp, hh, hf, hn, hpi, hc => by
      simp only [idsAll] at hn hpi
      obtain ⟨hn1, hn2, hdis⟩ := List.nodup_append.mp hn
      simp only [List.mem_append, not_or] at hpi
      obtain ⟨b1, hb1, he1, hd1⟩ := run_ok (σ := σ) hord (s := s) i (L := L) (R := topsAll is ++ R) (hv v (by simp)) hg hp hh.1 hf.1 hn1 hpi.1
        (by rw [hc]; simp [topsAll])
      have hlt : ∀ x : Nat, x ∈ idsAll is → x < n := fun x hx => ids_lt hg hh.2 hx
      have hh1 : HoldsAll b1 p is := HoldsAll.frame _ (fun x hx => by
        have := he1.same x (hlt x hx) (fun h => hdis x h x hx rfl) (fun e => hpi.2 (e ▸ hx))
        exact ⟨this.objects, this.inMap, this.children⟩) hh.2
      obtain ⟨b2, hb2, he2, hd2⟩ := runAll_ok (σ := σ) hord (s := s) is (L := L ++ topsAll [(run σ order s i n).1]) (R := R) (fun w hw => hv w (List.mem_cons_of_mem _ hw))
        he1.good (hp.same he1.but) hh1 hf.2 hn2 hpi.2 (by rw [he1.children]; simp)
      have er : runAll σ order s (i :: is) n = ((run σ order s i n).1 :: (runAll σ order s is (run σ order s i n).2.2).1,
        (run σ order s i n).2.1 ++ (runAll σ order s is (run σ order s i n).2.2).2.1, (runAll σ order s is (run σ order s i n).2.2).2.2) := by
        simp only [runAll]
      rw [er]
      refine ⟨b2, run_append hb1 hb2, ?_, ?_⟩
      · exact he1.right (own := (· ∈ ids i ++ idsAll is)) he2 (fun x hx hx' => hdis x hx x hx' rfl) hlt (fun x hx => List.mem_append.mpr hx) rfl rfl
      · intro t ht
        simp only [dueAll, List.mem_append] at ht ⊢
        rcases ht with ht | ht
        · exact ⟨Or.inl (hd1 t ht).1, (hd1 t ht).2⟩
        · exact ⟨Or.inr (hd2 t ht).1, (hd2 t ht).2⟩
end

end
end Verif.View

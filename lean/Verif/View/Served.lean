import Verif.View.Sent
import Verif.View.Given
/-!
# The document of the server

The commands of an application, in sorted batches, treat html, head and body properly (`Roots`, C27); so the server's document is that of
the browser.
-/
namespace Verif.View
open Verif.Dom Verif.Json

/-! ## The commands, sorted -/

theorem sorted_split : ∀ {batches : List (List Cmd)} {pre rest : List Cmd}, batches.flatten = pre ++ rest → (∀ c ∈ pre, c.isEvent = false) →
    ∃ rest', (batches.map sortCommands).flatten = pre ++ rest' ∧ rest'.Perm rest
  | [], pre, rest, h, _ => by
      obtain ⟨rfl, rfl⟩ := List.append_eq_nil_iff.mp h.symm
      exact ⟨[], rfl, .refl _⟩
  | x :: bs, pre, rest, h, hp => by
      have sorted : ∀ (bs : List (List Cmd)), ((bs.map sortCommands).flatten).Perm bs.flatten := by
        intro bs
        induction bs with
        | nil => exact .refl _
        | cons x bs ih =>
          simp only [List.map_cons, List.flatten_cons]
          refine .append ?_ ih
          rw [C21_sort_is_stable]
          exact (List.perm_append_comm).trans (List.filter_append_perm (·.isEvent) x)
      simp only [List.flatten_cons] at h
      rcases List.append_eq_append_iff.mp h with ⟨l, h1, h2⟩ | ⟨l, h1, h2⟩
      · have hx : sortCommands x = x := by
          rw [C21_sort_is_stable, List.filter_eq_self.mpr, List.filter_eq_nil_iff.mpr, List.append_nil]
          · intro c hc; rw [hp c (by rw [h1]; simp [hc])]; simp
          · intro c hc; rw [hp c (by rw [h1]; simp [hc])]; rfl
        obtain ⟨rest', h3, h4⟩ := sorted_split h2 (fun c hc => hp c (by rw [h1]; simp [hc]))
        exact ⟨rest', by simp only [List.map_cons, List.flatten_cons, hx, h3, h1, List.append_assoc], h4⟩
      · have hx : sortCommands x = pre ++ sortCommands l := by
          rw [C21_sort_is_stable, C21_sort_is_stable, h1, List.filter_append, List.filter_append]
          rw [show pre.filter (fun c => !c.isEvent) = pre from List.filter_eq_self.mpr ?_, show pre.filter (·.isEvent) = [] from List.filter_eq_nil_iff.mpr ?_]
          · simp
          · intro c hc; rw [hp c hc]; simp
          · intro c hc; rw [hp c hc]; rfl
        refine ⟨sortCommands l ++ (bs.map sortCommands).flatten, by simp only [List.map_cons, List.flatten_cons, hx, List.append_assoc], ?_⟩
        rw [h2]
        refine .append ?_ (sorted bs)
        rw [C21_sort_is_stable]
        exact (List.perm_append_comm).trans (List.filter_append_perm (·.isEvent) l)

/-! ## html, head and body -/

/-- html, head and body were created, and head is in its place. -/
structure Opened (r : Roots) : Prop where
  made : ∀ x, isRoot x = true → r.made x = true
  head : r.placed 2 = true

/-- A rule of a style sheet. -/
def IsCss (c : Cmd) : Prop := ∃ a b, c = .insertCss a b

theorem calm_roots : ∀ {cs : List Cmd} {r : Roots}, (∀ c ∈ cs, (Calm c ∨ IsCss c) ∧ ¬ IsRemoveAttr c) → Opened r →
    ∃ r', Roots.run r cs = some r' ∧ Opened r' ∧ (r.placed 3 = true → r'.placed 3 = true) ∧
      (.insertBefore 1 3 none ∈ cs → r'.placed 3 = true)
  | [], r, _, ho => ⟨r, rfl, ho, fun h => h, fun h => by cases h⟩
  | c :: cs, r, h, ho => by
      obtain ⟨hc, hn⟩ := h c List.mem_cons_self
      obtain ⟨r1, h1, ho1, h2, h3⟩ : ∃ r1, r.step c = some r1 ∧ Opened r1 ∧ (r.placed 3 = true → r1.placed 3 = true) ∧
          (c = .insertBefore 1 3 none → r1.placed 3 = true) := by
        rcases hc with (hc | ⟨x, hx, hr⟩ | rfl) | ⟨x, y, rfl⟩
        · have hne : c ≠ .insertBefore 1 3 none := by rintro rfl; exact hc.1.1 rfl
          suffices h : r.step c = some r from ⟨r, h, ho, fun h => h, fun e => absurd e hne⟩
          cases c with
          | createNode id name => simp only [Tidy] at hc; simp [Roots.step, hc]
          | createText id v => simp only [Tidy] at hc; simp [Roots.step, hc]
          | createComment id v => simp only [Tidy] at hc; simp [Roots.step, hc]
          | updateText id v => rfl
          | setAttr id k v => simp only [Tidy] at hc; simp [Roots.step, hc]
          | removeAttr id k => exact absurd trivial hn
          | insertBefore p x ref =>
            obtain ⟨-, h1, h2, h3⟩ := hc
            have hm : (isRoot p && !r.made p) = false := by
              cases hp : isRoot p with
              | false => rfl
              | true => simp [ho.made p hp]
            have hb : r.badRef ref = false := by
              cases ref with
              | none => rfl
              | some y => simp [Roots.badRef, h3 y rfl]
            simp [Roots.step, hm, hb, h1, h2]
          | _ => cases hc
        · suffices h : r.step c = some r from ⟨r, h, ho, fun h => h, fun e => by subst e; cases hx⟩
          cases c <;> simp [Cmd.removes] at hx <;> subst hx <;> simp [Roots.step, hr]
        · refine ⟨{ r with placed := fupd r.placed 3 true }, ?_, ⟨ho.made, by simp [fupd, ho.head]⟩, fun _ => by simp [fupd], fun _ => by simp [fupd]⟩
          simp [Roots.step, Roots.badRef, ho.made 1 rfl, ho.made 3 rfl, isRoot]
        · exact ⟨r, rfl, ho, fun h => h, fun e => by cases e⟩
      obtain ⟨r', h4, ho', h5, h6⟩ := calm_roots (fun c hc => h c (List.mem_cons_of_mem _ hc)) ho1
      refine ⟨r', by rw [Roots.run, h1]; exact h4, ho', fun h => h5 (h2 h), fun hm => ?_⟩
      rcases List.mem_cons.mp hm with e | hm
      · exact h5 (h3 e.symm)
      · exact h6 hm

theorem opening_roots : ∃ r, Roots.run {} opening = some r ∧ Opened r := by
  refine ⟨_, rfl, fun x hx => ?_, rfl⟩
  rcases isRoot_iff.mp hx with rfl | rfl | rfl <;> rfl

theorem roots_append : ∀ (l l' : List Cmd) (r : Roots), Roots.run r (l ++ l') = (Roots.run r l).bind fun r => Roots.run r l'
  | [], l', r => rfl
  | c :: l, l', r => by
      simp only [List.cons_append, Roots.run]
      cases r.step c with
      | none => rfl
      | some r => exact roots_append l l' r

/-- html, head and body as they are at the beginning, except for what is in the body. -/
structure Bare (b : Browser) : Prop where
  objects : ∀ x, isRoot x = true → b.objects x = Browser.init.objects x
  head : b.children 2 = []

theorem bare_init : Bare Browser.init := ⟨fun _ _ => rfl, rfl⟩

theorem bare_create {b b' : Browser} (h : Bare b) {id o} (hs : b.create id o = .ok b') : Bare b' := by
  unfold Browser.create at hs
  split at hs
  · cases hs; exact h
  · rename_i hr
    split at hs
    · cases hs
    · cases hs
      refine ⟨fun x hx => ?_, h.head⟩
      have : x ≠ id := by rintro rfl; exact hr hx
      simp only [fupd, this, if_false]; exact h.objects x hx

theorem bare_over {b : Browser} (h : Bare b) {id : Id} (o : Dom.Content) (hr : isRoot id = false) : Bare { b with objects := fupd b.objects id (some o) } := by
  refine ⟨fun x hx => ?_, h.head⟩
  have : x ≠ id := by rintro rfl; rw [hr] at hx; cases hx
  simp only [fupd, this, if_false]; exact h.objects x hx

theorem bare_detach {b : Browser} (h : Bare b) (c : Id) : Bare (b.detach c) := by
  unfold Browser.detach
  split
  · exact h
  · refine ⟨h.objects, ?_⟩
    simp only [fupd]
    split
    · rename_i p _ e; subst e; rw [h.head]; rfl
    · exact h.head

theorem bare_insert {b b' : Browser} (h : Bare b) {p c ref} (hp : p ≠ 2) (hs : b.insertBefore p c ref = .ok b') : Bare b' := by
  have key : ∀ l, Bare { b.detach c with parent := fupd (b.detach c).parent c (some p), children := fupd (b.detach c).children p l } := by
    intro l
    have := bare_detach h c
    refine ⟨this.objects, ?_⟩
    simp only [fupd, Ne.symm hp, if_false]
    exact this.head
  unfold Browser.insertBefore at hs
  split at hs
  · split at hs
    · cases hs
    · split at hs
      · cases hs; exact key _
      · split at hs
        · cases hs
        · split at hs
          · cases hs; exact h
          · cases hs; exact key _
  · cases hs

/-- The commands of applications. -/
def Quiet (c : Cmd) : Prop := (Calm c ∨ c ∈ opening) ∨ IsCss c

theorem bare_step {b b' : Browser} (h : Bare b) {c : Cmd} (hc : Quiet c) (hs : b.step c = .ok b') : Bare b' := by
  cases c with
  | createNode id name => exact bare_create h hs
  | createText id v => exact bare_create h hs
  | createComment id v => exact bare_create h hs
  | updateText id v =>
    simp only [Browser.step] at hs
    split at hs
    · rename_i t ht
      cases hs
      refine bare_over h _ ?_
      cases hr : isRoot id with
      | false => rfl
      | true =>
        have := (get_of ht).1
        rw [h.objects id hr] at this
        rcases isRoot_iff.mp hr with rfl | rfl | rfl <;> simp [Browser.init] at this
    · cases hs
  | setAttr id k v =>
    have hr : isRoot id = false := by
      rcases hc with ((hc | ⟨x, hc, -⟩ | hc) | hc) | ⟨_, _, hc⟩
      · exact hc
      · cases hc
      · cases hc
      · simp [opening] at hc
      · cases hc
    simp only [Browser.step] at hs
    split at hs <;> cases hs
    exact bare_over h _ hr
  | removeAttr id k =>
    have hr : isRoot id = false := by
      rcases hc with ((hc | ⟨x, hc, -⟩ | hc) | hc) | ⟨_, _, hc⟩
      · exact hc
      · cases hc
      · cases hc
      · simp [opening] at hc
      · cases hc
    simp only [Browser.step] at hs
    split at hs <;> cases hs
    exact bare_over h _ hr
  | removeNode id =>
    simp only [Browser.step, Browser.remove] at hs
    split at hs <;> cases hs
    exact bare_detach (b := { b with inMap := fupd b.inMap id false }) ⟨h.objects, h.head⟩ id
  | removeText id =>
    simp only [Browser.step, Browser.remove] at hs
    split at hs <;> cases hs
    exact bare_detach (b := { b with inMap := fupd b.inMap id false }) ⟨h.objects, h.head⟩ id
  | removeComment id =>
    simp only [Browser.step, Browser.remove] at hs
    split at hs <;> cases hs
    exact bare_detach (b := { b with inMap := fupd b.inMap id false }) ⟨h.objects, h.head⟩ id
  | insertBefore p x ref =>
    refine bare_insert h ?_ (insert_get hs).2
    rcases hc with ((hc | ⟨x, hc, -⟩ | hc) | hc) | ⟨_, _, hc⟩
    · exact hc.1.2
    · cases hc
    · cases hc; decide
    on_goal 2 => cases hc
    · simp only [opening, List.mem_cons, List.not_mem_nil, or_false, reduceCtorEq, false_or, Cmd.insertBefore.injEq] at hc
      rw [hc.1]; decide
  | insertCss k v => cases hs; exact ⟨h.objects, h.head⟩
  | callbackAdd id e cb => exfalso; rcases hc with ((hc | ⟨x, hc, -⟩ | hc) | hc) | ⟨_, _, hc⟩ <;> first | (simp [opening] at hc) | cases hc
  | callbackRemove id e cb => exfalso; rcases hc with ((hc | ⟨x, hc, -⟩ | hc) | hc) | ⟨_, _, hc⟩ <;> first | (simp [opening] at hc) | cases hc

theorem css_step {b b' : Browser} {c : Cmd} (hc : ¬ IsCss c) (hs : b.step c = .ok b') : b'.css = b.css := by
  have detach : ∀ (b : Browser) x, (b.detach x).css = b.css := by
    intro b x
    unfold Browser.detach
    split <;> rfl
  have create : ∀ id o, b.create id o = .ok b' → b'.css = b.css := by
    intro id o hs
    unfold Browser.create at hs
    split at hs
    · cases hs; rfl
    · split at hs <;> cases hs
      rfl
  have remove : ∀ id, b.remove id = .ok b' → b'.css = b.css := by
    intro id hs
    unfold Browser.remove at hs
    split at hs <;> cases hs
    exact detach _ _
  cases c with
  | createNode id name => exact create _ _ hs
  | createText id v => exact create _ _ hs
  | createComment id v => exact create _ _ hs
  | updateText id v => simp only [Browser.step] at hs; split at hs <;> cases hs; rfl
  | setAttr id k v => simp only [Browser.step] at hs; split at hs <;> cases hs; rfl
  | removeAttr id k => simp only [Browser.step] at hs; split at hs <;> cases hs; rfl
  | removeNode id => exact remove _ hs
  | removeText id => exact remove _ hs
  | removeComment id => exact remove _ hs
  | insertBefore p c ref =>
    have h2 := (insert_get hs).2
    unfold Browser.insertBefore at h2
    split at h2
    · split at h2
      · cases h2
      · split at h2
        · cases h2; exact detach _ _
        · split at h2
          · cases h2
          · split at h2
            · cases h2; rfl
            · cases h2; exact detach _ _
    · cases h2
  | insertCss k v => exact absurd ⟨k, v, rfl⟩ hc
  | callbackAdd id e cb =>
    simp only [Browser.step] at hs
    split at hs
    · cases hs; rfl
    · split at hs <;> cases hs
      rfl
  | callbackRemove id e cb =>
    simp only [Browser.step] at hs
    split at hs
    · split at hs <;> cases hs
      rfl
    · cases hs; rfl

theorem bare_run : ∀ {cs : List Cmd} {b b' : Browser}, Bare b → (∀ c ∈ cs, Quiet c) → b.run cs = .ok b' → Bare b'
  | [], b, b', h, _, hs => by cases hs; exact h
  | c :: cs, b, b', h, hc, hs => by
      simp only [Browser.run] at hs
      split at hs
      · cases hs
      · rename_i b1 h1
        exact bare_run (bare_step h (hc c List.mem_cons_self) h1) (fun c h => hc c (List.mem_cons_of_mem _ h)) hs

/-! ## Ids -/

theorem objects_step {b b' : Browser} {c : Cmd} (hs : b.step c = .ok b') {x} (h : b.objects x ≠ none) : b'.objects x ≠ none := by
  have over : ∀ (id : Id) (o : Dom.Content), fupd b.objects id (some o) x ≠ none := by
    intro id o; simp only [fupd]; split
    · simp
    · exact h
  have removed : ∀ id, b.remove id = .ok b' → b'.objects x ≠ none := by
    intro id hr
    unfold Browser.remove at hr
    split at hr <;> cases hr
    rw [detach_objects]; exact h
  cases c with
  | createNode id name => exact ((create_sends hs).2.2 x h).1
  | createText id v => exact ((create_sends hs).2.2 x h).1
  | createComment id v => exact ((create_sends hs).2.2 x h).1
  | updateText id v => simp only [Browser.step] at hs; split at hs <;> cases hs; exact over _ _
  | setAttr id k v => simp only [Browser.step] at hs; split at hs <;> cases hs; exact over _ _
  | removeAttr id k => simp only [Browser.step] at hs; split at hs <;> cases hs; exact over _ _
  | removeNode id => exact removed id hs
  | removeText id => exact removed id hs
  | removeComment id => exact removed id hs
  | insertBefore p c ref =>
    have h2 := (insert_get hs).2
    unfold Browser.insertBefore at h2
    split at h2
    · split at h2
      · cases h2
      · split at h2
        · cases h2; rw [show _ = b.objects from detach_objects b c]; exact h
        · split at h2
          · cases h2
          · split at h2
            · cases h2; exact h
            · cases h2; rw [show _ = b.objects from detach_objects b c]; exact h
    · cases h2
  | insertCss k v => cases hs; exact h
  | callbackAdd id e cb =>
    simp only [Browser.step] at hs
    split at hs
    · cases hs; exact h
    · split at hs <;> cases hs
      exact h
  | callbackRemove id e cb =>
    simp only [Browser.step] at hs
    split at hs
    · split at hs <;> cases hs
      exact h
    · cases hs; exact h

theorem objects_run : ∀ {cs : List Cmd} {b b' : Browser}, b.run cs = .ok b' → ∀ {x}, b.objects x ≠ none → b'.objects x ≠ none
  | [], b, b', hs, x, h => by cases hs; exact h
  | c :: cs, b, b', hs, x, h => by
      simp only [Browser.run] at hs
      split at hs
      · cases hs
      · rename_i b1 h1; exact objects_run hs (objects_step h1 h)

/-- The ids in a command that is executed are those of nodes. -/
theorem ids_step {b b' : Browser} (hi : BInv b) {c : Cmd} (hq : Quiet c) (hs : b.step c = .ok b') {n : Nat} (hn : n ≤ 2 ^ 53)
    (hlt : ∀ x : Nat, b'.objects x ≠ none → x < n) : IdsSmall c := by
  have small : ∀ x : Nat, b'.objects x ≠ none → x < 2 ^ 53 := fun x hx => Nat.lt_of_lt_of_le (hlt x hx) hn
  have got : ∀ {x o}, b.get x = some o → x < 2 ^ 53 := fun h => small _ (objects_step hs (by rw [(get_of h).1]; simp))
  have made : ∀ {id o}, b.create id o = .ok b' → id < 2 ^ 53 := by
    intro id o h
    refine small id ?_
    unfold Browser.create at h
    split at h
    · rename_i hr; cases h; obtain ⟨n, a, e⟩ := hi.roots id hr; rw [e]; simp
    · split at h
      · cases h
      · cases h; simp [fupd]
  have removed : ∀ id, b.remove id = .ok b' → id < 2 ^ 53 := by
    intro id hr
    unfold Browser.remove at hr
    split at hr
    · cases hr
    · rename_i o ho; exact got ho
  cases c with
  | createNode id name => exact made hs
  | createText id v => exact made hs
  | createComment id v => exact made hs
  | updateText id v =>
    have hs' := hs
    simp only [Browser.step] at hs'; split at hs' <;> cases hs'
    rename_i t ht; exact got ht
  | setAttr id k v =>
    have hs' := hs
    simp only [Browser.step] at hs'; split at hs' <;> cases hs'
    rename_i ht; exact got ht
  | removeAttr id k =>
    have hs' := hs
    simp only [Browser.step] at hs'; split at hs' <;> cases hs'
    rename_i ht; exact got ht
  | removeNode id => exact removed id hs
  | removeText id => exact removed id hs
  | removeComment id => exact removed id hs
  | insertBefore p c ref =>
    have hs' := hs
    simp only [Browser.step] at hs'
    split at hs'
    · rename_i h1 h2
      refine ⟨got h1, got h2, fun x hx => ?_⟩
      subst hx
      simp only at hs'
      split at hs'
      · cases hs'
      · rename_i h3
        cases e : b.get x with
        | none => rw [e] at h3; exact absurd rfl h3
        | some o => exact got e
    · cases hs'
  | insertCss k v => trivial
  | callbackAdd id e cb => exfalso; rcases hq with ((hc | ⟨x, hc, -⟩ | hc) | hc) | ⟨_, _, hc⟩ <;> first | (simp [opening] at hc) | cases hc
  | callbackRemove id e cb => exfalso; rcases hq with ((hc | ⟨x, hc, -⟩ | hc) | hc) | ⟨_, _, hc⟩ <;> first | (simp [opening] at hc) | cases hc

theorem ids_run {n : Nat} (hn : n ≤ 2 ^ 53) : ∀ {cs : List Cmd} {b b' : Browser}, BInv b → (∀ c ∈ cs, Quiet c) → b.run cs = .ok b' →
    (∀ x : Nat, b'.objects x ≠ none → x < n) → ∀ c ∈ cs, IdsSmall c
  | [], b, b', _, _, _, _, c, hc => by cases hc
  | d :: cs, b, b', hi, hq, hs, hlt, c, hc => by
      simp only [Browser.run] at hs
      split at hs
      · cases hs
      · rename_i b1 h1
        rcases List.mem_cons.mp hc with rfl | hc
        · exact ids_step hi (hq _ List.mem_cons_self) h1 hn fun x hx => hlt x (objects_run hs hx)
        · exact ids_run hn (hi.step h1) (fun c h => hq c (List.mem_cons_of_mem _ h)) hs hlt c hc

theorem Stays.quiet {all next b} (h : Stays all next b) : ∀ c ∈ all, Quiet c := by
  obtain ⟨rest, e, hc, -⟩ := h.split
  intro c hm
  rw [e] at hm
  rcases List.mem_append.mp hm with hm | hm
  · exact Or.inl (Or.inr hm)
  · exact Or.inl (Or.inl (hc c hm))

theorem Stays.bare {all next b} (h : Stays all next b) : Bare b :=
  bare_run bare_init h.quiet h.run

theorem Stays.small {all next b} (h : Stays all next b) (hn : next ≤ 2 ^ 53) :
    ∀ c ∈ all, IdsSmall c :=
  ids_run hn binv_init h.quiet h.run fun x hx => by
    apply Nat.lt_of_not_le
    intro hle
    exact hx (h.good.fresh x hle)

/-- The sorted batches treat html, head and body properly. -/
theorem roots_of {all rest : List Cmd} (e : all = opening ++ rest) (hall : ∀ c ∈ rest, (Calm c ∨ IsCss c) ∧ ¬ IsRemoveAttr c)
    (hm : .insertBefore 1 3 none ∈ rest) {batches : List (List Cmd)} (hb : batches.flatten = all) :
    ∃ r, Roots.run {} (batches.map sortCommands).flatten = some r ∧ r.complete := by
  have hev : ∀ c ∈ opening, c.isEvent = false := by
    intro c hc
    simp only [opening, List.mem_cons, List.not_mem_nil, or_false] at hc
    rcases hc with rfl | rfl | rfl | rfl <;> rfl
  obtain ⟨rest', h1, h2⟩ := sorted_split (hb.trans e) hev
  obtain ⟨r0, h3, ho⟩ := opening_roots
  obtain ⟨r, h4, ho', -, h5⟩ := calm_roots (fun c hx => hall c (h2.mem_iff.mp hx)) ho
  exact ⟨r, by rw [h1, roots_append, h3]; exact h4, ho'.made 1 rfl, ho'.head, h5 (h2.mem_iff.mpr hm)⟩

theorem Stays.roots {all next b} (h : Stays all next b) (hcl : Clean all)
    {batches : List (List Cmd)} (hb : batches.flatten = all) :
    ∃ r, Roots.run {} (batches.map sortCommands).flatten = some r ∧ r.complete := by
  obtain ⟨rest, e, hc, hm⟩ := h.split
  exact roots_of e (fun c hx => ⟨Or.inl (hc c hx), hcl c (by rw [e]; exact List.mem_append_right _ hx)⟩) hm hb

/-- Without styles there are no rules. -/
theorem Stays.css {all next b} (h : Stays all next b) : b.css = [] := by
  have key : ∀ {cs : List Cmd} {b b' : Browser}, (∀ c ∈ cs, ¬ IsCss c) → b.run cs = .ok b' → b'.css = b.css := by
    intro cs
    induction cs with
    | nil => intro b b' _ hs; cases hs; rfl
    | cons c cs ih =>
      intro b b' hc hs
      simp only [Browser.run] at hs
      split at hs
      · cases hs
      · rename_i b1 h1
        rw [ih (fun c h => hc c (List.mem_cons_of_mem _ h)) hs]
        exact css_step (hc c List.mem_cons_self) h1
  refine key ?_ h.run
  obtain ⟨rest, e, hc, -⟩ := h.split
  rintro c hm ⟨x, y, rfl⟩
  rw [e] at hm
  rcases List.mem_append.mp hm with hm | hm
  · simp [opening] at hm
  · rcases hc _ hm with h | ⟨_, h, -⟩ | h <;> cases h

end Verif.View

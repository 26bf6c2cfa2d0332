import Verif.Whole.Model
/-!
# C70: subscriptions are opened and closed
-/
namespace Verif.Whole
open Verif.Reactive Verif.View

variable {W : Type}

/-- The subscriptions are the same, up to `ready`. -/
def Dim (s s' : St W) : Prop := ∀ c, s'.clients c = s.clients c ∨ ∃ cl, s.clients c = some cl ∧ s'.clients c = some { cl with ready := false }

theorem Dim.of_eq {s s' : St W} (h : s'.clients = s.clients) : Dim s s' := fun c => Or.inl (by rw [h])

theorem dim_setParents {s s' : St W} {X N} (h : s.setParents X N = .ok s') : Dim s s' := by
  unfold St.setParents at h
  split at h <;> cases h
  rename_i conn info _
  intro c
  rw [applyInfo_clients]
  split
  · cases hc : s.clients c with
    | none => left; simp
    | some cl => right; exact ⟨cl, rfl, by simp⟩
  · exact Or.inl rfl

/-- What a link looks like in the core. -/
theorem Dim.fwd {s s' : St W} (h : Dim s s') {c cl} (hc : s.clients c = some cl) :
    ∃ cl', s'.clients c = some cl' ∧ cl'.target = cl.target ∧ cl'.prev = cl.prev ∧ (cl.ready = false → cl'.ready = false) := by
  rcases h c with h | ⟨d, h1, h2⟩
  · exact ⟨cl, by rw [h, hc], rfl, rfl, id⟩
  · rw [hc] at h1; cases h1; exact ⟨_, h2, rfl, rfl, fun _ => rfl⟩

theorem Dim.bwd {s s' : St W} (h : Dim s s') {c cl'} (hc : s'.clients c = some cl') :
    ∃ cl, s.clients c = some cl ∧ cl'.running = cl.running ∧ cl'.dropReq = cl.dropReq ∧ (cl.ready = false → cl'.ready = false) := by
  rcases h c with h | ⟨d, h1, h2⟩
  · exact ⟨cl', by rw [← h, hc], rfl, rfl, id⟩
  · rw [hc] at h2; cases h2; exact ⟨_, h1, rfl, rfl, fun _ => rfl⟩

theorem den_mono {vals vals' : GraphId → Option W} {defs defs' : GraphId → Option (Prog W)} (hv : ∀ x v, vals x = some v → vals' x = some v)
    (hd : ∀ x p, defs x = some p → defs' x = some p) {x v} (h : Den vals defs x v) : Den vals' defs' x v := by
  induction h with
  | value h1 h2 => exact .value h1 (hv _ _ h2)
  | computed h1 h2 _ ih => exact .computed h1 (hd _ _ h2) ih
  | ret => exact .ret
  | read _ _ ih1 ih2 => exact .read ih1 ih2

/-! ## The log -/

/-- Every first run is over. -/
def Done (log : List (Ev W)) : Prop := ∀ pre c t a post, log = pre ++ .subscribed c t a :: post → .ran c ∈ post

/-- The first runs of all subscriptions are quiet. -/
def Quiet (log : List (Ev W)) : Prop := ∀ c, FirstRunQuiet c log

theorem split_append {log k pre post : List (Ev W)} {e} (h : log ++ k = pre ++ e :: post) :
    (∃ post', log = pre ++ e :: post' ∧ post = post' ++ k) ∨ ∃ pre', k = pre' ++ e :: post ∧ pre = log ++ pre' := by
  rcases List.append_eq_append_iff.mp h with ⟨x, h1, h2⟩ | ⟨x, h1, h2⟩
  · exact Or.inr ⟨x, h2, h1⟩
  · cases x with
    | nil => exact Or.inr ⟨[], by simpa using h2.symm, by simpa using h1.symm⟩
    | cons y x =>
      simp only [List.cons_append, List.cons.injEq] at h2
      obtain ⟨rfl, rfl⟩ := h2
      exact Or.inl ⟨x, h1, rfl⟩

theorem Quiet.calm {log k : List (Ev W)} (h : Quiet log) (hk : ∀ e ∈ k, e.disturbs = false) : Quiet (log ++ k) := by
  intro c pre t a mid post hl hr e he
  rcases split_append hl with ⟨post', h1, h2⟩ | ⟨pre', h1, -⟩
  · rcases List.append_eq_append_iff.mp h2 with ⟨x, h3, h4⟩ | ⟨x, h3, h4⟩
    · exact h c pre t a mid x (by rw [h1, h3]) hr e he
    · subst h3
      rcases List.mem_append.mp he with he | he
      · exact h c pre t a post' [] (by simpa using h1) (fun h => hr (List.mem_append_left _ h)) e he
      · exact hk e (by rw [h4]; exact List.mem_append_left _ he)
  · exact hk e (by rw [h1]; simp [he])

theorem Quiet.done {log k : List (Ev W)} (h : Quiet log) (hd : Done log) (hk : ∀ c t a, .subscribed c t a ∉ k) : Quiet (log ++ k) := by
  intro c pre t a mid post hl hr e he
  rcases split_append hl with ⟨post', h1, h2⟩ | ⟨pre', h1, -⟩
  · rcases List.append_eq_append_iff.mp h2 with ⟨x, h3, h4⟩ | ⟨x, h3, h4⟩
    · exact h c pre t a mid x (by rw [h1, h3]) hr e he
    · subst h3
      exact absurd (List.mem_append_left _ (hd pre c t a post' h1)) hr
  · exact absurd (by rw [h1]; simp) (hk c t a)

theorem Done.ext {log k : List (Ev W)} (h : Done log) (hk : ∀ c t a, .subscribed c t a ∉ k) : Done (log ++ k) := by
  intro pre c t a post hl
  rcases split_append hl with ⟨post', h1, h2⟩ | ⟨pre', h1, -⟩
  · rw [h2]; exact List.mem_append_left _ (h pre c t a post' h1)
  · exact absurd (by rw [h1]; simp) (hk c t a)

theorem isConn_disturbs {e : Ev W} (h : e.isConn = true) : e.disturbs = false := by cases e <;> simp [Ev.isConn] at h <;> rfl
theorem isConn_defined {k : List (Ev W)} (h : ∀ e ∈ k, e.isConn = true) (id p) : .defined id p ∉ k := fun hm => by simpa [Ev.isConn] using h _ hm
theorem isConn_subscribed {k : List (Ev W)} (h : ∀ e ∈ k, e.isConn = true) (c t a) : .subscribed c t a ∉ k := fun hm => by simpa [Ev.isConn] using h _ hm

/-- All computeds made so far are in `D`. -/
def Within (D : GraphId → Prog W → Prop) (log : List (Ev W)) : Prop := ∀ id p, .defined id p ∈ log → D id p

theorem static_ext {D} {log k : List (Ev W)} (h : Within D log) (hk : ∀ id p, .defined id p ∉ k) : Within D (log ++ k) := fun id p hm =>
  (List.mem_append.mp hm).elim (h id p) fun h' => absurd h' (hk id p)

variable [DecidableEq W]

/-- What observing does to a core whose conditional dependencies are private. -/
theorem observe_facts {D} {s s' : St W} {lim id o} (hD : Private D) (hg : Good s) (hsi : SI D s) (h : s.observe lim id = .ok (s', o)) :
    ∃ cl v k, s.clients id = some cl ∧ s'.clients = upd s.clients id (some { cl with prev := some v }) ∧ s'.vals = s.vals ∧ s'.defs = s.defs ∧
      s'.log = s.log ++ k ∧ (∀ e ∈ k, e.disturbs = false) ∧ (∀ c t a, .subscribed c t a ∉ k) ∧ (∀ id p, .defined id p ∉ k) ∧
      Scratch s.vals s.defs cl.target v ∧ (o = some v ∨ o = none ∧ cl.prev = some v) := by
  obtain ⟨cl, s1, v, cl1, h1, h2, h3, h4⟩ := observe_cases h
  have hr := getNode_evalRel hg (stackOK_nil s) h2
  have hG := good_get hg h2
  have k1 := getNode_kept hD _ _ _ _ _ _ hg (stackOK_nil s) hsi (fun x hx => by cases hx) h2
  obtain ⟨k, l1, l2⟩ := hr.log
  have hcl : cl = cl1 := by rw [hr.clients, h1] at h3; exact Option.some.inj h3
  subst hcl
  have hsc : Scratch s.vals s.defs cl.target v := by
    have := hG.scratch (k1.si.clean _ hG.src.not_client)
    rwa [hG.same.vals, hG.same.defs] at this
  rcases h4 with ⟨_, rfl, rfl⟩ | ⟨_, hp, rfl, rfl⟩
  · refine ⟨cl, v, k ++ [.deliver id v (!s1.taint cl.target) s1.vals s1.defs], h1, by simp [St.emit, hr.clients], hG.same.vals, hG.same.defs,
      by simp [St.emit, l1], ?_, ?_, ?_, hsc, Or.inl rfl⟩
    · intro e he
      rcases List.mem_append.mp he with he | he
      · exact isConn_disturbs (l2 e he)
      · rw [List.mem_singleton.mp he]; rfl
    · intro c t a hm
      rcases List.mem_append.mp hm with he | he
      · exact isConn_subscribed l2 c t a he
      · simp at he
    · intro i p hm
      rcases List.mem_append.mp hm with he | he
      · exact isConn_defined l2 i p he
      · simp at he
  · exact ⟨cl, v, k, h1, by simp [hr.clients], hG.same.vals, hG.same.defs, l1, fun e he => isConn_disturbs (l2 e he), isConn_subscribed l2,
      isConn_defined l2, hsc, Or.inr ⟨rfl, hp⟩⟩

theorem finishRun_facts {s s' : St W} {id} (h : s.finishRun id = .ok s') :
    ∃ cl s1 k, s.clients id = some cl ∧ Dim s s1 ∧ s'.clients = upd s1.clients id (some { cl with ready := true, running := false }) ∧
      s'.vals = s.vals ∧ s'.defs = s.defs ∧ s'.log = s.log ++ (k ++ [.ran id]) ∧ ∀ e ∈ k, e.isConn = true := by
  have hsame := same_finishRun h
  obtain ⟨cl, s1, h1, -, -, h2, rfl⟩ := finishRun_cases h
  obtain ⟨k, l1, l2⟩ := setParents_log h2
  exact ⟨cl, s1, k, h1, dim_setParents h2, rfl, hsame.vals, hsame.defs, by simp [St.emit, l1], l2⟩

omit [DecidableEq W] in
theorem dropOne_facts {s s' : St W} {id} (h : s.dropOne id = .ok s') :
    ∃ s1 k, s1.clients = upd s.clients id none ∧ Dim s1 s' ∧ s'.vals = s.vals ∧ s'.defs = s.defs ∧
      s'.log = s.log ++ (.dropped id :: k) ∧ ∀ e ∈ k, e.isConn = true := by
  have hsame := same_dropOne h
  unfold St.dropOne at h
  obtain ⟨k, l1, l2⟩ := setParents_log h
  exact ⟨_, k, rfl, dim_setParents h, hsame.vals, hsame.defs, by rw [l1]; simp [St.emit], l2⟩

end Verif.Whole

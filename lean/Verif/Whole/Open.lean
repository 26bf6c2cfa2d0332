import Verif.Whole.Fill
import Verif.Whole.Uniq
/-!
# C70: what holds while subscriptions are opened and closed
-/
namespace Verif.Whole
open Verif.Reactive Verif.View

variable {V : Type}

/-- The subscription `e` of a node is a subscription of the core, which has last seen what the node shows. -/
def Linked (D : GraphId → Prog (Val V) → Prop) (s : St (Val V)) (l : Links) (e : Fact (State V) V) : Prop :=
  ∃ c cl, (e.sub, c) ∈ l ∧ s.clients c = some cl ∧ Stands s.defs cl.target e.f ∧ cl.prev = some e.last ∧ Steady D cl.target

/-- The computed does not depend on the state. -/
def Const (e : Fact (State V) V) : Prop := ∀ σ, e.f σ = e.last

theorem Stands.mono {defs defs' : GraphId → Option (Prog (Val V))} {d f} (h : Stands defs d f) (hd : ∀ x p, defs x = some p → defs' x = some p) :
    Stands defs' d f := ⟨h.1, fun σ => den_mono (fun _ _ h => h) hd (h.2 σ)⟩

theorem Stands.value {s : St (Val V)} {d f v} (h : Stands s.defs d f) (hv : Scratch s.vals s.defs d v) : v = f (contents s) :=
  (den_mono (fun x w h => by simp [contents, h]) (fun _ _ h => h) hv).det (h.2 (contents s))

theorem Linked.mono {D} {s s' : St (Val V)} {l l' : Links} {e : Fact (State V) V} (h : Linked D s l e)
    (hc : ∀ c cl, (e.sub, c) ∈ l → s.clients c = some cl → (e.sub, c) ∈ l' ∧ ∃ cl', s'.clients c = some cl' ∧ cl'.target = cl.target ∧ cl'.prev = cl.prev)
    (hd : ∀ x p, s.defs x = some p → s'.defs x = some p) : Linked D s' l' e := by
  obtain ⟨c, cl, h1, h2, h3, h4, h5⟩ := h
  obtain ⟨g1, cl', g2, g3, g4⟩ := hc c cl h1 h2
  exact ⟨c, cl', g1, g2, by rw [g3]; exact h3.mono hd, by rw [g4]; exact h4, by rw [g3]; exact h5⟩

variable [DecidableEq V]

/-- What holds while subscriptions are opened. `P`: the subscription that is being refreshed, if any. -/
structure FI (D : GraphId → Prog (Val V) → Prop) (lim : Nat) (P : GraphId → Prop) (s : St (Val V)) (l : Links) : Prop where
  star : Star (Step lim) {} s
  static : Within D s.log
  quiet : Quiet s.log
  pend : ∀ pre c t a post, s.log = pre ++ .subscribed c t a :: post → .ran c ∈ post ∨ ∃ cl, s.clients c = some cl ∧ cl.ready = false
  flags : ∀ c cl, s.clients c = some cl → cl.dropReq = false ∧ (cl.running = true → cl.ready = false ∨ P c)
  n1 : (l.map (·.1)).Nodup
  n2 : (l.map (·.2)).Nodup
  live : ∀ p ∈ l, ∃ cl, s.clients p.2 = some cl
  owned : ∀ c cl, s.clients c = some cl → c ∈ l.map (·.2)

omit [DecidableEq V] in
theorem pend_ext {s s' : St (Val V)} {k}
    (h : ∀ pre c t a post, s.log = pre ++ .subscribed c t a :: post → .ran c ∈ post ∨ ∃ cl, s.clients c = some cl ∧ cl.ready = false)
    (hl : s'.log = s.log ++ k) (hk : ∀ c t a, .subscribed c t a ∉ k)
    (hc : ∀ c cl, s.clients c = some cl → cl.ready = false → .ran c ∈ k ∨ ∃ cl', s'.clients c = some cl' ∧ cl'.ready = false) :
    ∀ pre c t a post, s'.log = pre ++ .subscribed c t a :: post → .ran c ∈ post ∨ ∃ cl, s'.clients c = some cl ∧ cl.ready = false := by
  intro pre c t a post he
  rw [hl] at he
  rcases split_append he with ⟨post', h1, h2⟩ | ⟨pre', h1, -⟩
  · rcases h pre c t a post' h1 with h3 | ⟨cl, h3, h4⟩
    · left; rw [h2]; exact List.mem_append_left _ h3
    · rcases hc c cl h3 h4 with h5 | h5
      · left; rw [h2]; exact List.mem_append_right _ h5
      · exact Or.inr h5
  · exact absurd (by rw [h1]; simp) (hk c t a)

theorem fill_computed {D lim P} {s : St (Val V)} {l : Links} (h : FI D lim P s l) {p : Prog (Val V)} (hp : D ⟨.computed, s.next⟩ p) :
    FI D lim P (s.addComputed p) l ∧ ∀ x q, s.defs x = some q → (s.addComputed p).defs x = some q := by
  have hg := (static_star h.star).1.good
  refine ⟨⟨h.star.tail (.micro (.newComputed s p)), ?_, h.quiet.calm (k := [_]) (by simp [Ev.disturbs]),
    pend_ext (k := [_]) h.pend rfl (by simp) (fun c cl h1 h2 => Or.inr ⟨cl, h1, h2⟩), h.flags, h.n1, h.n2, h.live, h.owned⟩, ?_⟩
  · intro id q hm
    rcases List.mem_append.mp hm with hm | hm
    · exact h.static id q hm
    · simp only [List.mem_singleton, Ev.defined.injEq] at hm
      obtain ⟨rfl, rfl⟩ := hm
      exact hp
  · intro x q hx
    have := hg.base.dkind x (by rw [hx]; simp)
    simp only [St.addComputed, St.emit]
    rw [upd_ne _ (by rintro rfl; exact absurd this.2 (Nat.lt_irrefl _))]
    exact hx

theorem fill_over {D lim P} {s s' : St (Val V)} {l : Links} (h : FI D lim P s l) {c cl} (hc : s.clients c = some cl) (hf : s.finishRun c = .ok s') :
    FI D lim P s' l ∧ s'.vals = s.vals ∧ s'.defs = s.defs ∧
      (∀ x cx, s.clients x = some cx → ∃ cx', s'.clients x = some cx' ∧ cx'.target = cx.target ∧ cx'.prev = cx.prev) ∧
      ∀ cx, s'.clients c = some cx → cx.running = false := by
  obtain ⟨cl', s1, k, h1, h2, h3, h4, h5, h6, h7⟩ := finishRun_facts hf
  rw [hc] at h1; cases h1
  have hfwd : ∀ x cx, s.clients x = some cx → ∃ cx', s'.clients x = some cx' ∧ cx'.target = cx.target ∧ cx'.prev = cx.prev := by
    intro x cx hx
    by_cases hxc : x = c
    · subst hxc; rw [hc] at hx; cases hx
      exact ⟨{ cl with ready := true, running := false }, by rw [h3, upd_same], rfl, rfl⟩
    · obtain ⟨cx', g1, g2, g3, -⟩ := h2.fwd hx
      exact ⟨cx', by rw [h3, upd_ne _ hxc, g1], g2, g3⟩
  have hsub : ∀ c' t a, .subscribed c' t a ∉ k ++ [.ran c] := by
    intro c' t a hm
    rcases List.mem_append.mp hm with hm | hm
    · exact isConn_subscribed h7 _ _ _ hm
    · simp at hm
  refine ⟨⟨h.star.tail (.micro (.finishRun hc (h.flags c cl hc).1 hf)), ?_, ?_, pend_ext h.pend h6 hsub ?_, ?_, h.n1, h.n2, ?_, ?_⟩, h4, h5, hfwd, ?_⟩
  · rw [h6]
    refine static_ext h.static fun id p hm => ?_
    rcases List.mem_append.mp hm with hm | hm
    · exact isConn_defined h7 _ _ hm
    · simp at hm
  · rw [h6]
    refine h.quiet.calm fun e he => ?_
    rcases List.mem_append.mp he with he | he
    · exact isConn_disturbs (h7 e he)
    · rw [List.mem_singleton.mp he]; rfl
  · intro x cx hx hr
    by_cases hxc : x = c
    · left; subst hxc; simp
    · obtain ⟨cx', g1, -, -, g4⟩ := h2.fwd hx
      exact Or.inr ⟨cx', by rw [h3, upd_ne _ hxc, g1], g4 hr⟩
  · intro x cx hx
    by_cases hxc : x = c
    · subst hxc
      rw [h3, upd_same] at hx; cases hx
      exact ⟨(h.flags x cl hc).1, by simp⟩
    · rw [h3, upd_ne _ hxc] at hx
      obtain ⟨cx', g1, g2, g3, g4⟩ := h2.bwd hx
      refine ⟨by rw [g3]; exact (h.flags x cx' g1).1, fun hr => ?_⟩
      exact ((h.flags x cx' g1).2 (by rw [← g2]; exact hr)).imp g4 fun h => h
  · intro p hp
    obtain ⟨cx, hx⟩ := h.live p hp
    obtain ⟨cx', g, -⟩ := hfwd _ _ hx
    exact ⟨cx', g⟩
  · intro x cx hx
    by_cases hxc : x = c
    · subst hxc; exact h.owned x cl hc
    · rw [h3, upd_ne _ hxc] at hx
      obtain ⟨cx', g1, -⟩ := h2.bwd hx
      exact h.owned x cx' g1
  · intro cx hx
    rw [h3, upd_same] at hx; cases hx; rfl

theorem fill_first {D lim P} (hD : Private D) {s s1 s' : St (Val V)} {l : Links} (h : FI D lim P s l) {e : Fact (State V) V} {d o} (hn : e.sub ∉ l.map (·.1))
    (hd : Stands s.defs d e.f) (hsd : Steady D d) (hlast : e.f (contents s) = e.last)
    (h1 : (s.addClient d false fun _ => .done).startRun ⟨.client, s.next⟩ = .ok s1)
    (h2 : s1.observe lim ⟨.client, s.next⟩ = .ok (s', o)) :
    FI D lim P s' ((e.sub, ⟨.client, s.next⟩) :: l) ∧ s'.vals = s.vals ∧ s'.defs = s.defs ∧
      (∀ x cx, s.clients x = some cx → s'.clients x = some cx) ∧ Linked D s' ((e.sub, ⟨.client, s.next⟩) :: l) e := by
  obtain ⟨ha, -, hS⟩ := private_star hD h.star
  have hs := (hS h.static).1
  have hg1 := good_startRun (good_addClient ha.good d false fun _ => .done) h1
  have hsi1 := si_startRun (s := s.addClient d false fun _ => .done) (hs.si.congr (fun _ _ h => h) rfl (fun _ _ => rfl)) h1
  have hstep : Step lim s s' := .micro (.subscribe h1 h2)
  have e1 : s1 = { (s.addClient d false fun _ => .done) with
      clients := upd (s.addClient d false fun _ => .done).clients ⟨.client, s.next⟩
        (some { ({ target := d, all := false, cb := fun _ => .done } : Client (Val V)) with running := true, fresh := [] }) } := by
    unfold St.startRun at h1
    simp only [St.addClient, St.emit, upd_same] at h1 ⊢
    exact (Except.ok.inj h1).symm
  obtain ⟨cl, v, k, g1, g2, g3, g4, g5, g6, g7, g8, g9, -⟩ := observe_facts hD hg1 hsi1 h2
  have hv1 : s1.vals = s.vals := by rw [e1]; rfl
  have hd1 : s1.defs = s.defs := by rw [e1]; rfl
  have hl1 : s1.log = s.log ++ [.subscribed ⟨.client, s.next⟩ d false] := by rw [e1]; rfl
  have hcl : cl = { ({ target := d, all := false, cb := fun _ => .done } : Client (Val V)) with running := true, fresh := [] } := by
    rw [e1] at g1; simp only [upd_same] at g1; exact (Option.some.inj g1).symm
  have hnew : ∀ x cx, s.clients x = some cx → x ≠ ⟨.client, s.next⟩ := by
    rintro x cx hx rfl
    exact absurd (ha.good.base.ckind _ (by rw [hx]; simp)).2 (Nat.lt_irrefl _)
  have hfwd : ∀ x, x ≠ ⟨.client, s.next⟩ → s'.clients x = s.clients x := by
    intro x hx
    rw [g2, upd_ne _ hx, e1]
    simp only [St.addClient, St.emit]
    rw [upd_ne _ hx, upd_ne _ hx]
  have hat : s'.clients ⟨.client, s.next⟩ = some { cl with prev := some v } := by rw [g2, upd_same]
  have hlog : s'.log = s.log ++ (.subscribed ⟨.client, s.next⟩ d false :: k) := by rw [g5, hl1]; simp
  refine ⟨⟨h.star.tail hstep, ?_, ?_, ?_, ?_, ?_, ?_, ?_, ?_⟩, by rw [g3, hv1], by rw [g4, hd1], fun x cx hx => by rw [hfwd x (hnew x cx hx), hx],
    ⟨.client, s.next⟩, _, List.mem_cons_self, hat, ?_, ?_, by rw [hcl]; exact hsd⟩
  · rw [hlog]; exact static_ext h.static fun id p hm => by
      rcases List.mem_cons.mp hm with hm | hm
      · cases hm
      · exact g8 id p hm
  · rw [hlog]; exact h.quiet.calm fun e he => by
      rcases List.mem_cons.mp he with rfl | he
      · rfl
      · exact g6 e he
  · intro pre c t a post he
    rw [hlog] at he
    rcases split_append he with ⟨post', p1, p2⟩ | ⟨pre', p1, -⟩
    · rcases h.pend pre c t a post' p1 with p3 | ⟨cx, p3, p4⟩
      · left; rw [p2]; exact List.mem_append_left _ p3
      · exact Or.inr ⟨cx, by rw [hfwd c (hnew c cx p3), p3], p4⟩
    · have : (Ev.subscribed c t a : Ev (Val V)) = .subscribed ⟨.client, s.next⟩ d false := by
        have hm : Ev.subscribed c t a ∈ (.subscribed ⟨.client, s.next⟩ d false :: k : List (Ev (Val V))) := by rw [p1]; simp
        exact (List.mem_cons.mp hm).resolve_right (g7 c t a)
      cases this
      exact Or.inr ⟨_, hat, by rw [hcl]⟩
  · intro c cx hx
    by_cases hc : c = ⟨.client, s.next⟩
    · subst hc; rw [hat] at hx; cases hx; rw [hcl]; exact ⟨rfl, fun _ => Or.inl rfl⟩
    · rw [hfwd c hc] at hx; exact h.flags c cx hx
  · exact List.nodup_cons.mpr ⟨hn, h.n1⟩
  · refine List.nodup_cons.mpr ⟨fun hm => ?_, h.n2⟩
    obtain ⟨p, hp, he⟩ := List.mem_map.mp hm
    obtain ⟨cx, hx⟩ := h.live p hp
    exact hnew _ _ hx he
  · intro p hp
    rcases List.mem_cons.mp hp with rfl | hp
    · exact ⟨_, hat⟩
    · obtain ⟨cx, hx⟩ := h.live p hp
      exact ⟨cx, by rw [hfwd _ (hnew _ _ hx), hx]⟩
  · intro c cx hx
    by_cases hc : c = ⟨.client, s.next⟩
    · subst hc; exact List.mem_cons_self
    · rw [hfwd c hc] at hx; exact List.mem_cons_of_mem _ (h.owned c cx hx)
  · rw [g4, hd1, hcl]; exact hd
  · have : v = e.f (contents s) := by
      refine Stands.value (s := s) hd ?_
      rw [hv1, hd1, hcl] at g9; exact g9
    simp [this, hlast]

/-- What holds of a subscription while they are opened: it is open, or need not be, or is not open yet. -/
def Ready (D : GraphId → Prog (Val V) → Prop) (σ : State V) (s : St (Val V)) (l : Links) (e : Fact (State V) V) : Prop :=
  Linked D s l e ∨ Const e ∨ e.sub ∉ l.map (·.1) ∧ e.f σ = e.last

theorem fill_star {D lim P fs} (hD : Private D) (hu : Uniq fs) {z z' : St (Val V) × Links} (hz : Star (Fill D lim fs) z z') {σ : State V} (h : FI D lim P z.1 z.2)
    (hσ : contents z.1 = σ) (hr : ∀ e ∈ fs, Ready D σ z.1 z.2 e) :
    FI D lim P z'.1 z'.2 ∧ z'.1.vals = z.1.vals ∧ (∀ e ∈ fs, Ready D σ z'.1 z'.2 e) ∧ ∀ p ∈ z'.2, p ∈ z.2 ∨ p.1 ∈ fs.map (·.sub) := by
  induction hz with
  | refl => exact ⟨h, rfl, hr, fun _ h => Or.inl h⟩
  | tail _ hs ih =>
    obtain ⟨i1, i2, i3, i4⟩ := ih
    cases hs with
    | computed hp =>
      obtain ⟨a1, a2⟩ := fill_computed i1 hp
      exact ⟨a1, i2, fun e he => (i3 e he).imp (fun h => h.mono (fun c cl h1 h2 => ⟨h1, cl, h2, rfl, rfl⟩) a2) id, i4⟩
    | @over s s' l c cl hc _ hf =>
      obtain ⟨a1, a2, a3, a4, -⟩ := fill_over i1 hc hf
      exact ⟨a1, by rw [a2, i2], fun e he => (i3 e he).imp (fun h => h.mono (fun c cl h1 h2 => ⟨h1, a4 c cl h2⟩) fun x p h => by rw [a3]; exact h) id, i4⟩
    | @first s s1 s' l e d o he hn hd hsd h1 h2 =>
      have hc : contents s = σ := by
        rw [← hσ]; unfold contents; rw [i2]
      rcases i3 e he with ⟨c, cl, hl, -⟩ | hK | ⟨-, hlast⟩
      · exact absurd (List.mem_map.mpr ⟨_, hl, rfl⟩) hn
      all_goals
        have hlast' : e.f (contents s) = e.last := by first | exact hK _ | (rw [hc]; exact hlast)
        obtain ⟨a1, a2, a3, a4, a5⟩ := fill_first hD i1 hn hd hsd hlast' h1 h2
        refine ⟨a1, by rw [a2, i2], fun e' he' => ?_, fun p hp => ?_⟩
        · by_cases hs : e'.sub = e.sub
          · rw [hu e' he' e he hs]; exact Or.inl a5
          · rcases i3 e' he' with hL | hK' | ⟨hn', hl'⟩
            · exact Or.inl (hL.mono (fun c cl h1 h2 => ⟨List.mem_cons_of_mem _ h1, cl, a4 c cl h2, rfl, rfl⟩) fun x p h => by rw [a3]; exact h)
            · exact Or.inr (Or.inl hK')
            · refine Or.inr (Or.inr ⟨fun hm => ?_, hl'⟩)
              rcases List.mem_cons.mp hm with hm | hm
              · exact hs hm
              · exact hn' hm
        · rcases List.mem_cons.mp hp with rfl | hp
          · exact Or.inr (List.mem_map.mpr ⟨e, he, rfl⟩)
          · exact i4 p hp

/-- What holds when all are open. -/
structure OI (D : GraphId → Prog (Val V) → Prop) (lim : Nat) (P : GraphId → Prop) (s : St (Val V)) (l : Links) : Prop where
  star : Star (Step lim) {} s
  static : Within D s.log
  quiet : Quiet s.log
  done : Done s.log
  flags : ∀ c cl, s.clients c = some cl → cl.dropReq = false ∧ (cl.running = true → P c)
  n1 : (l.map (·.1)).Nodup
  n2 : (l.map (·.2)).Nodup
  live : ∀ p ∈ l, ∃ cl, s.clients p.2 = some cl
  owned : ∀ c cl, s.clients c = some cl → c ∈ l.map (·.2)

theorem OI.fi {D lim P} {s : St (Val V)} {l : Links} (h : OI D lim P s l) : FI D lim P s l :=
  ⟨h.star, h.static, h.quiet, fun pre c t a post he => Or.inl (h.done pre c t a post he),
    fun c cl hc => ⟨(h.flags c cl hc).1, fun hr => Or.inr ((h.flags c cl hc).2 hr)⟩, h.n1, h.n2, h.live, h.owned⟩

theorem filled {D lim P fs} {s : St (Val V)} {l : Links} (h : FI D lim P s l) (hF : Filled fs (s, l)) {σ : State V} (hr : ∀ e ∈ fs, Ready D σ s l e) :
    OI D lim P s l ∧ ∀ e ∈ fs, Linked D s l e ∨ Const e := by
  refine ⟨⟨h.star, h.static, h.quiet, ?_, ?_, h.n1, h.n2, h.live, h.owned⟩, fun e he => ?_⟩
  · intro pre c t a post he
    rcases h.pend pre c t a post he with h' | ⟨cl, h1, h2⟩
    · exact h'
    · rw [hF.2 c cl h1] at h2; cases h2
  · intro c cl hc
    refine ⟨(h.flags c cl hc).1, fun hr => ((h.flags c cl hc).2 hr).resolve_left fun h' => ?_⟩
    rw [hF.2 c cl hc] at h'; cases h'
  · rcases hr e he with h' | h' | ⟨h1, h2⟩
    · exact Or.inl h'
    · exact Or.inr h'
    · exact Or.inr ((hF.1 e he).resolve_left h1)

omit [DecidableEq V] in
theorem inj_of_nodup {α β : Type} {f : α → β} : ∀ {l : List α}, (l.map f).Nodup → ∀ {a b}, a ∈ l → b ∈ l → f a = f b → a = b
  | x :: l, h, a, b, ha, hb, hab => by
      simp only [List.map_cons, List.nodup_cons] at h
      rcases List.mem_cons.mp ha with ha | ha <;> rcases List.mem_cons.mp hb with hb | hb
      · rw [ha, hb]
      · exact absurd (List.mem_map.mpr ⟨b, hb, by rw [← hab, ha]⟩) h.1
      · exact absurd (List.mem_map.mpr ⟨a, ha, by rw [hab, hb]⟩) h.1
      · exact inj_of_nodup h.2 ha hb hab

/-- Subscriptions are closed while `c0` is running, which is not closed itself. -/
theorem release_star {D lim fs c0} {z z' : St (Val V) × Links} (hz : Star (Release fs) z z') (h : OI D lim (· = c0) z.1 z.2)
    (hc0 : ∃ cl, z'.1.clients c0 = some cl) (hr : ∀ e ∈ fs, Linked D z.1 z.2 e ∨ Const e) :
    OI D lim (· = c0) z'.1 z'.2 ∧ z'.1.vals = z.1.vals ∧ (∀ e ∈ fs, Linked D z'.1 z'.2 e ∨ Const e) ∧ ∀ p ∈ z'.2, p ∈ z.2 := by
  induction hz with
  | refl => exact ⟨h, rfl, hr, fun _ h => h⟩
  | tail _ hs ih =>
    cases hs with
    | @one s s' l t c hl hn hd =>
      obtain ⟨s1, k, d1, d2, d3, d4, d5, d6⟩ := dropOne_facts hd
      have hne : c ≠ c0 := by
        rintro rfl
        obtain ⟨cl, hc⟩ := hc0
        obtain ⟨cl', h1, -⟩ := d2.bwd hc
        rw [d1, upd_same] at h1; cases h1
      have hbwd : ∀ x cx, s'.clients x = some cx → ∃ cx', x ≠ c ∧ s.clients x = some cx' ∧ cx.running = cx'.running ∧ cx.dropReq = cx'.dropReq := by
        intro x cx hx
        obtain ⟨cx', h1, h2, h3, -⟩ := d2.bwd hx
        by_cases hxc : x = c
        · subst hxc; rw [d1, upd_same] at h1; cases h1
        · rw [d1, upd_ne _ hxc] at h1
          exact ⟨cx', hxc, h1, h2, h3⟩
      have hfwd : ∀ x cx, x ≠ c → s.clients x = some cx → ∃ cx', s'.clients x = some cx' ∧ cx'.target = cx.target ∧ cx'.prev = cx.prev := by
        intro x cx hxc hx
        obtain ⟨cx', h1, h2, h3, -⟩ := d2.fwd (c := x) (cl := cx) (by rw [d1, upd_ne _ hxc, hx])
        exact ⟨cx', h1, h2, h3⟩
      obtain ⟨i1, i2, i3, i4⟩ := ih (by
        obtain ⟨cl, hc⟩ := hc0
        obtain ⟨cl', -, h1, -⟩ := hbwd _ _ hc
        exact ⟨cl', h1⟩)
      obtain ⟨cl, hcl⟩ := i1.live _ hl
      have hnr : cl.running = false := by
        cases hr : cl.running with
        | false => rfl
        | true => exact absurd ((i1.flags c cl hcl).2 hr) hne
      have hsub : ∀ c' t a, .subscribed c' t a ∉ (.dropped c :: k : List (Ev (Val V))) := by
        intro c' t a hm
        rcases List.mem_cons.mp hm with hm | hm
        · cases hm
        · exact isConn_subscribed d6 _ _ _ hm
      refine ⟨⟨i1.star.tail (.micro (.dropOne hcl hnr hd)), ?_, ?_, ?_, ?_, ?_, ?_, ?_, ?_⟩, by rw [d3, i2], ?_, fun p hp => i4 p (List.mem_filter.mp hp).1⟩
      · rw [d5]; exact static_ext i1.static fun id p hm => by
          rcases List.mem_cons.mp hm with hm | hm
          · cases hm
          · exact isConn_defined d6 _ _ hm
      · rw [d5]; exact i1.quiet.done i1.done hsub
      · rw [d5]; exact i1.done.ext hsub
      · intro x cx hx
        obtain ⟨cx', -, h1, h2, h3⟩ := hbwd x cx hx
        rw [h2, h3]; exact i1.flags x cx' h1
      · exact i1.n1.sublist (List.filter_sublist.map _)
      · exact i1.n2.sublist (List.filter_sublist.map _)
      · intro p hp
        obtain ⟨hp1, hp2⟩ := List.mem_filter.mp hp
        obtain ⟨cx, hx⟩ := i1.live p hp1
        have : p.2 ≠ c := by
          intro he
          have : p = (t, c) := inj_of_nodup i1.n2 hp1 hl he
          simp [this] at hp2
        obtain ⟨cx', h', -⟩ := hfwd _ _ this hx
        exact ⟨cx', h'⟩
      · intro x cx hx
        obtain ⟨cx', hxc, h1, -⟩ := hbwd x cx hx
        obtain ⟨p, hp, rfl⟩ := List.mem_map.mp (i1.owned x cx' h1)
        exact List.mem_map.mpr ⟨p, List.mem_filter.mpr ⟨hp, by simpa using fun h => hxc (by rw [h])⟩, rfl⟩
      · intro e he
        refine (i3 e he).imp (fun hL => hL.mono (fun x cx hx1 hx2 => ?_) fun x p h => by rw [d4]; exact h) id
        have hts : e.sub ≠ t := fun h => hn (List.mem_map.mpr ⟨e, he, h⟩)
        have hxc : x ≠ c := by
          rintro rfl
          have := inj_of_nodup i1.n2 hx1 hl rfl
          exact hts (congrArg Prod.fst this)
        exact ⟨List.mem_filter.mpr ⟨hx1, by simp [hts]⟩, hfwd x cx hxc hx2⟩

end Verif.Whole

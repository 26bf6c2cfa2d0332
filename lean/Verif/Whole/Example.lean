import Verif.Whole.Props
import Verif.Reactive.Check
/-!
# C70: an application

A paragraph with the text of `x1`, behind the text of `x0`; for each `x0` the text node is made anew. `x0` is set.
-/
namespace Verif.Whole
open Verif.Reactive Verif.View

/-- Subscriptions have numbers below the next one. -/
theorem fill_good {D lim fs} {z z' : St (Val V) × Links} [DecidableEq V] (hz : Star (Fill D lim fs) z z') (h : Reactive.Good z.1) : Reactive.Good z'.1 := by
  induction hz with
  | refl => exact h
  | tail _ hs ih =>
    cases hs with
    | computed _ => exact good_mstep (lim := 0) ih (.newComputed _ _)
    | first _ _ _ _ h1 h2 => exact good_mstep ih (.subscribe h1 h2)
    | over _ _ hf => exact good_finishRun ih hf

def allReady (s : St W) : Bool := (List.range s.next).all fun n => match s.clients ⟨.client, n⟩ with
  | none => true
  | some cl => cl.ready

theorem ready_of_check {s : St W} (hg : Reactive.Good s) (h : allReady s = true) : ∀ c cl, s.clients c = some cl → cl.ready = true := by
  intro c cl hc
  obtain ⟨h1, h2⟩ := hg.base.ckind c (by rw [hc]; simp)
  have := List.all_eq_true.mp h c.num (List.mem_range.mpr h2)
  obtain ⟨k, n⟩ := c
  simp only at h1; subst h1
  simpa [hc] using this

theorem filled_of_check {fs : List (Fact (State V) V)} {s : St (Val V)} {l : Links} (hg : Reactive.Good s) (h : allReady s = true)
    (hf : ∀ e ∈ fs, e.sub ∈ l.map (·.1) ∨ ∀ σ, e.f σ = e.last) : Filled fs (s, l) := ⟨hf, ready_of_check hg h⟩

namespace Sample

def x0 : GraphId := ⟨.value, 1⟩
def x1 : GraphId := ⟨.value, 2⟩
def asValue : Val String → String | .value v => v | _ => ""
def asText : Val String → String | .text v => v | _ => ""

def views : List (View (State String) String) :=
  [.element "p" [("id", fun _ => some "top")] [.value (fun σ => asValue (σ x0)) (fun _ => true) fun v => .computedText fun σ => v ++ asText (σ x1)]]

theorem views_ok : ∀ v ∈ views, v.Ok := by
  intro v hv
  rw [List.mem_singleton.mp hv]
  refine .element (by decide) (by decide) (by decide) fun c hc => ?_
  rw [List.mem_singleton.mp hc]
  exact .value fun _ => .computedText

/-- It reads `x1` only if `x0` is `b`. -/
def outer : Prog (Val String) := .read x0 fun w => if asValue w = "b" then .read x1 fun _ => .ret (.value (asValue w)) else .ret (.value (asValue w))
def inner (v : String) : Prog (Val String) := .read x1 fun w => .ret (.text (v ++ asText w))

/-- The closure of the computed reads older values, always or sometimes. -/
def Old (id : GraphId) (p : Prog (Val String)) : Prop := ∀ l, p.Path l → ∀ r ∈ l, r.kind = .value ∧ r.num < id.num

theorem old_private : Private Old := by
  refine ⟨?_, ?_⟩
  · rintro x y ⟨p, l, h1, h2, h3⟩
    exact (h1 l h2 y h3).2
  · intro y p z hd hz hk
    obtain ⟨⟨l, h1, h2⟩, -⟩ := hz
    rw [(hd l h1 z h2).1] at hk
    cases hk

theorem old_steady (x) : Steady Old x := by
  intro y p z hd hz hk
  obtain ⟨⟨l, h1, h2⟩, -⟩ := hz
  rw [(hd l h1 z h2).1] at hk
  cases hk

theorem outer_old : Old ⟨.computed, 3⟩ outer := by
  intro l hl r hr
  cases hl with
  | read h =>
    beta_reduce at h
    split at h
    · cases h with
      | read h => cases h; simp at hr; rcases hr with rfl | rfl <;> decide
    · cases h; simp at hr; subst hr; decide

theorem inner_old {v id} (h : 2 < id.num) : Old id (inner v) := by
  intro l hl r hr
  cases hl with
  | read h' => cases h'; simp at hr; subst hr; exact ⟨rfl, h⟩

abbrev client (n : Nat) : GraphId := ⟨.client, n⟩
abbrev computed (n : Nat) : GraphId := ⟨.computed, n⟩

def fin (r : Except Err (St (Val String) × Option (Val String))) : St (Val String) := match r with | .ok p => p.1 | .error _ => {}
def out (r : Except Err (St (Val String) × Option (Val String))) : Option (Val String) := match r with | .ok p => p.2 | .error _ => none
def good (r : Except Err (St (Val String) × Option (Val String))) : Bool := match r with | .ok _ => true | .error _ => false
theorem fin_of {r} (h : good r = true) : r = .ok (fin r, out r) := by cases r with | ok _ => rfl | error _ => cases h

def s0 : St (Val String) := ((({} : St (Val String)).addValue (.value "a") false).addValue (.text "t") false).addComputed outer

/-- `subscribe` up to the end of the first call of the callback. -/
def sub1 (s : St (Val String)) (d : GraphId) : Except Err (St (Val String)) := (s.addClient d false fun _ => .done).startRun ⟨.client, s.next⟩
def sub2 (s : St (Val String)) (d : GraphId) : Except Err (St (Val String) × Option (Val String)) := (final (sub1 s d)).observe 20 ⟨.client, s.next⟩

def sA := fin (sub2 s0 (computed 3))
def sB := sA.addComputed (inner "a")
def sC := fin (sub2 sB (computed 5))
def sD := final (sC.finishRun (client 6))
def sE := final (sD.finishRun (client 4))
def links : Links := [((6, none), client sB.next), ((5, none), client s0.next)]

def f5 : State String → Val String := fun σ => .value (asValue (σ x0))
def fText (v : String) : State String → Val String := fun σ => .text (v ++ asText (σ x1))

def gText (v : String) : State String → String := fun σ => v ++ asText (σ x1)

/-- The document in which `v` is shown in the node `n`. -/
def body (v : String) (n : Nat) : List (Inst (State String) String) :=
  [.element 4 "p" [⟨"id", fun _ => some "top", some "top"⟩] [.value 5 4 (fun σ => asValue (σ x0)) (fun _ => true) (fun v => .computedText (gText v)) v
    [.computedText n (gText v) (v ++ "t")]]]

theorem body0 : (App.start (contents s0) views).1 = ⟨body "a" 6, 7⟩ := by
  have e0 : contents s0 x0 = .value "a" := by decide +kernel
  have e1 : contents s0 x1 = .text "t" := by decide +kernel
  simp [App.start, views, createChildren, create, Created.insert, onValue, body, e0, asValue]
  refine ⟨rfl, rfl, ?_⟩
  show "a" ++ asText (contents s0 x1) = "at"
  rw [e1]; decide

theorem facts_body (v : String) (n : Nat) : factsAll (body v n) =
    [⟨(4, some "id"), fun _ => .attr (some "top"), .attr (some "top")⟩, ⟨(5, none), f5, .value v⟩, ⟨(n, none), fText v, .text (v ++ "t")⟩] := by
  simp [body, facts, factsAll]
  exact ⟨rfl, rfl⟩

theorem code0 : Star (Code Old 20) {} s0 :=
  (((Star.refl _).tail (.value _ _ _)).tail (.value _ _ _)).tail (.computed outer_old)

theorem stands_outer {s : St (Val String)} {d : GraphId} (hk : d.kind = .computed) (h : s.defs d = some outer) : Stands s.defs d f5 :=
  ⟨hk, fun _ => .computed hk h (.read (.value rfl rfl) (by split; exact .read (.value rfl rfl) .ret; exact .ret))⟩
theorem stands_inner {s : St (Val String)} {d : GraphId} {v : String} (hk : d.kind = .computed) (h : s.defs d = some (inner v)) : Stands s.defs d (fText v) :=
  ⟨hk, fun _ => .computed hk h (.read (.value rfl rfl) .ret)⟩

theorem first' {fs : List (Fact (State String) String)} {s : St (Val String)} {l : Links} {e d} (he : e ∈ fs) (hn : e.sub ∉ l.map (·.1))
    (hd : Stands s.defs d e.f) (h1 : isOk (sub1 s d) = true) (h2 : good (sub2 s d) = true) :
    Fill Old 20 fs (s, l) (fin (sub2 s d), (e.sub, client s.next) :: l) := .first he hn hd (old_steady _) (final_of_isOk h1) (fin_of h2)

def notReady (s : St (Val String)) (c : GraphId) : Bool := match s.clients c with | none => false | some cl => !cl.ready

theorem over' {fs : List (Fact (State String) String)} {s : St (Val String)} {l : Links} {c} (hr : notReady s c = true)
    (h : isOk (s.finishRun c) = true) : Fill Old 20 fs (s, l) (final (s.finishRun c), l) := by
  unfold notReady at hr
  split at hr
  · cases hr
  · rename_i cl hc
    exact .over hc (by simpa using hr) (final_of_isOk h)

/-- The first run of the subscription of the value node, and in it that of the text node. -/
theorem fill0 : Star (Fill Old 20 (factsAll (App.start (contents s0) views).1.body)) (s0, []) (sE, links) := by
  rw [body0, facts_body]
  have h1 := first' (fs := factsAll (body "a" 6)) (s := s0) (l := []) (e := ⟨(5, none), f5, .value "a"⟩) (d := computed 3) (by simp [facts_body]) (by simp)
    (stands_outer rfl (by rfl)) (by decide +kernel) (by decide +kernel)
  have h2 : Fill Old 20 (factsAll (body "a" 6)) (sA, [((5, none), client s0.next)]) (sB, [((5, none), client s0.next)]) :=
    .computed (inner_old (by decide +kernel))
  have h3 := first' (fs := factsAll (body "a" 6)) (s := sB) (l := [((5, none), client s0.next)]) (e := ⟨(6, none), fText "a", .text "at"⟩) (d := computed 5)
    (by simp [facts_body]) (by simp) (stands_inner rfl (by rfl)) (by decide +kernel) (by decide +kernel)
  have h4 := over' (fs := factsAll (body "a" 6)) (s := sC) (l := links) (c := client 6) (by decide +kernel) (by decide +kernel)
  have h5 := over' (fs := factsAll (body "a" 6)) (s := sD) (l := links) (c := client 4) (by decide +kernel) (by decide +kernel)
  rw [← facts_body]
  exact (((((Star.refl _).tail h1).tail h2).tail h3).tail h4).tail h5

theorem filled_check {s s' : St (Val String)} {l0 l : Links} {v n} (hg : Reactive.Good s) (hf : Star (Fill Old 20 (factsAll (body v n))) (s, l0) (s', l))
    (hr : allReady s' = true) (h5 : (5, none) ∈ l.map (·.1)) (hn : (n, none) ∈ l.map (·.1)) : Filled (factsAll (body v n)) (s', l) := by
  refine ⟨fun e he => ?_, ready_of_check (fill_good hf hg) hr⟩
  simp only [facts_body, List.mem_cons, List.not_mem_nil, or_false] at he
  rcases he with rfl | rfl | rfl
  · exact Or.inr fun _ => rfl
  · exact Or.inl h5
  · exact Or.inl hn

/-- The page is mounted. -/
def z0 : Sys String := ⟨sE, ⟨body "a" 6, 7⟩, links, (App.start (contents s0) views).2⟩

theorem reach0 : Reach Old 20 id views z0 := by
  have h := Reach.mount (order := id) code0 fill0
  have hf := fill0
  rw [body0] at h hf
  exact h (filled_check (static_star (code_star code0).1).1.good hf (by decide +kernel) (by decide +kernel) (by decide +kernel))

/-- `x0.set("b")`: the transaction ... -/
def s1 : St (Val String) := { sE with tx := .modification 1 [] }.emit .begin_
def s2 : St (Val String) := final (s1.write x0 (.value "b") true)
def s3 : St (Val String) := { ({ s2 with tx := .refreshing }.emit .end_) with todo := [client 4] }.emit (.finish [client 4])
/-- ... and the subscriber of the value node. -/
def s4 : St (Val String) := final (({ s3 with todo := [] }.emit (.refreshed (client 4))).startRun (client 4))
def s5 : St (Val String) := fin (s4.observe 20 (client 4))
def s6 : St (Val String) := s5.addComputed (inner "b")
def s7 : St (Val String) := fin (sub2 s6 (computed 7))
def s8 : St (Val String) := final (s7.finishRun (client 8))
def s9 : St (Val String) := final (s8.dropOne (client 6))
def s10 : St (Val String) := final (s9.finishRun (client 4))

theorem next_app : runAll (contents s3) id (5, none) (body "a" 6) 7 =
    (body "b" 7, [.createText 7 "", .updateText 7 "bt", .insertBefore 4 7 (some 5), .removeText 6], 8) := by
  have e0 : contents s3 x0 = .value "b" := by decide +kernel
  have e1 : contents s3 x1 = .text "t" := by decide +kernel
  simp [body, runAll, run, runAttrs, onValue, create, Created.insert, dropsAll, drops, e0, e1, asValue, gText, asText, Attr.run]

def links1 : Links := ((7, none), client s6.next) :: links
def links2 : Links := links1.filter fun p => decide (p ≠ ((6, none), client sB.next))

def z1 : Sys String := ⟨s10, ⟨body "b" 7, 8⟩, links2, z0.sent ++ [.createText 7 "", .updateText 7 "bt", .insertBefore 4 7 (some 5), .removeText 6]⟩
def z2 : Sys String := { z1 with st := { s10 with tx := s10.tx.moveToIdle }.emit .idle }

theorem reach1 : Reach Old 20 id views ⟨s3, ⟨body "a" 6, 7⟩, links, z0.sent⟩ := by
  have h1 := reach0.move (.code (.begin_ (tx := .modification 1 []) (by decide +kernel)))
  have h2 := h1.move (.code (.write (s' := s2) (id := x0) (v := .value "b") (b := true) (final_of_isOk (by decide +kernel))))
  exact h2.move (.finish (cs := [client 4]) (by decide +kernel))

theorem fill1 : Star (Fill Old 20 (factsAll (body "b" 7))) (s5, links) (s8, links1) := by
  have h2 : Fill Old 20 (factsAll (body "b" 7)) (s5, links) (s6, links) := .computed (inner_old (by decide +kernel))
  have h3 := first' (fs := factsAll (body "b" 7)) (s := s6) (l := links) (e := ⟨(7, none), fText "b", .text "bt"⟩) (d := computed 7)
    (by simp [facts_body]) (by decide +kernel) (stands_inner rfl (by rfl)) (by decide +kernel) (by decide +kernel)
  have h4 := over' (fs := factsAll (body "b" 7)) (s := s7) (l := links1) (c := client 8) (by decide +kernel) (by decide +kernel)
  exact (((Star.refl _).tail h2).tail h3).tail h4

theorem reach2 : Reach Old 20 id views z1 := by
  have g3 := (static_star (reach_inv old_private (fun v hv => (views_ok v hv).fine) (fun l => List.Perm.refl l) reach1).core.star).1.good
  have e4 := final_of_isOk (r := ({ s3 with todo := [] }.emit (.refreshed (client 4))).startRun (client 4)) (by decide +kernel)
  have e5 := fin_of (r := s4.observe 20 (client 4)) (by decide +kernel)
  have g3' : Reactive.Good ({ s3 with todo := [] }.emit (.refreshed (client 4))) := g3.congr rfl rfl rfl rfl rfl rfl (fun _ _ => rfl) (fun _ => Iff.rfl)
  have g5 : Reactive.Good s5 := good_observe (good_startRun g3' e4) e5
  have eo : out (s4.observe 20 (client 4)) = some (.value "b") := by decide +kernel
  have h := Move.update (D := Old) (lim := 20) (order := id) (s := s3) (s1 := s4) (s2 := s5) (s3 := s8) (s4 := s9) (s' := s10) (a := ⟨body "a" 6, 7⟩) (l := links)
    (l1 := links1) (l2 := links2) (o := z0.sent) (c := client 4) (cs := []) (t := (5, none)) (v := .value "b") (by decide +kernel) (by decide +kernel) e4
    (by rw [← eo]; exact e5) (by decide +kernel)
  simp only [next_app] at h
  refine reach1.move (h fill1 (filled_check g5 fill1 (by decide +kernel) (by decide +kernel) (by decide +kernel)) ?_ ?_
    (final_of_isOk (by decide +kernel)))
  · exact (Star.refl _).tail (.one (t := (6, none)) (c := client sB.next) (by decide +kernel) (by simp [facts_body]) (final_of_isOk (by decide +kernel)))
  · intro p hp
    have : p ∈ [((7, none), client s6.next), ((5, none), client s0.next)] := by
      have e : links2 = [((7, none), client s6.next), ((5, none), client s0.next)] := by decide +kernel
      rwa [← e]
    simp only [List.mem_cons, List.not_mem_nil, or_false] at this
    rcases this with rfl | rfl <;> simp [facts_body]

theorem reach3 : Reach Old 20 id views z2 := reach2.move (.idle (by decide +kernel) (by decide +kernel))

theorem html_views (σ : State String) : ∃ f, htmls σ views = [.element "p" f [.text (asValue (σ x0) ++ asText (σ x1))]] ∧ f "id" = some "top" := by
  refine ⟨_, by simp only [views, htmls, html, List.append_nil, if_true]; rfl, rfl⟩

/-- After the mount `at` is shown, after `x0` was set `bt`; the subscription of the old text node is closed. -/
example : Reach Old 20 id views z0 ∧ z0.st.tx = .idle ∧
      (∃ f, htmls (fun x => (z0.st.vals x).getD default) views = [.element "p" f [.text "at"]] ∧ f "id" = some "top") ∧
    Reach Old 20 id views z2 ∧ z2.st.tx = .idle ∧
      (∃ f, htmls (fun x => (z2.st.vals x).getD default) views = [.element "p" f [.text "bt"]] ∧ f "id" = some "top") ∧
    (z2.st.clients (client 4)).isSome ∧ (z2.st.clients (client 6)).isNone ∧ (z2.st.clients (client 8)).isSome := by
  refine ⟨reach0, by decide +kernel, ?_, reach3, by decide +kernel, ?_, by decide +kernel, by decide +kernel, by decide +kernel⟩
  · have e : asValue ((z0.st.vals x0).getD default) ++ asText ((z0.st.vals x1).getD default) = "at" := by decide +kernel
    rw [← e]; exact html_views _
  · have e : asValue ((z2.st.vals x0).getD default) ++ asText ((z2.st.vals x1).getD default) = "bt" := by decide +kernel
    rw [← e]; exact html_views _

end Sample
end Verif.Whole

/-!
# C24: merging of the class attribute

Source: `crates/vertigo/src/dom/dom_element_class.rs`.
-/
namespace Verif.Driver

/-- `Vec<String>::join(" ")`. -/
def joinSpace : List String → String
  | [] => ""
  | [x] => x
  | x :: y :: l => x ++ " " ++ joinSpace (y :: l)

/-- dom_element_class.rs:7-15.  `C` are the css values; `sent` are the values given to
`set_attr(id, "class", ..)`. -/
structure ClassMerge (C : Type) where
  cssName : Option C := none
  attrName : Option String := none
  suspenseCss : Option C := none
  lastSent : Option String := none
  sent : List String := []

variable {C : Type}

/-- dom_element_class.rs:30-52. `className` is `get_class_name` of the css manager, which
always answers the same for the same css (C33). -/
def ClassMerge.newCommand (className : C → String) (s : ClassMerge C) : Option String :=
  let result : List String := []
  let result := match s.attrName with | some a => result ++ [a] | none => result
  let result := match s.cssName with | some c => result ++ [className c] | none => result
  let result := match s.suspenseCss with | some c => result ++ [className c] | none => result
  if result.isEmpty then none else some (joinSpace result)

/-- dom_element_class.rs:54-70. -/
def ClassMerge.refreshDom (className : C → String) (s : ClassMerge C) : ClassMerge C :=
  let new := s.newCommand className
  if s.lastSent ≠ new then
    let value := match new with | some v => v | none => ""
    { s with lastSent := new, sent := s.sent ++ [value] }
  else s

/-- dom_element_class.rs:89-134, 136-148 for the name `class`. `suspense` is a call of the
closure 121-128; `suspenseNone` is `set_suspense_attr(None)`. -/
inductive ClassOp (C : Type) where
  | setAttribute (value : String)
  | removeAttribute
  | setCss (css : C)
  | suspense (css : C)
  | suspenseNone

def ClassMerge.step (className : C → String) (s : ClassMerge C) : ClassOp C → ClassMerge C
  | .setAttribute v => { s with attrName := some v }.refreshDom className
  | .removeAttribute => { s with attrName := none }.refreshDom className
  | .setCss c => { s with cssName := some c }.refreshDom className
  | .suspense c => { s with suspenseCss := some c }.refreshDom className
  | .suspenseNone => s

def ClassMerge.run (className : C → String) (ops : List (ClassOp C)) : ClassMerge C :=
  ops.foldl (fun s o => s.step className o) {}

/-! ## Specification -/

/-- The last class given by the user, if it has not been removed. -/
def userClass : List (ClassOp C) → Option String
  | [] => none
  | .setAttribute v :: _ => some v
  | .removeAttribute :: _ => none
  | _ :: older => userClass older

/-- The last css. -/
def lastCss : List (ClassOp C) → Option C
  | [] => none
  | .setCss c :: _ => some c
  | _ :: older => lastCss older

/-- The last css for loading / not loading. -/
def lastSuspense : List (ClassOp C) → Option C
  | [] => none
  | .suspense c :: _ => some c
  | _ :: older => lastSuspense older

/-- The classes in an attribute value: the non-empty words between spaces. -/
def wordsAux : List Char → List Char → List (List Char)
  | cur, [] => if cur = [] then [] else [cur]
  | cur, c :: cs => if c = ' ' then (if cur = [] then [] else [cur]) ++ wordsAux [] cs else wordsAux (cur ++ [c]) cs

def words (s : String) : List (List Char) := wordsAux [] s.toList

/-- What the class attribute has to contain after the operations `ops` (latest last). -/
def wanted (className : C → String) (ops : List (ClassOp C)) : List (List Char) :=
  ((userClass ops.reverse).toList ++ (lastCss ops.reverse).toList.map className ++
    (lastSuspense ops.reverse).toList.map className).flatMap words

/-- The class attribute in the document. -/
def shown (sent : List String) : String := sent.getLast?.getD ""

/-! ## Proofs -/

theorem wordsAux_append : ∀ (a cur : List Char) (b : List Char),
    wordsAux cur (a ++ ' ' :: b) = wordsAux cur a ++ wordsAux [] b
  | [], cur, b => by simp [wordsAux]
  | c :: a, cur, b => by
      simp only [List.cons_append, wordsAux]
      split
      · rw [wordsAux_append a, List.append_assoc]
      · rw [wordsAux_append a]

theorem words_join : ∀ l : List String, words (joinSpace l) = l.flatMap words
  | [] => by simp [joinSpace, words, wordsAux]
  | [x] => by simp [joinSpace]
  | x :: y :: l => by
      have ih := words_join (y :: l)
      simp only [joinSpace, List.flatMap_cons] at ih ⊢
      rw [← ih]
      simp only [words, String.toList_append, List.append_assoc]
      exact wordsAux_append x.toList [] _

/-- The parts, in order. -/
def ClassMerge.parts (className : C → String) (s : ClassMerge C) : List String :=
  s.attrName.toList ++ s.cssName.toList.map className ++ s.suspenseCss.toList.map className

theorem newCommand_eq (className : C → String) (s : ClassMerge C) :
    s.newCommand className = if s.parts className = [] then none else some (joinSpace (s.parts className)) := by
  unfold ClassMerge.newCommand ClassMerge.parts
  cases s.attrName <;> cases s.cssName <;> cases s.suspenseCss <;> simp

structure CInv (className : C → String) (ops : List (ClassOp C)) (s : ClassMerge C) : Prop where
  attr : s.attrName = userClass ops.reverse
  css : s.cssName = lastCss ops.reverse
  sus : s.suspenseCss = lastSuspense ops.reverse
  last : s.lastSent = s.newCommand className
  sent : shown s.sent = s.lastSent.getD ""

theorem refreshDom_inv (className : C → String) {s : ClassMerge C} (h : shown s.sent = s.lastSent.getD "") :
    (s.refreshDom className).lastSent = s.newCommand className ∧
    shown (s.refreshDom className).sent = (s.newCommand className).getD "" ∧
    (s.refreshDom className).attrName = s.attrName ∧ (s.refreshDom className).cssName = s.cssName ∧
    (s.refreshDom className).suspenseCss = s.suspenseCss := by
  unfold ClassMerge.refreshDom
  simp only
  split
  · refine ⟨rfl, ?_, rfl, rfl, rfl⟩
    simp only [shown, List.getLast?_concat, Option.getD_some]
    cases s.newCommand className <;> rfl
  · rename_i e
    have e : s.lastSent = s.newCommand className := Classical.not_not.mp e
    exact ⟨e, by rw [h, e], rfl, rfl, rfl⟩

theorem newCommand_congr (className : C → String) {s t : ClassMerge C} (h1 : s.attrName = t.attrName)
    (h2 : s.cssName = t.cssName) (h3 : s.suspenseCss = t.suspenseCss) : s.newCommand className = t.newCommand className := by
  unfold ClassMerge.newCommand; rw [h1, h2, h3]

theorem CInv.step (className : C → String) {ops} {s : ClassMerge C} (h : CInv className ops s) (o : ClassOp C) :
    CInv className (ops ++ [o]) (s.step className o) := by
  have key : ∀ t : ClassMerge C, t.sent = s.sent → t.lastSent = s.lastSent →
      t.attrName = userClass (ops ++ [o]).reverse → t.cssName = lastCss (ops ++ [o]).reverse →
      t.suspenseCss = lastSuspense (ops ++ [o]).reverse → CInv className (ops ++ [o]) (t.refreshDom className) := by
    intro t e1 e2 e3 e4 e5
    obtain ⟨r1, r2, r3, r4, r5⟩ := refreshDom_inv className (s := t) (by rw [e1, e2, h.sent])
    have hc := newCommand_congr className r3 r4 r5
    exact ⟨by rw [r3, e3], by rw [r4, e4], by rw [r5, e5], by rw [r1, hc], by rw [r2, r1]⟩
  have ha := h.attr; have hc := h.css; have hs := h.sus
  cases o with
  | setAttribute v => exact key _ rfl rfl (by simp [userClass]) (by simp [lastCss, hc]) (by simp [lastSuspense, hs])
  | removeAttribute => exact key _ rfl rfl (by simp [userClass]) (by simp [lastCss, hc]) (by simp [lastSuspense, hs])
  | setCss c => exact key _ rfl rfl (by simp [userClass, ha]) (by simp [lastCss]) (by simp [lastSuspense, hs])
  | suspense c => exact key _ rfl rfl (by simp [userClass, ha]) (by simp [lastCss, hc]) (by simp [lastSuspense])
  | suspenseNone =>
    exact ⟨by simp [ClassMerge.step, userClass, ha], by simp [ClassMerge.step, lastCss, hc], by simp [ClassMerge.step, lastSuspense, hs], h.last, h.sent⟩

theorem run_inv_class (className : C → String) (ops : List (ClassOp C)) :
    CInv className ops (ClassMerge.run className ops) := by
  have : ∀ (l : List (ClassOp C)) pre s, CInv className pre s →
      CInv className (pre ++ l) (l.foldl (fun s o => s.step className o) s) := by
    intro l
    induction l with
    | nil => intro pre s h; simpa using h
    | cons o l ih =>
      intro pre s h
      have := ih (pre ++ [o]) _ (h.step className o)
      simpa using this
  have h0 : CInv className [] ({} : ClassMerge C) := ⟨rfl, rfl, rfl, rfl, rfl⟩
  exact this ops [] {} h0

/-- **C24.** After any history of updates the class attribute in the document contains
exactly the class of the user, the class of the css and the class of the suspense css. -/
theorem C24_contains_exactly (className : C → String) (ops : List (ClassOp C)) :
    words (shown (ClassMerge.run className ops).sent) = wanted className ops := by
  have h := run_inv_class className ops
  rw [h.sent, h.last, newCommand_eq]
  have hp : (ClassMerge.run className ops).parts className = (userClass ops.reverse).toList ++
      (lastCss ops.reverse).toList.map className ++ (lastSuspense ops.reverse).toList.map className := by
    unfold ClassMerge.parts; rw [h.attr, h.css, h.sus]
  unfold wanted
  rw [← hp]
  split
  · rename_i e; rw [e]; simp [words, wordsAux]
  · simp only [Option.getD_some]; exact words_join _

/-- The value a history makes the element have, or `none` if no class is wanted. -/
def value (className : C → String) (ops : List (ClassOp C)) : Option String :=
  (ClassMerge.run className ops).newCommand className

/-- **C24.** An operation sends the attribute exactly if it changes the class (where "no
class" and the empty class are different), and then once. -/
theorem C24_sent_iff_changed (className : C → String) (ops : List (ClassOp C)) (o : ClassOp C) :
    (ClassMerge.run className (ops ++ [o])).sent = (ClassMerge.run className ops).sent ++
      (if value className ops = value className (ops ++ [o]) then []
       else [(value className (ops ++ [o])).getD ""]) := by
  have h := run_inv_class className ops
  have hrun : ClassMerge.run className (ops ++ [o]) = (ClassMerge.run className ops).step className o := by
    simp [ClassMerge.run]
  have hl := (run_inv_class className (ops ++ [o])).last
  unfold value
  rw [← h.last, ← hl, hrun]
  generalize ClassMerge.run className ops = s at *
  have key : ∀ t : ClassMerge C, t.sent = s.sent → t.lastSent = s.lastSent →
      (t.refreshDom className).sent = s.sent ++
        (if s.lastSent = (t.refreshDom className).lastSent then [] else [((t.refreshDom className).lastSent).getD ""]) := by
    intro t e1 e2
    unfold ClassMerge.refreshDom
    simp only [e2]
    by_cases e : s.lastSent = t.newCommand className
    · simp only [e, ne_eq, not_true, if_false, e2, if_true, List.append_nil, e1]
    · simp only [ne_eq, e, not_false_eq_true, if_true, if_false, e1]
      cases t.newCommand className <;> rfl
  cases o with
  | suspenseNone => simp [ClassMerge.step]
  | _ => exact key _ rfl rfl

/-- **C24.** Hence what is sent differs from what the document has, except that the empty
string can be repeated. -/
theorem C24_sent_only_when_changed_partial (className : C → String) (ops : List (ClassOp C)) (o : ClassOp C) {v}
    (h : (ClassMerge.run className (ops ++ [o])).sent = (ClassMerge.run className ops).sent ++ [v]) :
    v ≠ shown (ClassMerge.run className ops).sent ∨ v = "" := by
  rw [C24_sent_iff_changed] at h
  have h := List.append_cancel_left h
  split at h
  · cases h
  rename_i hne
  have hi := run_inv_class className ops
  have hv : value className ops = (ClassMerge.run className ops).lastSent := hi.last.symm
  rw [hi.sent, ← hv]
  simp only [List.cons.injEq, and_true] at h
  by_cases hv0 : v = ""
  · exact .inr hv0
  left
  intro e
  apply hne
  cases h1 : value className ops with
  | none => rw [h1] at e; exact absurd e hv0
  | some a =>
    cases h2 : value className (ops ++ [o]) with
    | none => rw [h2] at h; exact absurd h.symm hv0
    | some b => rw [h1] at e; rw [h2] at h; simp at e h; rw [h, e]

/-- **C24, not in general.** An empty class that is taken away is sent a second time. -/
theorem C24_sent_only_when_changed_violated :
    (ClassMerge.run (C := Unit) (fun _ => "x") [.setAttribute "", .removeAttribute]).sent = ["", ""] := by
  decide +kernel

/-- A suspense class stays when the handler is taken away. -/
theorem C24_suspense_class_stays {className : C → String} (ops : List (ClassOp C)) :
    (ClassMerge.run className (ops ++ [.suspenseNone])) = ClassMerge.run className ops := by
  simp [ClassMerge.run, ClassMerge.step]

/-- A history with all kinds of classes. -/
def exampleOps : List (ClassOp Nat) :=
  [.setCss 1, .setAttribute "a b", .setAttribute "a b", .suspense 2, .removeAttribute, .suspense 3]

example : (ClassMerge.run (fun n => "autocss_" ++ toString n) exampleOps).sent =
    ["autocss_1", "a b autocss_1", "a b autocss_1 autocss_2", "autocss_1 autocss_2", "autocss_1 autocss_3"] := by
  decide +kernel

end Verif.Driver

import Verif.Dom.BrowserInv
/-!
# C27: the document built on the server is the one the browser builds
-/
namespace Verif.Dom

/-! ## Rendering -/

/-- html_element.rs:209-213, 241-246. -/
inductive HtmlNode where
  | element (name : String) (attr : OrderedMap) (children : List HtmlNode)
  | text (value : String)
  | comment (value : String)

/-- All results, or none. -/
def collect {α β : Type} (f : α → Option β) : List α → Option (List β)
  | [] => some []
  | x :: xs =>
      match f x, collect f xs with
      | some y, some ys => some (y :: ys)
      | _, _ => none

/-- element.rs:154-183 (`get_response_one_elements`, `get_response_elements`). `none`: panic
in `childs()`, or the nesting is deeper than the first argument (unbounded recursion). -/
def Server.html (s : Server) (withId : Bool) : Nat → Id → Option HtmlNode
  | 0, _ => none
  | n + 1, id =>
      match s.all id with
      | none => some (.comment "No <html> element")
      | some (.element name attr ch) =>
          match ch.list with
          | none => none
          | some l =>
              match collect (s.html withId n) l with
              | none => none
              | some children =>
                  some (.element name (if withId then attr.set "data-id" (toString id) else attr) children)
      | some (.text t) => some (.text t)
      | some (.comment t) => some (.comment t)

/-! ## Specification -/

/-- A document: what can be seen of it. -/
inductive Tree where
  | element (name : String) (attr : String → Option String) (children : List Tree)
  | text (value : String)
  | comment (value : String)

mutual
/-- What can be seen of a rendered node. -/
def HtmlNode.toTree : HtmlNode → Tree
  | .element n a ch => .element n a.data (toTrees ch)
  | .text t => .text t
  | .comment t => .comment t
def toTrees : List HtmlNode → List Tree
  | [] => []
  | x :: xs => x.toTree :: toTrees xs
end

/-- The document below a node of the page of the browser (style elements created by
`insert_css`, which the browser appends to the head, are kept apart in `css`). -/
def Browser.tree (b : Browser) : Nat → Id → Option Tree
  | 0, _ => none
  | n + 1, id =>
      match b.objects id with
      | none => none
      | some (.element name attr) =>
          match collect (b.tree n) (b.children id) with
          | none => none
          | some children => some (.element name attr children)
      | some (.text t) => some (.text t)
      | some (.comment t) => some (.comment t)

def rootName (id : Id) : String := if id = 1 then "html" else if id = 2 then "head" else "body"

/-- What has been done with the html, head and body elements. -/
structure Roots where
  made : Id → Bool := fun _ => false
  placed : Id → Bool := fun _ => false

/-- The reference of an insertion is html, head or body, and not in its place. -/
def Roots.badRef (r : Roots) : Option Id → Bool
  | some x => isRoot x && !r.placed x
  | none => false

/-- A client treats the html, head and body elements properly: it creates each at most once
and before using it, puts head and body only into html, uses them as a reference only when
they are there, never removes them.  It also never removes attributes and never uses a node
as its own reference. -/
def Roots.step (r : Roots) : Cmd → Option Roots
  | .createNode id name =>
      if isRoot id then
        if !r.made id && name = rootName id then some { r with made := fupd r.made id true } else none
      else some r
  | .createText id _ => if isRoot id then none else some r
  | .createComment id _ => if isRoot id then none else some r
  | .updateText _ _ => some r
  | .setAttr id _ _ => if isRoot id && !r.made id then none else some r
  | .removeAttr _ _ => none
  | .removeNode id => if isRoot id then none else some r
  | .removeText id => if isRoot id then none else some r
  | .removeComment id => if isRoot id then none else some r
  | .insertBefore p c ref =>
      if (isRoot p && !r.made p) || ref = some c || r.badRef ref then none
      else if isRoot c then
        if r.made c && c ≠ 1 && p = 1 then some { r with placed := fupd r.placed c true } else none
      else some r
  | .insertCss _ _ => some r
  | .callbackAdd _ _ _ => some r
  | .callbackRemove _ _ _ => some r

/-- `none` if the client misbehaves. -/
def Roots.run (r : Roots) : List Cmd → Option Roots
  | [] => some r
  | c :: cs =>
      match r.step c with
      | none => none
      | some r => r.run cs

/-! ## Simulation -/

/-- The same node on both sides. -/
def Same : SNode → Content → Prop
  | .element n a _, .element n' a' => n = n' ∧ a.data = a'
  | .text t, .text t' => t = t'
  | .comment t, .comment t' => t = t'
  | _, _ => False

def kept (s : Server) (c : Id) : Bool := (s.parent c).isSome

structure Sim (r : Roots) (s : Server) (b : Browser) : Prop where
  made : ∀ x, isRoot x = true → (r.made x = true ↔ s.all x ≠ none)
  live : ∀ x, isRoot x = false → (s.all x ≠ none ↔ b.inMap x = true)
  same : ∀ x n, s.all x = some n → ∃ o, b.objects x = some o ∧ Same n o
  kids : ∀ x n a ch, s.all x = some (.element n a ch) → Rep ch ((b.children x).filter (kept s))
  par : ∀ c, isRoot c = false → s.parent c = b.parent c
  placed : ∀ c, isRoot c = true → s.parent c = if r.placed c then some 1 else none
  placedMade : ∀ c, r.placed c = true → r.made c = true ∧ c ≠ 1
  bpar : b.parent 1 = none ∧ b.parent 2 = some 1 ∧ b.parent 3 = some 1
  unmade : ∀ x, isRoot x = true → r.made x = false →
    b.objects x = some (.element (rootName x) fun _ => none) ∧ (b.children x).filter (kept s) = []
  css : s.css = b.css

theorem sim_init : Sim {} {} Browser.init := by
  refine ⟨by simp, by simp [Browser.init], by simp, by simp, ?_, by simp, by simp, by simp [Browser.init], ?_, rfl⟩
  · intro c hc
    have : ¬ (c = 2 ∨ c = 3) := fun h => by rw [isRoot_iff.mpr (Or.inr h)] at hc; cases hc
    simp [Browser.init, this]
  · intro x hx _
    refine ⟨?_, by simp [kept]⟩
    rcases isRoot_iff.mp hx with rfl | rfl | rfl <;> simp [Browser.init, rootName]

theorem Sim.get_some {r s b} (h : Sim r s b) {x o} (hg : b.get x = some o)
    (hr : isRoot x = true → r.made x = true) : ∃ n, s.all x = some n ∧ Same n o := by
  obtain ⟨h1, h2⟩ := get_of hg
  have : s.all x ≠ none := by
    cases hx : isRoot x with
    | true => exact (h.made x hx).mp (hr hx)
    | false =>
      rcases h2 with h2 | h2
      · rw [hx] at h2; cases h2
      · exact (h.live x hx).mpr h2
  obtain ⟨n, hn⟩ := Option.ne_none_iff_exists'.mp this
  obtain ⟨o', ho', hs⟩ := h.same x n hn
  rw [h1] at ho'; cases ho'
  exact ⟨n, hn, hs⟩

theorem filter_comm' {l : List Id} (p q : Id → Bool) : (l.filter p).filter q = (l.filter q).filter p := by
  simp only [List.filter_filter, Bool.and_comm]

theorem insertBeforeIn_filter {x r : Id} {l : List Id} {k : Id → Bool} (hx : k x = true) (hr : k r = true) :
    (insertBeforeIn x r l).filter k = insertBeforeIn x r (l.filter k) := by
  induction l with
  | nil => simp [insertBeforeIn, hx]
  | cons y l ih =>
    simp only [insertBeforeIn]
    by_cases e : y = r
    · subst e; simp [hx, hr, insertBeforeIn]
    · simp only [e, if_false, List.filter_cons]
      split
      · simp [insertBeforeIn, e, ih]
      · exact ih

theorem listInsert_filter {l : List Id} {ref c} {k k' : Id → Bool} (hc : k' c = true)
    (hk : ∀ y, y ≠ c → k' y = k y) (hr : ∀ r, ref = some r → k r = true ∧ r ≠ c) :
    (listInsert l ref c).filter k' = listInsert (l.filter k) ref c := by
  have hf : (l.filter (· ≠ c)).filter k' = (l.filter k).filter (· ≠ c) := by
    rw [filter_comm' k]
    apply List.filter_congr
    intro y hy
    simp at hy
    exact hk y hy.2
  cases ref with
  | none => simp only [listInsert, List.filter_append, hf]; simp [hc]
  | some r =>
    obtain ⟨h1, h2⟩ := hr r rfl
    simp only [listInsert]
    rw [insertBeforeIn_filter hc (by rw [hk r h2, h1]), hf]

theorem listInsert_idem (l : List Id) (ref : Option Id) (c : Id) :
    listInsert (l.filter (· ≠ c)) ref c = listInsert l ref c := by
  have : (l.filter (· ≠ c)).filter (· ≠ c) = l.filter (· ≠ c) := by simp [List.filter_filter]
  cases ref <;> simp only [listInsert, this]

theorem data_set (a : OrderedMap) (n v : String) :
    (a.set n v).data = fun x => if x = n then some v else a.data x := by
  unfold OrderedMap.set
  simp

/-- Both documents lose the link of `c` to its parent. -/
theorem Sim.removeFromParent {r s b} (h : Sim r s b) (hb : BInv b) (c : Id) :
    ∃ s1, s.removeFromParent c = some s1 ∧ s1.parent = s.parent ∧ s1.css = s.css ∧
      (∀ x, s1.all x = none ↔ s.all x = none) ∧
      (∀ x n, s1.all x = some n → ∃ o, b.objects x = some o ∧ Same n o) ∧
      (∀ x n a ch, s1.all x = some (.element n a ch) →
        Rep ch (((b.children x).filter (kept s)).filter (· ≠ c))) := by
  have hnot : ∀ x, s.parent c ≠ some x → ((b.children x).filter (kept s)).filter (· ≠ c) =
      (b.children x).filter (kept s) := by
    intro x hx
    apply filter_ne_of_not_mem
    intro hm
    rw [List.mem_filter] at hm
    have hp := (hb.link _ _).mp hm.1
    cases hc : isRoot c with
    | false => exact hx (by rw [h.par c hc, hp])
    | true =>
      have := h.placed c hc
      rcases isRoot_iff.mp hc with rfl | rfl | rfl
      · rw [h.bpar.1] at hp; cases hp
      · rw [h.bpar.2.1] at hp; cases hp
        simp only [kept] at hm
        rw [this] at hm hx
        split at hx
        · exact hx rfl
        · rename_i h1; simp [h1] at hm
      · rw [h.bpar.2.2] at hp; cases hp
        simp only [kept] at hm
        rw [this] at hm hx
        split at hx
        · exact hx rfl
        · rename_i h1; simp [h1] at hm
  unfold Server.removeFromParent
  cases hp : s.parent c with
  | none =>
    refine ⟨s, rfl, rfl, rfl, fun _ => Iff.rfl, h.same, fun x n a ch hx => ?_⟩
    rw [hnot x (by rw [hp]; simp)]; exact h.kids x n a ch hx
  | some p =>
    simp only
    split
    · rename_i n a ch hpn
      obtain ⟨ch', e1, r1⟩ := (h.kids p n a ch hpn).remove c
      rw [e1]
      refine ⟨_, rfl, rfl, rfl, ?_, ?_, ?_⟩
      · intro x; simp only [fupd]; split
        · rename_i e; subst e; simp [hpn]
        · exact Iff.rfl
      · intro x m hx
        simp only [fupd] at hx
        split at hx
        · rename_i e; subst e; cases hx
          obtain ⟨o, ho, hs⟩ := h.same x _ hpn
          refine ⟨o, ho, ?_⟩
          cases o <;> exact hs
        · exact h.same x m hx
      · intro x m a' ch2 hx
        simp only [fupd] at hx
        split at hx
        · rename_i e; subst e; cases hx; exact r1
        · rename_i e
          rw [hnot x (by rw [hp]; intro h; cases h; exact e rfl)]
          exact h.kids x m a' ch2 hx
    · rename_i hpn
      refine ⟨s, rfl, rfl, rfl, fun _ => Iff.rfl, h.same, fun x n a ch hx => ?_⟩
      by_cases e : x = p
      · subst e; exact absurd hx (hpn n a ch)
      · rw [hnot x (by rw [hp]; intro h; cases h; exact e rfl)]; exact h.kids x n a ch hx

theorem kept_congr {s s' : Server} (h : s'.parent = s.parent) : kept s' = kept s := by
  funext c; simp only [kept, h]

theorem Sim.create {r s b b'} (h : Sim r s b) (hb : BInv b) {id sn o} (hr : isRoot id = false)
    (hs : b.create id o = .ok b') (hsame : Same sn o)
    (hch : ∀ n a ch, sn = .element n a ch → ch = {}) : Sim r { s with all := fupd s.all id (some sn) } b' := by
  unfold Browser.create at hs
  rw [hr] at hs
  simp only [Bool.false_eq_true, if_false] at hs
  split at hs
  · cases hs
  rename_i ho
  have ho' : b.objects id = none := by simpa using ho
  cases hs
  have hne : ∀ x, isRoot x = true → x ≠ id := fun x hx e => by rw [e, hr] at hx; cases hx
  refine ⟨?_, ?_, ?_, ?_, h.par, h.placed, h.placedMade, h.bpar, ?_, h.css⟩
  · intro x hx
    simp only [fupd, hne x hx, if_false]
    exact h.made x hx
  · intro x hx
    simp only [fupd]
    split
    · simp
    · exact h.live x hx
  · intro x n hx
    simp only [fupd] at hx ⊢
    split at hx
    · rename_i e; cases hx; exact ⟨o, by simp [e], hsame⟩
    · rename_i e; simp only [e, if_false]; exact h.same x n hx
  · intro x n a ch hx
    simp only [fupd] at hx
    split at hx
    · rename_i e; subst e; cases hx
      rw [hch _ _ _ rfl]
      have : b.children x = [] := by
        apply List.eq_nil_iff_forall_not_mem.mpr
        intro c hc
        obtain ⟨_, n, a, e⟩ := hb.par _ _ ((hb.link _ _).mp hc)
        rw [ho'] at e; cases e
      rw [this]; exact rep_empty
    · exact h.kids x n a ch hx
  · intro x hx hm
    simp only [fupd, hne x hx, if_false]
    exact h.unmade x hx hm

theorem Sim.remove {r s b b'} (h : Sim r s b) (hb : BInv b) {id} (hr : isRoot id = false)
    (hs : b.remove id = .ok b') : ∃ s', s.remove id = some s' ∧ Sim r s' b' := by
  obtain ⟨s1, e1, p1, c1, n1, m1, k1⟩ := h.removeFromParent hb id
  unfold Browser.remove at hs
  split at hs
  · cases hs
  cases hs
  have e : ({ b with inMap := fupd b.inMap id false } : Browser).detach id =
      { b.detach id with inMap := fupd b.inMap id false } := by
    unfold Browser.detach
    simp only
    cases b.parent id <;> rfl
  rw [e]
  simp only [Server.remove, e1]
  have hne : ∀ x, isRoot x = true → x ≠ id := fun x hx e => by rw [e, hr] at hx; cases hx
  have hkept : ∀ l : List Id, (l.filter (· ≠ id)).filter (kept { s1 with parent := fupd s1.parent id none, all := fupd s1.all id none }) =
      (l.filter (kept s)).filter (· ≠ id) := by
    intro l
    rw [filter_comm' (kept s)]
    apply List.filter_congr
    intro y hy
    simp at hy
    simp [kept, fupd, hy.2, p1]
  refine ⟨_, rfl, ?_, ?_, ?_, ?_, ?_, ?_, h.placedMade, ?_, ?_, ?_⟩
  · intro x hx
    simp only [fupd, hne x hx, if_false]
    rw [h.made x hx, Ne, Ne, n1]
  · intro x hx
    simp only [fupd]
    split
    · simp
    · rw [Ne, n1]; exact h.live x hx
  · intro x n hx
    simp only [fupd] at hx
    split at hx
    · cases hx
    · rw [detach_objects]; exact m1 x n hx
  · intro x n a ch hx
    simp only [fupd] at hx
    split at hx
    · cases hx
    · simp only []
      rw [hb.detach_children, hkept]
      exact k1 x n a ch hx
  · intro c hc
    simp only [fupd, detach_parent]
    split
    · rfl
    · rw [p1]; exact h.par c hc
  · intro c hc
    simp only [fupd, hne c hc, if_false]
    rw [p1]; exact h.placed c hc
  · have h1 := hne 1 rfl
    have h2 := hne 2 rfl
    have h3 := hne 3 rfl
    simp only [detach_parent, fupd, h1, h2, h3, if_false]
    exact h.bpar
  · intro x hx hm
    simp only [detach_objects]
    obtain ⟨u1, u2⟩ := h.unmade x hx hm
    refine ⟨u1, ?_⟩
    rw [hb.detach_children, hkept, u2]; rfl
  · simp only [c1, detach_css]; exact h.css

theorem Sim.step {r r' s b b'} (h : Sim r s b) (hb : BInv b) {c} (hr : r.step c = some r')
    (hs : b.step c = .ok b') : ∃ s', s.step c = some s' ∧ Sim r' s' b' := by
  cases c with
  | createNode id name =>
    simp only [Roots.step] at hr
    split at hr
    · rename_i hroot
      split at hr
      rotate_left
      · cases hr
      rename_i hmn
      simp only [Bool.and_eq_true, Bool.not_eq_true', decide_eq_true_eq] at hmn
      obtain ⟨hm, rfl⟩ := hmn
      cases hr
      simp only [Browser.step, Browser.create, hroot, if_true] at hs
      cases hs
      obtain ⟨u1, u2⟩ := h.unmade id hroot hm
      refine ⟨_, rfl, ?_, ?_, ?_, ?_, h.par, h.placed, ?_, h.bpar, ?_, h.css⟩
      · intro x hx
        simp only [fupd]
        split
        · simp
        · exact h.made x hx
      · intro x hx
        have : x ≠ id := fun e => by rw [e, hroot] at hx; cases hx
        simp only [fupd, this, if_false]; exact h.live x hx
      · intro x n hx
        simp only [fupd] at hx
        split at hx
        · rename_i e; subst e; cases hx; exact ⟨_, u1, rfl, rfl⟩
        · exact h.same x n hx
      · intro x n a ch hx
        simp only [fupd] at hx
        split at hx
        · rename_i e; subst e; cases hx
          have : (b.children x).filter (kept { s with all := fupd s.all x (some (.element (rootName x) {} {})) }) = [] := u2
          rw [this]; exact rep_empty
        · exact h.kids x n a ch hx
      · intro c hc
        obtain ⟨h1, h2⟩ := h.placedMade c hc
        refine ⟨?_, h2⟩
        simp only [fupd]; split
        · rfl
        · exact h1
      · intro x hx hm'
        simp only [fupd] at hm'
        split at hm'
        · cases hm'
        · exact h.unmade x hx hm'
    · rename_i hroot
      cases hr
      exact ⟨_, rfl, h.create hb (by simpa using hroot) hs ⟨rfl, rfl⟩ (fun n a ch e => by cases e; rfl)⟩
  | createText id v =>
    simp only [Roots.step] at hr
    split at hr
    · cases hr
    rename_i hroot
    cases hr
    exact ⟨_, rfl, h.create hb (by simpa using hroot) hs rfl (fun n a ch e => by cases e)⟩
  | createComment id v =>
    simp only [Roots.step] at hr
    split at hr
    · cases hr
    rename_i hroot
    cases hr
    exact ⟨_, rfl, h.create hb (by simpa using hroot) hs rfl (fun n a ch e => by cases e)⟩
  | updateText id v =>
    simp only [Roots.step] at hr
    cases hr
    simp only [Browser.step] at hs
    split at hs
    rotate_left
    · cases hs
    rename_i t hg
    cases hs
    have hnr : isRoot id = false := by
      cases hx : isRoot id with
      | false => rfl
      | true =>
        obtain ⟨n, a, e⟩ := hb.roots id hx
        rw [(get_of hg).1] at e; cases e
    have hne : ∀ x, isRoot x = true → x ≠ id := fun x hx e => by rw [e, hnr] at hx; cases hx
    have hin : b.inMap id = true := by
      rcases (get_of hg).2 with h | h
      · rw [hnr] at h; cases h
      · exact h
    refine ⟨_, rfl, ?_, ?_, ?_, ?_, h.par, h.placed, h.placedMade, h.bpar, ?_, h.css⟩
    · intro x hx; simp only [fupd, hne x hx, if_false]; exact h.made x hx
    · intro x hx
      simp only [fupd]
      split
      · rename_i e; subst e; simp [hin]
      · exact h.live x hx
    · intro x n hx
      simp only [fupd] at hx ⊢
      split at hx
      · rename_i e; cases hx; exact ⟨.text v, by simp [e], rfl⟩
      · rename_i e; simp only [e, if_false]; exact h.same x n hx
    · intro x n a ch hx
      simp only [fupd] at hx
      split at hx
      · cases hx
      · exact h.kids x n a ch hx
    · intro x hx hm
      simp only [fupd, hne x hx, if_false]
      exact h.unmade x hx hm
  | setAttr id name v =>
    simp only [Roots.step] at hr
    split at hr
    · cases hr
    rename_i hroot
    cases hr
    simp only [Browser.step] at hs
    split at hs
    rotate_left
    · cases hs
    rename_i n0 a0 hg
    cases hs
    have hmade : isRoot id = true → r.made id = true := by
      intro hx; simpa [hx] using hroot
    obtain ⟨n, hn, hsame⟩ := h.get_some hg hmade
    cases n with
    | text _ => cases hsame
    | comment _ => cases hsame
    | element n a ch =>
    obtain ⟨rfl, rfl⟩ := hsame
    simp only [Server.step, hn]
    refine ⟨_, rfl, ?_, ?_, ?_, ?_, h.par, h.placed, h.placedMade, h.bpar, ?_, h.css⟩
    · intro x hx
      simp only [fupd]; split
      · rename_i e; subst e; simp [hmade hx]
      · exact h.made x hx
    · intro x hx
      simp only [fupd]
      split
      · rename_i e; subst e; rw [← h.live x hx, hn]; simp
      · exact h.live x hx
    · intro x m hx
      simp only [fupd] at hx ⊢
      split at hx
      · rename_i e; cases hx; exact ⟨.element n (fun x => if x = name then some v else a.data x), by simp only [e, if_true], ⟨rfl, data_set _ _ _⟩⟩
      · rename_i e; simp only [e, if_false]; exact h.same x m hx
    · intro x m a' ch' hx
      simp only [fupd] at hx
      split at hx
      · rename_i e; subst e; cases hx; exact h.kids x _ _ _ hn
      · exact h.kids x m a' ch' hx
    · intro x hx hm
      have : x ≠ id := by rintro rfl; rw [hmade hx] at hm; cases hm
      simp only [fupd, this, if_false]
      exact h.unmade x hx hm
  | removeAttr id name => simp [Roots.step] at hr
  | removeNode id =>
    simp only [Roots.step] at hr
    split at hr
    · cases hr
    rename_i hroot
    cases hr
    exact h.remove hb (by simpa using hroot) hs
  | removeText id =>
    simp only [Roots.step] at hr
    split at hr
    · cases hr
    rename_i hroot
    cases hr
    exact h.remove hb (by simpa using hroot) hs
  | removeComment id =>
    simp only [Roots.step] at hr
    split at hr
    · cases hr
    rename_i hroot
    cases hr
    exact h.remove hb (by simpa using hroot) hs
  | insertCss sel v =>
    cases hr; cases hs
    exact ⟨_, rfl, h.made, h.live, h.same, h.kids, h.par, h.placed, h.placedMade, h.bpar, h.unmade, by
      simp only [h.css]⟩
  | callbackAdd id e cb =>
    cases hr
    refine ⟨s, rfl, ?_⟩
    simp only [Browser.step] at hs
    split at hs
    · cases hs; exact h
    · split at hs
      · cases hs
        exact ⟨h.made, h.live, h.same, h.kids, h.par, h.placed, h.placedMade, h.bpar, h.unmade, h.css⟩
      · cases hs
  | callbackRemove id e cb =>
    cases hr
    refine ⟨s, rfl, ?_⟩
    simp only [Browser.step] at hs
    split at hs
    · split at hs
      · cases hs
        exact ⟨h.made, h.live, h.same, h.kids, h.par, h.placed, h.placedMade, h.bpar, h.unmade, h.css⟩
      · cases hs
    · cases hs; exact h
  | insertBefore p c ref =>
    simp only [Roots.step] at hr
    split at hr
    · cases hr
    rename_i hok
    simp only [Bool.or_eq_true, not_or, Bool.and_eq_true, Bool.not_eq_true', not_and, decide_eq_true_eq] at hok
    obtain ⟨⟨hpm, href⟩, hrefp⟩ := hok
    -- the browser
    have hbr : ∃ po co, b.get p = some po ∧ b.get c = some co ∧ b.insertBefore p c ref = .ok b' := by
      simp only [Browser.step] at hs
      split at hs
      · rename_i po co hp hc
        split at hs
        · exact ⟨po, co, hp, hc, hs⟩
        · split at hs
          · cases hs
          · exact ⟨po, co, hp, hc, hs⟩
      · cases hs
    obtain ⟨po, co, hp, hc, hins⟩ := hbr
    obtain ⟨I, _, ⟨n0, a0, hpo⟩, hrp⟩ := hb.inserted href hins
    have hpmade : isRoot p = true → r.made p = true := by
      intro hx; have := hpm hx; simpa using this
    obtain ⟨pn, hpn, hpsame⟩ := h.get_some hp hpmade
    rw [(get_of hp).1] at hpo; cases hpo
    -- roots
    have hroots : (isRoot c = true → r.made c = true ∧ c ≠ 1 ∧ p = 1) ∧
        r'.made = r.made ∧ (∀ x, r'.placed x = if x = c ∧ isRoot c = true then true else r.placed x) := by
      split at hr
      · rename_i hx
        split at hr
        · rename_i hy
          simp only [Bool.and_eq_true, decide_eq_true_eq] at hy
          cases hr
          refine ⟨fun _ => ⟨hy.1.1, hy.1.2, hy.2⟩, rfl, fun x => ?_⟩
          simp only [fupd, hx, and_true]
        · cases hr
      · rename_i hx
        cases hr
        exact ⟨fun h => absurd h hx, rfl, fun x => by simp [hx]⟩
    obtain ⟨hcr, hmade', hplaced'⟩ := hroots
    obtain ⟨s1, e1, p1, c1, n1, m1, k1⟩ := h.removeFromParent hb c
    simp only [Server.step, Server.insertBefore, e1]
    have hs1p : ∃ n a ch, s1.all p = some (.element n a ch) := by
      have : s1.all p ≠ none := by rw [Ne, n1, hpn]; simp
      obtain ⟨m, hm⟩ := Option.ne_none_iff_exists'.mp this
      obtain ⟨o, ho, hsm⟩ := m1 p m hm
      rw [(get_of hp).1] at ho; cases ho
      cases m with
      | element n a ch => exact ⟨n, a, ch, hm⟩
      | text _ => cases hsm
      | comment _ => cases hsm
    obtain ⟨n, a, ch, hs1⟩ := hs1p
    simp only [hs1]
    have hrk : ∀ r0, ref = some r0 → kept s r0 = true ∧ r0 ≠ c := by
      intro r0 e
      refine ⟨?_, fun e' => href (by rw [e, e'])⟩
      subst e
      simp only [Roots.badRef] at hrefp
      cases hx : isRoot r0 with
      | false => simp [kept, h.par r0 hx, hrp r0 rfl]
      | true =>
        have : r.placed r0 = true := by simpa [hx] using hrefp
        simp [kept, h.placed r0 hx, this]
    have hval : (ChildOp.insert ref c).valid (((b.children p).filter (kept s)).filter (· ≠ c)) := by
      cases ref with
      | none => trivial
      | some r0 =>
        obtain ⟨h1, h2⟩ := hrk r0 rfl
        refine ⟨?_, h2⟩
        simp only [List.mem_filter, decide_eq_true_eq]
        exact ⟨⟨(hb.link _ _).mpr (hrp r0 rfl), h1⟩, by simpa using h2⟩
    obtain ⟨ch', e2, rep⟩ := (k1 p n a ch hs1).insertBefore hval
    rw [listInsert_idem] at rep
    simp only [e2]
    -- kept after the step
    have hk1 : ∀ A, kept ({ s1 with parent := fupd s1.parent c (some p), all := A } : Server) c = true := by
      intro A; simp [kept, fupd]
    have hk2 : ∀ A y, y ≠ c → kept ({ s1 with parent := fupd s1.parent c (some p), all := A } : Server) y = kept s y := by
      intro A y hy; simp [kept, fupd, hy, p1]
    have hch : ∀ A x, (b'.children x).filter (kept ({ s1 with parent := fupd s1.parent c (some p), all := A } : Server)) =
        if x = p then listInsert ((b.children p).filter (kept s)) ref c
        else ((b.children x).filter (kept s)).filter (· ≠ c) := by
      intro A x
      rw [I.children]
      split
      · exact listInsert_filter (hk1 A) (hk2 A) hrk
      · rw [filter_comm' (kept s)]
        apply List.filter_congr
        intro y hy
        simp at hy
        exact hk2 A y hy.2
    refine ⟨_, rfl, ?_, ?_, ?_, ?_, ?_, ?_, ?_, ?_, ?_, ?_⟩
    · intro x hx
      rw [hmade']
      simp only [fupd]
      split
      · rename_i e; subst e; simp [hpmade hx]
      · rw [h.made x hx, Ne, Ne, n1]
    · intro x hx
      rw [I.inMap]
      simp only [fupd]
      split
      · rename_i e; subst e
        rw [← h.live x hx, hpn]; simp
      · rw [Ne, n1]; exact h.live x hx
    · intro x m hx
      rw [I.objects]
      simp only [fupd] at hx
      split at hx
      · rename_i e; subst e; cases hx
        obtain ⟨o, ho, hsm⟩ := m1 x _ hs1
        refine ⟨o, ho, ?_⟩
        cases o <;> exact hsm
      · exact m1 x m hx
    · intro x m a' ch2 hx
      simp only [fupd] at hx
      rw [hch]
      split at hx
      · rename_i e; subst e; cases hx
        rw [if_pos rfl]; exact rep
      · rename_i e
        rw [if_neg e]; exact k1 x m a' ch2 hx
    · intro x hx
      rw [I.parent]
      simp only [fupd]
      split
      · rfl
      · rw [p1]; exact h.par x hx
    · intro x hx
      rw [hplaced']
      simp only [fupd]
      by_cases e : x = c
      · subst e
        simp only [if_true, hx, and_self, (hcr hx).2.2]
      · simp only [e, if_false, false_and, p1]; exact h.placed x hx
    · intro x hx
      rw [hmade']
      rw [hplaced'] at hx
      split at hx
      · rename_i e
        obtain ⟨rfl, e⟩ := e
        exact ⟨(hcr e).1, (hcr e).2.1⟩
      · exact h.placedMade x hx
    · rw [I.parent]
      simp only [fupd]
      cases hx : isRoot c with
      | false =>
        have : ∀ y, isRoot y = true → y ≠ c := fun y hy e => by rw [e, hx] at hy; cases hy
        simp only [this 1 rfl, this 2 rfl, this 3 rfl, if_false]
        exact h.bpar
      | true =>
        obtain ⟨_, h2, h3⟩ := hcr hx
        subst h3
        obtain ⟨q1, q2, q3⟩ := h.bpar
        refine ⟨by simp [Ne.symm h2, q1], ?_, ?_⟩
        · split
          · rfl
          · exact q2
        · split
          · rfl
          · exact q3
    · intro x hx hm
      rw [hmade'] at hm
      rw [I.objects]
      obtain ⟨u1, u2⟩ := h.unmade x hx hm
      refine ⟨u1, ?_⟩
      rw [hch, if_neg (by rintro rfl; rw [hpmade hx] at hm; cases hm), u2]; rfl
    · simp only [c1, I.css]; exact h.css

theorem Sim.run {r r' s b b'} (h : Sim r s b) (hb : BInv b) : ∀ cs, r.run cs = some r' → b.run cs = .ok b' →
    ∃ s', s.run cs = some s' ∧ Sim r' s' b' ∧ BInv b' := by
  intro cs
  induction cs generalizing r s b with
  | nil => intro h1 h2; cases h1; cases h2; exact ⟨s, rfl, h, hb⟩
  | cons c cs ih =>
    intro h1 h2
    simp only [Roots.run] at h1
    simp only [Browser.run] at h2
    split at h1
    · cases h1
    rename_i r1 hr1
    split at h2
    · cases h2
    rename_i b1 hb1
    obtain ⟨s1, e1, sim1⟩ := h.step hb hr1 hb1
    obtain ⟨s2, e2, sim2⟩ := ih sim1 (hb.step hb1) h1 h2
    exact ⟨s2, by simp only [Server.run, e1]; exact e2, sim2⟩

theorem collect_congr {α β γ : Type} {f : α → Option β} {g : α → Option γ} (m : β → γ) : ∀ {l : List α},
    (∀ x ∈ l, ∃ y, f x = some y ∧ g x = some (m y)) →
    ∃ ys, collect f l = some ys ∧ collect g l = some (ys.map m) := by
  intro l
  induction l with
  | nil => intro _; exact ⟨[], rfl, rfl⟩
  | cons x l ih =>
    intro h
    obtain ⟨y, e1, e2⟩ := h x (by simp)
    obtain ⟨ys, e3, e4⟩ := ih fun z hz => h z (by simp [hz])
    exact ⟨y :: ys, by simp only [collect, e1, e3], by simp only [collect, e2, e4, List.map]⟩

theorem toTrees_map : ∀ l : List HtmlNode, toTrees l = l.map HtmlNode.toTree
  | [] => by simp [toTrees]
  | x :: xs => by simp [toTrees, toTrees_map xs]

/-- All three root elements are in use. -/
def Roots.complete (r : Roots) : Prop := r.made 1 = true ∧ r.placed 2 = true ∧ r.placed 3 = true

theorem Sim.kept_all {r s b} (h : Sim r s b) (hb : BInv b) (hc : r.complete) (x : Id) :
    (b.children x).filter (kept s) = b.children x := by
  apply List.filter_eq_self.mpr
  intro c hm
  have hp := (hb.link _ _).mp hm
  cases hr : isRoot c with
  | false => simp [kept, h.par c hr, hp]
  | true =>
    rcases isRoot_iff.mp hr with rfl | rfl | rfl
    · rw [h.bpar.1] at hp; cases hp
    · simp [kept, h.placed 2 rfl, hc.2.1]
    · simp [kept, h.placed 3 rfl, hc.2.2]

/-- Children of a node that can be seen are known to the server. -/
theorem Sim.child_some {r s b} (h : Sim r s b) (hb : BInv b) (hc : r.complete) {x c}
    (hm : c ∈ b.children x) : s.all c ≠ none := by
  cases hr : isRoot c with
  | false =>
    rcases (hb.par _ _ ((hb.link _ _).mp hm)).1 with h1 | h1
    · rw [hr] at h1; cases h1
    · exact (h.live c hr).mpr h1
  | true =>
    apply (h.made c hr).mp
    rcases isRoot_iff.mp hr with rfl | rfl | rfl
    · exact hc.1
    · exact (h.placedMade 2 hc.2.1).1
    · exact (h.placedMade 3 hc.2.2).1

theorem Sim.html {r s b} (h : Sim r s b) (hb : BInv b) (hc : r.complete) :
    ∀ n x l, s.all x ≠ none → Up b.parent x l → b.objs.length < n + l.length →
      ∃ t, s.html false n x = some t ∧ b.tree n x = some t.toTree := by
  intro n
  induction n with
  | zero =>
    intro x l hx hl hlen
    obtain ⟨m, hm⟩ := Option.ne_none_iff_exists'.mp hx
    obtain ⟨o, ho, _⟩ := h.same x m hm
    have h1 := hl.unique (hb.chain_eq ((hb.objs x).mpr (by rw [ho]; simp)))
    have h2 : ∀ n y, (chain b.parent n y).length ≤ n := by
      intro n
      induction n with
      | zero => intro y; simp [chain]
      | succ n ih =>
        intro y; simp only [chain]
        cases b.parent y with
        | none => simp
        | some p => simp [ih p]
    have := h2 b.objs.length x
    rw [← h1] at this
    omega
  | succ n ih =>
    intro x l hx hl hlen
    obtain ⟨m, hm⟩ := Option.ne_none_iff_exists'.mp hx
    obtain ⟨o, ho, hs⟩ := h.same x m hm
    simp only [Server.html, Browser.tree, hm, ho]
    cases m with
    | text t => cases o <;> first | cases hs; exact ⟨_, rfl, rfl⟩ | cases hs
    | comment t => cases o <;> first | cases hs; exact ⟨_, rfl, rfl⟩ | cases hs
    | element name a ch =>
      cases o with
      | text t => cases hs
      | comment t => cases hs
      | element name' a' =>
        obtain ⟨rfl, rfl⟩ := hs
        have hk := (h.kids x _ _ _ hm).list_eq
        rw [h.kept_all hb hc] at hk
        simp only [hk]
        obtain ⟨ys, e1, e2⟩ := collect_congr HtmlNode.toTree (l := b.children x)
          (f := s.html false n) (g := b.tree n) (fun c hcm => by
            obtain ⟨t, h1, h2⟩ := ih c (c :: l) (h.child_some hb hc hcm) (.up ((hb.link _ _).mp hcm) hl)
              (by simp only [List.length_cons]; omega)
            exact ⟨t, h1, h2⟩)
        simp only [e1, e2]
        exact ⟨_, rfl, by simp [HtmlNode.toTree, toTrees_map]⟩

/-- **C27.** For every stream of commands that the browser executes without an exception and
that treats html, head and body properly, the server executes it without a panic, and then:
the rendered document (from html) is the document of the browser, with the same styles.
`N` bounds the recursion of the renderer: it terminates. -/
theorem C27_server_document {cs b r} (hb : Browser.init.run cs = .ok b) (hr : Roots.run {} cs = some r)
    (hc : r.complete) :
    ∃ s h, Server.run {} cs = some s ∧ (∀ n, b.objs.length ≤ n → s.html false n 1 = some h ∧
      b.tree n 1 = some h.toTree) ∧ s.css = b.css := by
  obtain ⟨s, e, sim, inv⟩ := sim_init.run binv_init cs hr hb
  have hx : s.all 1 ≠ none := (sim.made 1 rfl).mp hc.1
  have hu : Up b.parent 1 [1] := .top sim.bpar.1
  have hmono : ∀ n x t, s.html false n x = some t → ∀ m, n ≤ m → s.html false m x = some t := by
    intro n
    induction n with
    | zero => intro x t h; cases h
    | succ n ih =>
      intro x t h m hm
      cases m with
      | zero => omega
      | succ m =>
        simp only [Server.html] at h ⊢
        split at h
        · exact h
        · rename_i name attr ch e
          split at h
          · cases h
          · rename_i l el
            split at h
            · cases h
            · rename_i ks ek
              have : ∀ (l : List Id) ks, collect (s.html false n) l = some ks → collect (s.html false m) l = some ks := by
                intro l
                induction l with
                | nil => intro ks h; exact h
                | cons y l ihl =>
                  intro ks h
                  simp only [collect] at h ⊢
                  split at h
                  · rename_i a bs e1 e2
                    rw [ih y a e1 m (by omega), ihl bs e2]; exact h
                  · cases h
              rw [this l ks ek]; exact h
        · exact h
        · exact h
  obtain ⟨t, h1, h2⟩ := sim.html inv hc b.objs.length 1 [1] hx hu (by simp)
  refine ⟨s, t, e, fun n hn => ?_, sim.css⟩
  obtain ⟨t', h3, h4⟩ := sim.html inv hc n 1 [1] hx hu (by simp only [List.length_singleton]; omega)
  have := hmono _ _ _ h1 n hn
  rw [this] at h3; cases h3
  exact ⟨this, h4⟩

/-- **C27.** The server's elements always form a forest: every child list is a proper list
without repetitions, whose members have that element as their (only) parent; following the
parents ends at a node without parent. -/
theorem C27_server_forest {cs b r} (hb : Browser.init.run cs = .ok b) (hr : Roots.run {} cs = some r) :
    ∃ s, Server.run {} cs = some s ∧
      (∀ p n a ch, s.all p = some (.element n a ch) → ∃ l, ch.list = some l ∧ l.Nodup ∧
        ∀ c ∈ l, s.parent c = some p) ∧
      (∀ x, ∃ l, Up s.parent x l) := by
  obtain ⟨s, e, sim, inv⟩ := sim_init.run binv_init cs hr hb
  have hpar : ∀ c q, b.parent c = some q → kept s c = true → s.parent c = some q := by
    intro c q hq hk
    cases hroot : isRoot c with
    | false => rw [sim.par c hroot]; exact hq
    | true =>
      have := sim.placed c hroot
      simp only [kept] at hk
      split at this
      · rename_i hp
        rcases isRoot_iff.mp hroot with rfl | rfl | rfl
        · rw [sim.bpar.1] at hq; cases hq
        · rw [sim.bpar.2.1] at hq; rw [this, hq]
        · rw [sim.bpar.2.2] at hq; rw [this, hq]
      · rw [this] at hk; cases hk
  have hparent : ∀ c, s.parent c = b.parent c ∨ s.parent c = none := by
    intro c
    cases hroot : isRoot c with
    | false => exact Or.inl (sim.par c hroot)
    | true =>
      cases hs : s.parent c with
      | none => exact Or.inr rfl
      | some q =>
        left
        have hp := sim.placed c hroot
        rw [hs] at hp
        split at hp
        · rename_i hpl
          obtain ⟨_, h1⟩ := sim.placedMade c hpl
          cases hp
          rcases isRoot_iff.mp hroot with rfl | rfl | rfl
          · exact absurd rfl h1
          · rw [sim.bpar.2.1]
          · rw [sim.bpar.2.2]
        · cases hp
  refine ⟨s, e, ?_, ?_⟩
  · intro p n a ch hp
    refine ⟨_, (sim.kids p n a ch hp).list_eq, (inv.nodup p).filter _, ?_⟩
    intro c hc
    rw [List.mem_filter] at hc
    exact hpar c p ((inv.link _ _).mp hc.1) hc.2
  · intro x
    obtain ⟨l, hl⟩ := inv.forest x
    induction hl with
    | @top x e =>
      refine ⟨[x], .top ?_⟩
      rcases hparent x with h | h
      · rw [h, e]
      · exact h
    | @up x p l e _ ih =>
      rcases hparent x with h | h
      · obtain ⟨l', hl'⟩ := ih
        exact ⟨x :: l', .up (by rw [h, e]) hl'⟩
      · exact ⟨[x], .top h⟩

/-! ## A concrete stream -/

/-- html, head, body, a list with two entries that are swapped, a removed entry. -/
def exampleStream : List Cmd :=
  [.createNode 1 "html", .createNode 2 "head", .createNode 3 "body", .insertBefore 1 2 none, .insertBefore 1 3 none,
   .createNode 4 "ul", .setAttr 4 "class" "a", .insertBefore 3 4 none,
   .createNode 5 "li", .createText 6 "one", .insertBefore 5 6 none, .insertBefore 4 5 none,
   .createNode 7 "li", .createText 8 "two", .insertBefore 7 8 none, .insertBefore 4 7 (some 5),
   .createComment 9 "end", .insertBefore 4 9 none, .insertBefore 4 5 (some 7), .removeNode 7,
   .updateText 6 "uno", .insertCss ".a" "color: red", .setAttr 4 "class" "b"]

mutual
def Tree.show : Tree → String
  | .element n a ch => "<" ++ n ++ (match a "class" with | some c => " class=" ++ c | none => "") ++ ">" ++ showAll ch ++ "</" ++ n ++ ">"
  | .text t => t
  | .comment t => "<!--" ++ t ++ "-->"
def showAll : List Tree → String
  | [] => ""
  | x :: xs => x.show ++ showAll xs
end

def Browser.shown : Except Fail Browser → Nat → Option String
  | .ok b, n => (b.tree n 1).map Tree.show
  | .error _, _ => none

def Roots.completeB : Option Roots → Bool
  | some r => r.made 1 && r.placed 2 && r.placed 3
  | none => false

/-- The example is executed, is complete and is not trivial. -/
example : Browser.shown (Browser.init.run exampleStream) 9 =
    some "<html><head></head><body><ul class=b><li>uno</li><!--end--></ul></body></html>" := by
  decide +kernel

example : Roots.completeB (Roots.run {} exampleStream) = true := by decide +kernel

end Verif.Dom

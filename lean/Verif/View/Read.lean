import Verif.View.Served
import Verif.Ssr.Loop
/-!
# C57: what a browser reads of the page that the server sends for an application

The commands of an application (C49), sorted in batches (C21), sent as JSON (C28), executed on the server (C27), collected until the page
is finished (C31), written as HTML (C32) and read by the tokenizer of a browser (C29).
-/
namespace Verif.View
open Verif.Dom Verif.Json

/-! ## Specification -/

/-- The values of attributes, given as a list. -/
def attrsOf (l : List (String × String)) : String → Option String := fun k => (l.find? fun e => e.1 = k).map (·.2)

/-- What is read are these attributes. -/
def AttrsAre (a : String → Option String) (read : List (List Char × List Char)) : Prop :=
  (read.map (·.1)).Nodup ∧ ∀ n v, (n, v) ∈ read ↔ ∃ k s, a k = some s ∧ n = Ssr.htmlName k ∧ v = s.toList

def Html.IsText : Html → Prop
  | .text _ => True
  | .element _ _ _ => False

/-- The texts, concatenated. -/
def words : List Html → List Char
  | [] => []
  | .text s :: hs => s.toList ++ words hs
  | .element _ _ _ :: hs => words hs

mutual
/-- The tokens show an element: its name, attributes and content. -/
inductive Reads : Html → List Ssr.Token → Prop where
  /-- an element that has a start tag only -/
  | void {name a read} (hv : Ssr.Void name) (ha : AttrsAre a read) : Reads (.element name a []) [.startTag (Ssr.htmlName name) read true]
  /-- only text: read exactly as it is -/
  | text {name a read cs} (hv : ¬ Ssr.Void name) (ha : AttrsAre a read) (hc : ∀ c ∈ cs, c.IsText) (hn : cs ≠ []) :
      Reads (.element name a cs) (.startTag (Ssr.htmlName name) read false :: (words cs).map .char ++ [.endTag (Ssr.htmlName name)])
  /-- elements inside, or nothing -/
  | children {name a read cs ts} (hv : ¬ Ssr.Void name) (ha : AttrsAre a read) (hc : (∃ c ∈ cs, ¬ c.IsText) ∨ cs = []) (h : ReadsAll cs ts) :
      Reads (.element name a cs) (.startTag (Ssr.htmlName name) read false :: ts ++ [.endTag (Ssr.htmlName name)])
/-- The tokens show a list of nodes, with white space between elements; neighbouring texts are one. -/
inductive ReadsAll : List Html → List Ssr.Token → Prop where
  | nil {ts} (h : Ssr.Blank ts) : ReadsAll [] ts
  | element {name a cs hs w ts us} (hw : Ssr.Blank w) (h : Reads (.element name a cs) ts) (h' : ReadsAll hs us) :
      ReadsAll (.element name a cs :: hs) (w ++ ts ++ us)
  | text {run hs w us} (hr : ∀ c ∈ run, c.IsText) (hw : Ssr.Blank w) (hl : ∀ h ∈ hs.head?, ¬ h.IsText) (h : ReadsAll hs us) :
      ReadsAll (run ++ hs) (w ++ (words run).map .char ++ us)
end

/-- Documents that can be written as HTML: names are sensible, and attributes differ also in lower case; no texts or values with a
carriage return or a zero character; title, textarea, script and style have only text inside, which in the latter two has no `<`; the
names of void elements are in lower case. -/
inductive Readable : Html → Prop where
  | text {s : String} : Ssr.Plain s → Readable (.text s)
  | element {name : String} {a : String → Option String} {cs : List Html} : Ssr.ElementName name → ¬ Ssr.Forbidden name →
      (∀ k v, a k = some v → Ssr.AttrName k ∧ Ssr.Plain v) →
      (∀ k k', a k ≠ none → a k' ≠ none → Ssr.htmlName k = Ssr.htmlName k' → k = k') →
      (Ssr.TextOnly name → ∀ c ∈ cs, c.IsText) → (Ssr.Unescaped name → '<' ∉ words cs) →
      (Ssr.Void name → Ssr.htmlName name = name.toList) → (∀ c ∈ cs, Readable c) → Readable (.element name a cs)

/-! ## Attributes -/

/-- The order has each name that has a value once. -/
def Orderly (m : OrderedMap) : Prop := m.order.Nodup ∧ ∀ k, k ∈ m.order ↔ m.data k ≠ none

theorem orderly_empty : Orderly {} := ⟨List.nodup_nil, by simp⟩

theorem orderly_set {m : OrderedMap} (h : Orderly m) (k v : String) : Orderly (m.set k v) := by
  have e : m.set k v = { order := m.order.filter (· ≠ k) ++ [k], data := fun x => if x = k then some v else m.data x } := by
    simp [OrderedMap.set]
  rw [e]
  refine ⟨?_, fun x => ?_⟩
  · rw [List.nodup_append]
    refine ⟨h.1.filter _, by simp, ?_⟩
    intro a ha b hb hab
    subst hab
    simp only [List.mem_singleton] at hb
    subst hb
    simp at ha
  · simp only [List.mem_append, List.mem_filter, List.mem_singleton, decide_eq_true_eq]
    by_cases hx : x = k
    · simp [hx]
    · simp [hx, h.2 x]

theorem iterLoop {m : OrderedMap} : ∀ {ks : List String}, (∀ k ∈ ks, m.data k ≠ none) → ∃ l, m.getIterLoop ks = some l ∧
    l.map (·.1) = ks ∧ ∀ e ∈ l, m.data e.1 = some e.2
  | [], _ => ⟨[], rfl, rfl, by simp⟩
  | k :: ks, h => by
      obtain ⟨l, h1, h2, h3⟩ := iterLoop fun x hx => h x (List.mem_cons_of_mem _ hx)
      obtain ⟨v, hv⟩ := Option.ne_none_iff_exists'.mp (h k List.mem_cons_self)
      refine ⟨(k, v) :: l, by simp only [OrderedMap.getIterLoop, hv, h1], by simp [h2], ?_⟩
      intro e he
      rcases List.mem_cons.mp he with rfl | he
      · exact hv
      · exact h3 e he

theorem orderly_iter {m : OrderedMap} (h : Orderly m) : ∃ l, m.getIter = some l ∧ (l.map (·.1)).Nodup ∧
    ∀ k v, (k, v) ∈ l ↔ m.data k = some v := by
  obtain ⟨l, h1, h2, h3⟩ := iterLoop (m := m) (ks := m.order) fun k hk => (h.2 k).mp hk
  refine ⟨l, h1, by rw [h2]; exact h.1, fun k v => ⟨h3 (k, v), fun hd => ?_⟩⟩
  have : k ∈ l.map (·.1) := by rw [h2]; exact (h.2 k).mpr (by rw [hd]; simp)
  obtain ⟨e, he, rfl⟩ := List.mem_map.mp this
  have := h3 e he
  rw [hd] at this
  cases this
  exact he

/-- The attributes of all elements on the server are in order. -/
def AllOrderly (s : Server) : Prop := ∀ id n a ch, s.all id = some (.element n a ch) → Orderly a

theorem allOrderly_over {s : Server} (h : AllOrderly s) (id : Id) {o : Option SNode} (ho : ∀ n a ch, o = some (.element n a ch) → Orderly a) :
    AllOrderly { s with all := fupd s.all id o } := by
  intro x n a ch e
  simp only [fupd] at e
  split at e
  · exact ho n a ch e
  · exact h x n a ch e

theorem allOrderly_removeFromParent {s s' : Server} (h : AllOrderly s) {c : Id} (e : s.removeFromParent c = some s') : AllOrderly s' := by
  unfold Server.removeFromParent at e
  split at e
  · cases e; exact h
  · split at e
    · rename_i n a ch hp
      split at e
      · cases e
      · cases e
        exact allOrderly_over h _ fun n' a' ch' e => by cases e; exact h _ n a ch hp
    · cases e; exact h

theorem allOrderly_remove {s s' : Server} (h : AllOrderly s) {c : Id} (e : s.remove c = some s') : AllOrderly s' := by
  unfold Server.remove at e
  split at e
  · cases e
  · rename_i s1 h1
    cases e
    have := allOrderly_over (allOrderly_removeFromParent h h1) c (o := none) fun _ _ _ e => by cases e
    exact this

theorem allOrderly_step {s s' : Server} (h : AllOrderly s) {c : Cmd} (e : s.step c = some s') : AllOrderly s' := by
  cases c with
  | createNode id name => cases e; exact allOrderly_over h _ fun _ _ _ e => by cases e; exact orderly_empty
  | createText id v => cases e; exact allOrderly_over h _ fun _ _ _ e => by cases e
  | updateText id v => cases e; exact allOrderly_over h _ fun _ _ _ e => by cases e
  | createComment id v => cases e; exact allOrderly_over h _ fun _ _ _ e => by cases e
  | setAttr id k v =>
    simp only [Server.step] at e
    split at e
    · rename_i n a ch hn
      cases e
      exact allOrderly_over h _ fun _ _ _ e => by cases e; exact orderly_set (h _ _ _ _ hn) k v
    · cases e
  | removeAttr id k => cases e
  | removeNode id => exact allOrderly_remove h e
  | removeText id => exact allOrderly_remove h e
  | removeComment id => exact allOrderly_remove h e
  | insertBefore p c ref =>
    simp only [Server.step, Server.insertBefore] at e
    split at e
    · cases e
    · rename_i s1 h1
      have h2 := allOrderly_removeFromParent h h1
      split at e
      · rename_i n a ch hn
        split at e
        · cases e
        · cases e
          exact allOrderly_over (s := { s1 with parent := fupd s1.parent c (some p) }) h2 _ fun _ _ _ e => by
            cases e; exact h2 _ _ _ _ hn
      · cases e
  | insertCss k v => cases e; exact h
  | callbackAdd id e' cb => cases e; exact h
  | callbackRemove id e' cb => cases e; exact h

theorem allOrderly_run : ∀ {cs : List Cmd} {s s' : Server}, AllOrderly s → s.run cs = some s' → AllOrderly s'
  | [], s, s', h, e => by cases e; exact h
  | c :: cs, s, s', h, e => by
      simp only [Server.run] at e
      split at e
      · cases e
      · rename_i s1 h1; exact allOrderly_run (allOrderly_step h h1) e

/-- The attributes of a rendered document are in order. -/
inductive Sound : HtmlNode → Prop where
  | element {name attr} {cs : List HtmlNode} : Orderly attr → (∀ c ∈ cs, Sound c) → Sound (.element name attr cs)
  | text {s} : Sound (.text s)
  | comment {s} : Sound (.comment s)

theorem collect_mem {α β : Type} {f : α → Option β} : ∀ {l : List α} {ys : List β}, collect f l = some ys → ∀ y ∈ ys, ∃ x ∈ l, f x = some y
  | [], ys, h, y, hy => by cases h; cases hy
  | x :: l, ys, h, y, hy => by
      simp only [collect] at h
      split at h
      · rename_i z zs hz hzs
        cases h
        rcases List.mem_cons.mp hy with rfl | hy
        · exact ⟨x, List.mem_cons_self, hz⟩
        · obtain ⟨w, hw, e⟩ := collect_mem hzs y hy
          exact ⟨w, List.mem_cons_of_mem _ hw, e⟩
      · cases h

theorem sound_html {s : Server} (h : AllOrderly s) : ∀ {n : Nat} {id : Id} {t : HtmlNode}, s.html false n id = some t → Sound t
  | 0, id, t, e => by cases e
  | n + 1, id, t, e => by
      simp only [Server.html] at e
      split at e
      · cases e; exact .comment
      · rename_i name attr ch ha
        split at e
        · cases e
        · split at e
          · cases e
          · rename_i cs hcs
            cases e
            exact .element (h id _ _ _ ha) fun c hc => by
              obtain ⟨x, -, hx⟩ := collect_mem hcs c hc
              exact sound_html h hx
      · cases e; exact .text
      · cases e; exact .comment

/-! ## The rendered nodes and the document -/

/-- The nodes are the document, with comments between them. -/
inductive Match : List HtmlNode → List Html → Prop where
  | nil : Match [] []
  | comment {s ns hs} : Match ns hs → Match (.comment s :: ns) hs
  | text {s ns hs} : Match ns hs → Match (.text s :: ns) (.text s :: hs)
  | element {name : String} {attr : OrderedMap} {l : List (String × String)} {a : String → Option String} {cns cs ns hs} :
      attr.getIter = some l → (l.map (·.1)).Nodup → (∀ k v, (k, v) ∈ l ↔ a k = some v) → (Ssr.Void name → cns = []) → Match cns cs →
      Match ns hs → Match (.element name attr cns :: ns) (.element name a cs :: hs)

theorem Match.append {ns hs ns' hs'} (h : Match ns hs) (h' : Match ns' hs') : Match (ns ++ ns') (hs ++ hs') := by
  induction h with
  | nil => exact h'
  | comment _ ih => exact .comment ih
  | text _ ih => exact .text ih
  | element h1 h2 h3 h4 h5 _ _ ih => exact .element h1 h2 h3 h4 h5 ih

/-- Void elements have nothing inside, in a part of the page that contains the children of its nodes. -/
structure Closed (b : Browser) (D : List Id) : Prop where
  children : ∀ x ∈ D, ∀ y ∈ b.children x, y ∈ D
  void : ∀ x ∈ D, ∀ name a, b.objects x = some (.element name a) → Ssr.Void name → b.children x = []

theorem match_of {b : Browser} {D : List Id} (hd : Closed b D) {xs hs} (h : Shows b xs hs) :
    (∀ x ∈ xs, x ∈ D) → ∀ {n : Nat} {ns : List HtmlNode}, collect (b.tree n) xs = some (toTrees ns) → (∀ c ∈ ns, Sound c) → Match ns hs := by
  have split : ∀ {n x xs} {ns : List HtmlNode}, collect (b.tree n) (x :: xs) = some (toTrees ns) →
      ∃ m ns', ns = m :: ns' ∧ b.tree n x = some m.toTree ∧ collect (b.tree n) xs = some (toTrees ns') := by
    intro n x xs ns e
    simp only [collect] at e
    split at e
    · rename_i y ys e1 e2
      cases ns with
      | nil => simp [toTrees] at e
      | cons m ns' =>
        simp only [toTrees, Option.some.injEq, List.cons.injEq] at e
        exact ⟨m, ns', rfl, by rw [e1, e.1], by rw [e2, e.2]⟩
    · cases e
  induction h with
  | nil =>
    intro _ n ns e _
    cases ns with
    | nil => exact .nil
    | cons m ns => simp [collect, toTrees] at e
  | @text x xs s hs ho _ ih =>
    intro hx n ns e hs'
    obtain ⟨m, ns', rfl, e1, e2⟩ := split e
    have h1 := ih (fun y hy => hx y (List.mem_cons_of_mem _ hy)) e2 fun c hc => hs' c (List.mem_cons_of_mem _ hc)
    cases n with
    | zero => cases e1
    | succ n =>
      simp only [Browser.tree, ho, Option.some.injEq] at e1
      cases m <;> simp only [HtmlNode.toTree, Tree.text.injEq, reduceCtorEq] at e1
      subst e1; exact .text h1
  | @comment x xs s hs ho _ ih =>
    intro hx n ns e hs'
    obtain ⟨m, ns', rfl, e1, e2⟩ := split e
    have h1 := ih (fun y hy => hx y (List.mem_cons_of_mem _ hy)) e2 fun c hc => hs' c (List.mem_cons_of_mem _ hc)
    cases n with
    | zero => cases e1
    | succ n =>
      simp only [Browser.tree, ho, Option.some.injEq] at e1
      cases m <;> simp only [HtmlNode.toTree, reduceCtorEq] at e1
      exact .comment h1
  | @element x xs name attr cs hs ho _ _ ih1 ih2 =>
    intro hx n ns e hs'
    obtain ⟨m, ns', rfl, e1, e2⟩ := split e
    have h1 := ih2 (fun y hy => hx y (List.mem_cons_of_mem _ hy)) e2 fun c hc => hs' c (List.mem_cons_of_mem _ hc)
    have hxD := hx x List.mem_cons_self
    cases n with
    | zero => cases e1
    | succ n =>
      simp only [Browser.tree, ho] at e1
      split at e1
      · cases e1
      · rename_i ts hts
        simp only [Option.some.injEq] at e1
        cases m with
        | text _ => simp [HtmlNode.toTree] at e1
        | comment _ => simp [HtmlNode.toTree] at e1
        | element name' attr' cns =>
          simp only [HtmlNode.toTree, Tree.element.injEq] at e1
          obtain ⟨rfl, rfl, rfl⟩ := e1
          cases hs' _ List.mem_cons_self with
          | element ho' hc' =>
            obtain ⟨l, i1, i2, i3⟩ := orderly_iter ho'
            refine .element i1 i2 i3 ?_ (ih1 (hd.children x hxD) hts hc') h1
            intro hv
            rw [hd.void x hxD _ _ ho hv] at hts
            cases cns with
            | nil => rfl
            | cons c cns => simp [collect, toTrees] at hts

theorem Match.words {ns hs} (h : Match ns hs) : Ssr.texts ns = words hs := by
  induction h with
  | nil => rfl
  | comment _ ih => exact ih
  | text _ ih => simp only [Ssr.texts, View.words, ih]
  | element _ _ _ _ _ _ _ ih => exact ih

theorem Match.noElement {ns hs} (h : Match ns hs) : (∀ c ∈ ns, ¬ Ssr.IsElement c) ↔ ∀ c ∈ hs, c.IsText := by
  induction h with
  | nil => simp
  | comment _ ih => simp only [List.mem_cons, forall_eq_or_imp, ih]; simp [Ssr.IsElement]
  | text _ ih => simp only [List.mem_cons, forall_eq_or_imp, ih]; simp [Ssr.IsElement, Html.IsText]
  | element _ _ _ _ _ _ _ _ => simp [Ssr.IsElement, Html.IsText]

theorem Match.someElement {ns hs} (h : Match ns hs) : (∃ c ∈ ns, Ssr.IsElement c) ↔ ∃ c ∈ hs, ¬ c.IsText := by
  have := h.noElement
  constructor
  · rintro ⟨c, hc, he⟩
    by_contra hn
    exact this.mpr (fun c hc => by by_contra h'; exact hn ⟨c, hc, h'⟩) c hc he
  · rintro ⟨c, hc, he⟩
    by_contra hn
    exact he (this.mp (fun c hc h' => hn ⟨c, hc, h'⟩) c hc)

theorem Match.empty {ns hs} (h : Match ns hs) (hn : ∀ c ∈ ns, ¬ Ssr.IsElement c) : (∀ c ∈ ns, ¬ Ssr.IsText c) ↔ hs = [] := by
  induction h with
  | nil => simp
  | comment _ ih => simpa [Ssr.IsText] using ih fun c hc => hn c (List.mem_cons_of_mem _ hc)
  | text _ ih => simp [Ssr.IsText]
  | element _ _ _ _ _ _ _ _ => exact absurd trivial (hn _ List.mem_cons_self)

theorem attrs_are {attr : OrderedMap} {l : List (String × String)} {a : String → Option String} (h1 : attr.getIter = some l)
    (h3 : ∀ k v, (k, v) ∈ l ↔ a k = some v) (hn : ((Ssr.htmlAttrs attr).map (·.1)).Nodup) : AttrsAre a (Ssr.htmlAttrs attr) := by
  refine ⟨hn, fun n v => ?_⟩
  simp only [Ssr.htmlAttrs, h1, Option.getD_some, List.mem_map, Prod.mk.injEq, Prod.exists]
  constructor
  · rintro ⟨k, s, hm, rfl, rfl⟩; exact ⟨k, s, (h3 k s).mp hm, rfl, rfl⟩
  · rintro ⟨k, s, hm, rfl, rfl⟩; exact ⟨k, s, (h3 k s).mpr hm, rfl, rfl⟩

theorem ok_of {ns hs} (h : Match ns hs) : (∀ c ∈ hs, Readable c) → Ssr.AllOk ns := by
  induction h with
  | nil => intro _; trivial
  | comment _ ih => intro hr; exact ⟨trivial, ih hr⟩
  | text _ ih =>
    intro hr
    refine ⟨?_, ih fun c hc => hr c (List.mem_cons_of_mem _ hc)⟩
    cases hr _ List.mem_cons_self with
    | text h => exact h
  | @element name attr l a cns cs ns hs h1 h2 h3 h4 h5 _ ih1 ih2 =>
    intro hr
    refine ⟨?_, ih2 fun c hc => hr c (List.mem_cons_of_mem _ hc)⟩
    cases hr _ List.mem_cons_self with
    | element e1 e2 e3 e4 e5 e6 e7 e8 =>
      refine ⟨e1, e2, ?_, ?_, fun h => h5.noElement.mpr (e5 h), ?_, fun h => ⟨e7 h, h4 h⟩, ih1 e8⟩
      · rw [h1]
        intro x hx
        exact e3 x.1 x.2 ((h3 _ _).mp hx)
      · simp only [Ssr.htmlAttrs, h1, Option.getD_some, List.map_map]
        have h2' := h2
        rw [List.Nodup, List.pairwise_map] at h2' ⊢
        refine h2'.imp_of_mem ?_
        intro x y hx hy hxy heq
        refine hxy (e4 x.1 y.1 ?_ ?_ heq)
        · rw [(h3 x.1 x.2).mp hx]; simp
        · rw [(h3 y.1 y.2).mp hy]; simp
      · intro hu c hc e
        rw [h5.words] at hc
        exact e6 hu (e ▸ hc)

/-- The nodes of a match that was split. -/
theorem Match.split : ∀ {run l : List HtmlNode} {hs : List Html}, Match (run ++ l) hs → ∃ hs1 hs2, hs = hs1 ++ hs2 ∧ Match run hs1 ∧ Match l hs2
  | [], l, hs, h => ⟨[], hs, rfl, .nil, h⟩
  | n :: run, l, hs, h => by
      cases h with
      | comment h => obtain ⟨a, b, e, h1, h2⟩ := Match.split h; exact ⟨a, b, e, .comment h1, h2⟩
      | text h => obtain ⟨a, b, rfl, h1, h2⟩ := Match.split h; exact ⟨_ :: a, b, rfl, .text h1, h2⟩
      | element e1 e2 e3 e4 e5 h => obtain ⟨a, b, rfl, h1, h2⟩ := Match.split h; exact ⟨_ :: a, b, rfl, .element e1 e2 e3 e4 e5 h1, h2⟩

theorem Match.starts {l hs} (h : Match l hs) (hl : ∀ n ∈ l.head?, Ssr.IsElement n) : ∀ x ∈ hs.head?, ¬ x.IsText := by
  intro x hx
  cases h with
  | nil => cases hx
  | comment _ => exact absurd (hl _ rfl) (by simp [Ssr.IsElement])
  | text _ => exact absurd (hl _ rfl) (by simp [Ssr.IsElement])
  | element _ _ _ _ _ _ => cases hx; simp [Html.IsText]

/-- What a node that is an element matches. -/
theorem Match.first {n : HtmlNode} {ns hs} (hn : Ssr.IsElement n) (h : Match (n :: ns) hs) : ∃ name a cs hs', hs = .element name a cs :: hs' ∧
    Match [n] [.element name a cs] ∧ Match ns hs' := by
  cases h with
  | comment _ => cases hn
  | text _ => cases hn
  | element h1 h2 h3 h4 h5 h6 => exact ⟨_, _, _, _, rfl, .element h1 h2 h3 h4 h5 .nil, h6⟩

theorem Match.inside {name attr cns} {h : Html} (hm : Match [.element name attr cns] [h]) (hok : Ssr.Ok (.element name attr cns)) :
    ∃ a cs, h = .element name a cs ∧ AttrsAre a (Ssr.htmlAttrs attr) ∧ Match cns cs := by
  cases hm with
  | element h1 h2 h3 h4 h5 _ => exact ⟨_, _, rfl, attrs_are h1 h3 hok.2.2.2.1, h5⟩

mutual
theorem reads_of : ∀ {n : HtmlNode} {ts : List Ssr.Token}, Ssr.Shows n ts → ∀ {h : Html}, Match [n] [h] → Ssr.Ok n → Reads h ts
  | _, _, .void hv, h, hm, hok => by
      obtain ⟨a, cs, rfl, ha, h5⟩ := hm.inside hok
      cases h5; exact .void hv ha
  | _, _, .text hv h h', hh, hm, hok => by
      obtain ⟨a, cs, rfl, ha, h5⟩ := hm.inside hok
      rw [h5.words]
      refine .text hv ha (h5.noElement.mp h) fun e => ?_
      obtain ⟨c, hc, ht⟩ := h'
      exact (h5.empty h).mpr e c hc ht
  | _, _, .children (children := cns) hv h' h, hh, hm, hok => by
      obtain ⟨a, cs, rfl, ha, h5⟩ := hm.inside hok
      refine .children hv ha ?_ (readsAll_of h h5 hok.2.2.2.2.2.2.2)
      by_cases he : ∃ c ∈ cns, Ssr.IsElement c
      · exact Or.inl (h5.someElement.mp he)
      · have h' := h'.resolve_left he
        exact Or.inr ((h5.empty fun c hc h => he ⟨c, hc, h⟩).mp h')
theorem readsAll_of : ∀ {ns : List HtmlNode} {ts : List Ssr.Token}, Ssr.Content ns ts → ∀ {hs : List Html}, Match ns hs → Ssr.AllOk ns →
    ReadsAll hs ts
  | _, _, .nil hb, hs, hm, hok => by cases hm; exact .nil hb
  | _, _, .element hn hw h h', hs, hm, hok => by
      obtain ⟨name, a, cs, hs', rfl, h1, h2⟩ := hm.first hn
      exact .element hw (reads_of h h1 hok.1) (readsAll_of h' h2 hok.2)
  | _, _, .text (run := run) (l := l) hr hw hl h, hs, hm, hok => by
      obtain ⟨hs1, hs2, rfl, m1, m2⟩ := hm.split
      rw [m1.words]
      refine .text (m1.noElement.mp hr) hw ?_ (readsAll_of h m2 (Ssr.allOk_iff.mpr fun n hn => Ssr.allOk_iff.mp hok n (by simp [hn])))
      exact m2.starts hl
end

/-! ## The page of the application -/

mutual
theorem holds_void {free : String → Prop} {b : Browser} : ∀ (i : Inst S V) {v p}, Holds b p i → Fits v i → v.ServedBut free → ∀ x ∈ ids i, ∀ name a,
    b.objects x = some (.element name a) → Ssr.Void name → b.children x = []
  | .element id name' attrs' is, v, p, h, hf, hv, x, hx, name, a, e, hvoid => by
      cases v with
      | element nm attrs vs =>
        obtain ⟨rfl, rfl, hf⟩ := hf
        cases hv with
        | element v1 v2 v3 =>
          rcases List.mem_cons.mp hx with rfl | hx
          · rw [h.2.1] at e; cases e
            rw [v2 hvoid] at hf
            cases is with
            | nil => rw [h.2.2.1]; rfl
            | cons i is => exact hf.elim
          · exact holdsAll_void is h.2.2.2 hf v3 x hx name a e hvoid
      | _ => exact hf.elim
  | .text id value, v, p, h, hf, hv, x, hx, name, a, e, hvoid => by
      simp only [ids, List.mem_singleton] at hx; subst hx; rw [h.2] at e; cases e
  | .computedText id f last, v, p, h, hf, hv, x, hx, name, a, e, hvoid => by
      simp only [ids, List.mem_singleton] at hx; subst hx; rw [h.2] at e; cases e
  | .value id p' f shown render last content, v, p, h, hf, hv, x, hx, name, a, e, hvoid => by
      cases v with
      | value f' shown' render' =>
        obtain ⟨rfl, rfl, rfl, hf⟩ := hf
        cases hv with
        | value v1 =>
          rcases List.mem_cons.mp hx with rfl | hx
          · obtain ⟨s, hs⟩ := h.2.2.1; rw [hs] at e; cases e
          · refine holdsAll_void (free := free) content h.2.2.2 hf ?_ x hx name a e hvoid
            intro c hc
            split at hc
            · rw [List.mem_singleton.mp hc]; exact v1 _
            · cases hc
      | _ => exact hf.elim
  | .list id p' f key render items content, v, p, h, hf, hv, x, hx, name, a, e, hvoid => by
      cases v with
      | list f' key' render' =>
        obtain ⟨rfl, rfl, rfl, hf⟩ := hf
        cases hv with
        | list v1 =>
          rcases List.mem_cons.mp hx with rfl | hx
          · obtain ⟨s, hs⟩ := h.2.2.1; rw [hs] at e; cases e
          · refine holdsAll_void (free := free) content h.2.2.2 hf ?_ x hx name a e hvoid
            intro c hc
            obtain ⟨y, -, rfl⟩ := List.mem_map.mp hc
            exact v1 y
      | _ => exact hf.elim
  | .fragment id p' content, v, p, h, hf, hv, x, hx, name, a, e, hvoid => by
      cases v with
      | fragment vs =>
        cases hv with
        | fragment v1 =>
          rcases List.mem_cons.mp hx with rfl | hx
          · obtain ⟨s, hs⟩ := h.2.2.1; rw [hs] at e; cases e
          · exact holdsAll_void content h.2.2.2 hf v1 x hx name a e hvoid
      | _ => exact hf.elim
theorem holdsAll_void {free : String → Prop} {b : Browser} : ∀ (is : List (Inst S V)) {vs p}, HoldsAll b p is → FitsAll vs is → (∀ v ∈ vs, v.ServedBut free) →
    ∀ x ∈ idsAll is, ∀ name a, b.objects x = some (.element name a) → Ssr.Void name → b.children x = []
  | [], _, _, _, _, _, x, hx, _, _, _, _ => by cases hx
  | i :: is, vs, p, h, hf, hv, x, hx, name, a, e, hvoid => by
      cases vs with
      | nil => exact hf.elim
      | cons v vs =>
        rcases List.mem_append.mp hx with hx | hx
        · exact holds_void i h.1 hf.1 (hv v List.mem_cons_self) x hx name a e hvoid
        · exact holdsAll_void is h.2 hf.2 (fun w hw => hv w (List.mem_cons_of_mem _ hw)) x hx name a e hvoid
end

theorem feed_batches {e : Ssr.Escape} {mount : Ssr.Mount} {env : List (String × String)} {depth : Nat}
    {call : Client → Nat → Option Resp → Option (Client × List (Ssr.ProgramMessage Key))} :
    ∀ {batches : List (List Cmd)} {js : List Codec.JsJson} {s s' : Server}, List.Forall₂ (fun j cs => Json.Same j (batchJson cs)) js batches →
    (∀ c ∈ batches.flatten, ¬ IsRemoveAttr c) → (∀ c ∈ batches.flatten, IdsSmall c) → s.run batches.flatten = some s' →
    Ssr.feedAll (Ssr.fullProgram e mount env depth call).feed s js = some s'
  | [], js, s, s', hj, _, _, hs => by cases hj; cases hs; rfl
  | cs :: batches, js, s, s', hj, hr, hi, hs => by
      cases hj with
      | @cons j _ js _ h1 h2 =>
        simp only [List.flatten_cons] at hs hr hi
        have run_append : ∀ (a b : List Cmd) (s : Server), s.run (a ++ b) = (s.run a).bind fun s => s.run b := by
          intro a b
          induction a with
          | nil => intro s; rfl
          | cons c a ih =>
            intro s
            simp only [List.cons_append, Server.run]
            cases s.step c with
            | none => rfl
            | some s => exact ih s
        rw [run_append] at hs
        cases e1 : s.run cs with
        | none => rw [e1] at hs; cases hs
        | some s1 =>
          rw [e1] at hs
          have hb : batchFromJson [] j = .ok cs :=
            C28_batch_accepted_partial (fun c hc => hr c (by simp [hc])) (fun c hc => hi c (by simp [hc])) h1
          have : (Ssr.fullProgram e mount env depth call).feed s j = some s1 := by simp only [Ssr.fullProgram, hb, e1]
          simp only [Ssr.feedAll, this, Option.bind_some]
          exact feed_batches h2 (fun c hc => hr c (by simp [hc])) (fun c hc => hi c (by simp [hc])) hs

theorem attrsOf_iff {l : List (String × String)} (h : (l.map (·.1)).Nodup) (k v : String) : (k, v) ∈ l ↔ attrsOf l k = some v := by
  unfold attrsOf
  induction l with
  | nil => simp
  | cons x l ih =>
    simp only [List.map_cons, List.nodup_cons] at h
    rw [List.find?_cons]
    by_cases hx : x.1 = k
    · subst hx
      simp only [decide_true, Option.map_some, Option.some.injEq, List.mem_cons]
      constructor
      · rintro (e | hm)
        · rw [← e]
        · exact absurd (List.mem_map_of_mem hm) h.1
      · rintro rfl; exact Or.inl rfl
    · simp only [hx, decide_false, List.mem_cons]
      rw [← ih h.2]
      exact ⟨fun hm => hm.resolve_left fun e => hx (by rw [← e]), Or.inr⟩

theorem mem_sorted {batches : List (List Cmd)} {all : List Cmd} (hb : batches.flatten = all) {P : Cmd → Prop} (hP : ∀ c ∈ all, P c) :
    ∀ c ∈ (batches.map sortCommands).flatten, P c := by
  intro c hc
  refine hP c ?_
  obtain ⟨l, hl, hcl⟩ := List.mem_flatten.mp hc
  obtain ⟨l', hl', rfl⟩ := List.mem_map.mp hl
  rw [← hb]
  refine List.mem_flatten.mpr ⟨l', hl', ?_⟩
  rw [C21_sort_is_stable] at hcl
  rcases List.mem_append.mp hcl with h | h <;> exact (List.mem_filter.mp h).1

/-- The whole document. -/
theorem document {b : Browser} (hb : Bare b) (hhtml : b.children 1 = [2, 3]) {D : List Id} (hclosed : Closed b D) (hD : ∀ x ∈ b.children 3, x ∈ D)
    {hs : List Html} (hshows : Shows b (b.children 3) hs) {n : Nat} {root : HtmlNode} (ht : b.tree n 1 = some root.toTree) (hsound : Sound root) :
    ∃ attr hattr battr content, root = .element "html" attr [.element "head" hattr [], .element "body" battr content] ∧
      attr.getIter = some [] ∧ hattr.getIter = some [] ∧ battr.getIter = some [] ∧ Match content hs := by
  have empty : ∀ {m : OrderedMap}, Orderly m → m.data = (fun _ => none) → m.getIter = some [] := by
    intro m hm hd
    obtain ⟨l, h1, -, h3⟩ := orderly_iter hm
    cases l with
    | nil => exact h1
    | cons x l => have := (h3 x.1 x.2).mp List.mem_cons_self; rw [hd] at this; cases this
  have o1 : b.objects 1 = some (.element "html" fun _ => none) := hb.objects 1 rfl
  have o2 : b.objects 2 = some (.element "head" fun _ => none) := hb.objects 2 rfl
  have o3 : b.objects 3 = some (.element "body" fun _ => none) := hb.objects 3 rfl
  cases n with
  | zero => cases ht
  | succ n =>
  cases n with
  | zero => simp [Browser.tree, o1, hhtml, collect] at ht
  | succ n =>
  simp only [Browser.tree, o1, hhtml, collect, o2, hb.head, o3] at ht
  cases hc : collect (b.tree n) (b.children 3) with
  | none => rw [hc] at ht; simp at ht
  | some ts =>
    rw [hc] at ht
    simp only [Option.some.injEq] at ht
    cases hsound with
    | text => simp [HtmlNode.toTree] at ht
    | comment => simp [HtmlNode.toTree] at ht
    | @element name attr cs s1 s2 =>
      simp only [HtmlNode.toTree, Tree.element.injEq] at ht
      obtain ⟨rfl, ha, hcs⟩ := ht
      match cs, hcs, s2 with
      | [x, y], hcs, s2 =>
        simp only [toTrees, List.cons.injEq, and_true] at hcs
        obtain ⟨hx, hy⟩ := hcs
        cases s2 x (by simp) with
        | text => simp [HtmlNode.toTree] at hx
        | comment => simp [HtmlNode.toTree] at hx
        | @element xn xa xc x1 x2 =>
        cases s2 y (by simp) with
        | text => simp [HtmlNode.toTree] at hy
        | comment => simp [HtmlNode.toTree] at hy
        | @element yn ya yc y1 y2 =>
          simp only [HtmlNode.toTree, Tree.element.injEq] at hx hy
          obtain ⟨rfl, xa', xc'⟩ := hx
          obtain ⟨rfl, ya', yc'⟩ := hy
          cases xc with
          | cons _ _ => simp [toTrees] at xc'
          | nil =>
            refine ⟨attr, xa, ya, yc, rfl, empty s1 ha.symm, empty x1 xa'.symm, empty y1 ya'.symm, ?_⟩
            exact match_of hclosed hshows hD (n := n) (by rw [hc, yc']) y2
      | [], hcs, _ => simp [toTrees] at hcs
      | [_], hcs, _ => simp [toTrees] at hcs
      | _ :: _ :: _ :: _, hcs, _ => simp [toTrees] at hcs

/-- The element of a rule. -/
def styleElement (r : String × String) : Html := .element "style" (fun _ => none) [.text (r.1 ++ " { " ++ r.2 ++ " }")]

theorem match_styles : ∀ css : List (String × String),
    Match (css.map fun r => .element "style" {} [.text (r.1 ++ " { " ++ r.2 ++ " }")]) (css.map styleElement)
  | [] => .nil
  | r :: css => .element (l := []) rfl (by simp) (by simp) (fun h => absurd h (by decide)) (.text .nil) (match_styles css)

/-- What a browser reads, for commands which are executed without an error. -/
theorem page_read {b : Browser} {batches : List (List Cmd)} (hbrun : Browser.init.run batches.flatten = .ok b) {rt : Roots}
    (hr1 : Roots.run {} batches.flatten = some rt) (hr2 : rt.complete) (hclean : ∀ c ∈ batches.flatten, ¬ IsRemoveAttr c)
    (hsmall : ∀ c ∈ batches.flatten, IdsSmall c) (hbare : Bare b) (hbhtml : b.children 1 = [2, 3]) {D : List Id} (hclosed : Closed b D)
    (hD : ∀ x ∈ b.children 3, x ∈ D) {hs : List Html} (hshows : Shows b (b.children 3) hs) (hread : ∀ d ∈ hs, Readable d)
    (hcssok : ∀ r ∈ b.css, Ssr.PlainRule r)
    {e : Ssr.Escape} (he : e.Ok) {mount : Ssr.Mount} (hm : Ssr.Plain mount.runJs ∧ Ssr.Plain mount.wasmPath)
    {env : List (String × String)} (henv : (env.map (·.1)).Nodup) (hlow : ∀ v ∈ env, v.1.toList.map Ssr.lower = v.1.toList)
    (hname : ∀ v ∈ env, Ssr.AttrName ("data-env-" ++ v.1) ∧ Ssr.Plain v.2)
    {depth : Nat} (hdepth : b.objs.length ≤ depth)
    [DecidableEq Key] {call : Client → Nat → Option Resp → Option (Client × List (Ssr.ProgramMessage Key))}
    {s : Ssr.LoopState Key Resp Client Server} (hreached : s.Reached (Ssr.fullProgram e mount env depth call)) {r : Ssr.Response}
    (hf : s.Finished (Ssr.fullProgram e mount env depth call) r) (hfirst : s.first = {})
    (hsent : List.Forall₂ (fun j cs => Json.Same j (batchJson cs)) (Ssr.domUpdates s.produced) batches) :
    ∃ text w ts, r = .html text ∧ Ssr.tokenize text = some (.doctype :: w ++ ts) ∧ Ssr.Blank w ∧
      Reads (.element "html" (attrsOf (env.map fun v => ("data-env-" ++ v.1, v.2))) [.element "head" (fun _ => none) [],
        .element "body" (fun _ => none) (b.css.map styleElement ++ hs ++
          [.element "script" (attrsOf [("type", "module"), ("data-vertigo-run-wasm", mount.wasmPath), ("src", mount.runJs)]) []])]) ts := by
  obtain ⟨sv, root, hrun, hhtml, hcss⟩ := C27_server_document hbrun hr1 hr2
  obtain ⟨d, hd1, hd2, -⟩ := Ssr.C31_document hreached hf
  have hfed := feed_batches (e := e) (mount := mount) (env := env) (depth := depth) (call := call) (s := {}) (s' := sv)
    (js := Ssr.domUpdates s.produced) (batches := batches) hsent hclean hsmall hrun
  rw [hfirst, hfed] at hd1
  cases hd1
  obtain ⟨hroot, htree⟩ := hhtml depth hdepth
  have hsound := sound_html (allOrderly_run (s := {}) (fun _ _ _ _ e => by cases e) hrun) hroot
  obtain ⟨attr, hattr, battr, bcs, rfl, a1, a2, a3, hbody⟩ := document hbare hbhtml hclosed hD hshows htree hsound
  have hempty : ∀ {m : OrderedMap} {name : String} {ns : List HtmlNode}, m.getIter = some [] → Ssr.ElementName name → ¬ Ssr.Forbidden name →
      ¬ Ssr.TextOnly name → ¬ Ssr.Unescaped name → ¬ Ssr.Void name → Ssr.AllOk ns → Ssr.Ok (.element name m ns) := by
    intro m name ns h1 h2 h3 h4 h5 h6 h7
    refine ⟨h2, h3, by rw [h1]; simp, by simp [Ssr.htmlAttrs, h1], fun h => absurd h h4, fun h => absurd h h5, fun h => absurd h h6, h7⟩
  have hdoc : Ssr.Ok (.element "html" attr ([.element "head" hattr []] ++ .element "body" battr bcs :: [])) := by
    refine hempty a1 ⟨⟨_, _, rfl, by decide⟩, by decide⟩ (by decide) (by decide) (by decide) (by decide) ⟨?_, ?_, trivial⟩
    · exact hempty a2 ⟨⟨_, _, rfl, by decide⟩, by decide⟩ (by decide) (by decide) (by decide) (by decide) trivial
    · exact hempty a3 ⟨⟨_, _, rfl, by decide⟩, by decide⟩ (by decide) (by decide) (by decide) (by decide) (ok_of hbody hread)
  obtain ⟨text, w, ts, attr', p1, p2, p3, p4, p5, p6⟩ := Ssr.read_ok he hm henv hlow hname (css := b.css) hcssok a1 (by simp)
    (by simp [Ssr.Named]) hdoc
  have hresp : r = .html text := by
    rw [hd2]
    simp only [Ssr.fullProgram, hroot]
    rw [hcss]
    exact p1
  refine ⟨text, w, ts, hresp, p3, p4, reads_of p5 ?_ p6⟩
  obtain ⟨lattr, l1, l2⟩ := Ssr.C32_loader mount
  have hn : (((env.map fun v => ("data-env-" ++ v.1, v.2)).map (·.1))).Nodup := by
    rw [List.map_map]
    rw [List.Nodup, List.pairwise_map] at henv ⊢
    refine henv.imp ?_
    intro x y hxy heq
    have := congrArg String.toList heq
    simp only [Function.comp, String.toList_append] at this
    exact hxy (String.toList_injective (List.append_cancel_left this))
  have hno : ∀ k v : String, (k, v) ∈ ([] : List (String × String)) ↔ (none : Option String) = some v := by simp
  refine .element p2 (by simpa using hn) (fun k v => attrsOf_iff (by simpa using hn) k v) (fun h => absurd h (by decide)) ?_ .nil
  refine .element a2 (by simp) hno (fun h => absurd h (by decide)) .nil (.element a3 (by simp) hno (fun h => absurd h (by decide)) ?_ .nil)
  refine ((match_styles b.css).append hbody).append ?_
  rw [l1]
  exact .element l2 (by simp) (fun k v => attrsOf_iff (by simp) k v) (fun _ => rfl) .nil .nil

section
variable [DecidableEq V]

omit [DecidableEq V] in
/-- Each node has its own id. -/
theorem Stays.objs {all next b} (h : Stays all next b) : b.objs.length ≤ next := by
  have := (h.good.inv.nodupObjs.subperm (l₂ := List.range next) (fun x hx => by
    obtain ⟨o, ho⟩ := Option.ne_none_iff_exists'.mp ((h.good.inv.objs x).mp hx)
    exact List.mem_range.mpr (h.good.lt ho))).length_le
  simpa using this

theorem Sends.shows {views : List (View S V)} {σ : S} {all} {a : App S V} {b} (h : Sends views σ all a b) :
    Shows b (b.children 3) (htmls σ views) := by
  have := showsAll_of _ h.agree.holds h.agree.fits h.due Shows.nil
  rw [h.agree.body]
  simpa using this

theorem Sends.closed {views : List (View S V)} {σ : S} {all} {a : App S V} {b} (h : Sends views σ all a b) {free : String → Prop}
    (hserved : ∀ v ∈ views, v.ServedBut free) : Closed b (idsAll a.body) :=
  ⟨fun _ hx _ hy => holdsAll_closed h.agree.good h.agree.holds hx hy, holdsAll_void _ h.agree.holds h.agree.fits hserved⟩

theorem Sends.tops {views : List (View S V)} {σ : S} {all} {a : App S V} {b} (h : Sends views σ all a b) :
    ∀ x ∈ b.children 3, x ∈ idsAll a.body := by
  intro z hz
  rw [h.agree.body] at hz
  exact topsAll_sub _ z hz

/-- **C57** (partial: `View.Ok`, `View.Served` and `Readable`). A page is sent when there is nothing to wait for. Then the program has
sent the commands of its view, for its history, in batches. The response is HTML; and what a browser reads of it is the view in the last
state, inside of the body, before the element that loads the program. (`depth` bounds the recursion of the renderer, see `fullProgram`.) -/
theorem C57_page_partial (views : List (View S V)) (hok : ∀ v ∈ views, v.Ok) (hserved : ∀ v ∈ views, v.Served)
    (order : List (Inst S V) → List (Inst S V)) (hord : ∀ l, (order l).Perm l) (σ : S) (h : List (S × List Sub))
    (hc : Complete order h (App.start σ views).1)
    (hread : ∀ d ∈ htmls (lastState σ h) views, Readable d)
    (batches : List (List Cmd)) (hb : batches.flatten = (App.start σ views).2 ++ ((App.start σ views).1.history order h).2)
    (hsmall : ((App.start σ views).1.history order h).1.next ≤ 2 ^ 53)
    {e : Ssr.Escape} (he : e.Ok) {mount : Ssr.Mount} (hm : Ssr.Plain mount.runJs ∧ Ssr.Plain mount.wasmPath)
    {env : List (String × String)} (henv : (env.map (·.1)).Nodup) (hlow : ∀ v ∈ env, v.1.toList.map Ssr.lower = v.1.toList)
    (hname : ∀ v ∈ env, Ssr.AttrName ("data-env-" ++ v.1) ∧ Ssr.Plain v.2)
    {depth : Nat} (hdepth : ((App.start σ views).1.history order h).1.next ≤ depth)
    [DecidableEq Key] {call : Client → Nat → Option Resp → Option (Client × List (Ssr.ProgramMessage Key))}
    {s : Ssr.LoopState Key Resp Client Server} (hs : s.Reached (Ssr.fullProgram e mount env depth call)) {r : Ssr.Response}
    (hf : s.Finished (Ssr.fullProgram e mount env depth call) r) (hfirst : s.first = {})
    (hsent : List.Forall₂ (fun j cs => Json.Same j (batchJson (sortCommands cs))) (Ssr.domUpdates s.produced) batches) :
    ∃ text w ts, r = .html text ∧ Ssr.tokenize text = some (.doctype :: w ++ ts) ∧ Ssr.Blank w ∧
      Reads (.element "html" (attrsOf (env.map fun v => ("data-env-" ++ v.1, v.2))) [.element "head" (fun _ => none) [],
        .element "body" (fun _ => none) (htmls (lastState σ h) views ++
          [.element "script" (attrsOf [("type", "module"), ("data-vertigo-run-wasm", mount.wasmPath), ("src", mount.runJs)]) []])]) ts := by
  obtain ⟨b, hS⟩ := sends (fun v hv => (hok v hv).fine) hord hc
  have hcl := app_clean (order := order) (σ := σ) (h := h) hserved
  obtain ⟨rt, hr1, hr2⟩ := hS.stays.roots hcl hb
  have := page_read (hS.batches hb) hr1 hr2 (mem_sorted hb hcl) (mem_sorted hb (hS.stays.small hsmall)) hS.stays.bare hS.agree.html
    (hS.closed fun v hv => (hserved v hv).but (free := fun _ => False)) hS.tops hS.shows hread (by rw [hS.stays.css]; simp) he hm henv hlow hname
    (Nat.le_trans hS.stays.objs hdepth) hs hf hfirst (by simpa [List.forall₂_map_right_iff] using hsent)
  rw [hS.stays.css] at this
  exact this

end

/-! ## An example -/

/-- A page with an attribute that changes, a text, a list, a void element and a value. -/
def servedView : List (View Nat Nat) :=
  [.element "div" [("title", fun n => some ("<" ++ toString n))] [.computedText fun n => toString n ++ " & more",
    .element "ul" [] [.list (fun n => List.range n) (fun v => v) fun v => .element "li" [] [.text (toString v)]], .element "br" [] []],
   .value (fun n => n) (fun n => n != 0) fun n => .text (toString n)]

theorem servedView_ok : ∀ v ∈ servedView, v.Ok := by
  intro v hv
  simp only [servedView, List.mem_cons, List.not_mem_nil, or_false] at hv
  rcases hv with rfl | rfl
  · refine .element (by decide) (by simp) (by simp) fun c hc => ?_
    simp only [List.mem_cons, List.not_mem_nil, or_false] at hc
    rcases hc with rfl | rfl | rfl
    · exact .computedText
    · refine .element (by decide) (by simp) (by simp) fun c hc => ?_
      rw [List.mem_singleton.mp hc]
      refine .list (fun v => .element (by decide) (by simp) (by simp) fun c hc => ?_) (fun _ => rfl) (fun v w e => by rw [show v = w from e])
      rw [List.mem_singleton.mp hc]; exact .text
    · exact .element (by decide) (by simp) (by simp) (by simp)
  · exact .value fun _ => .text

theorem servedView_served : ∀ v ∈ servedView, v.Served := by
  intro v hv
  simp only [servedView, List.mem_cons, List.not_mem_nil, or_false] at hv
  rcases hv with rfl | rfl
  · refine .element (by simp) (fun h => absurd h (by decide)) fun c hc => ?_
    simp only [List.mem_cons, List.not_mem_nil, or_false] at hc
    rcases hc with rfl | rfl | rfl
    · exact .computedText
    · refine .element (by simp) (fun h => absurd h (by decide)) fun c hc => ?_
      rw [List.mem_singleton.mp hc]
      refine .list fun v => .element (by simp) (fun h => absurd h (by decide)) fun c hc => ?_
      rw [List.mem_singleton.mp hc]; exact .text
    · exact .element (by simp) (fun _ => rfl) (by simp)
  · exact .value fun _ => .text

/-- After the start with 1, the state becomes 2, and all subscriptions that are due run. -/
def servedHistory : List (Nat × List Sub) := [(2, dueAll 2 (App.start 1 servedView).1.body)]

theorem servedHistory_complete : Complete (fun l => l) servedHistory (App.start 1 servedView).1 := ⟨fun _ h => h, trivial⟩

/-- Two batches: one at the start and one after the transaction. -/
def servedBatches : List (List Cmd) :=
  [(App.start 1 servedView).2, ((App.start 1 servedView).1.change 2 (fun l => l) (dueAll 2 (App.start 1 servedView).1.body)).2]

theorem readable_nil {name : String} {cs : List Html} (h1 : Ssr.ElementName name) (h2 : ¬ Ssr.Forbidden name) (h3 : ¬ Ssr.TextOnly name)
    (h4 : ¬ Ssr.Unescaped name) (h5 : Ssr.htmlName name = name.toList) (h6 : ∀ c ∈ cs, Readable c) : Readable (.element name (fun _ => none) cs) :=
  .element h1 h2 (by simp) (by simp) (fun h => absurd h h3) (fun h => absurd h h4) (fun _ => h5) h6

theorem servedView_readable : ∀ d ∈ htmls 2 servedView, Readable d := by
  have e : htmls 2 servedView = [.element "div" (fun a => if a = "title" then some "<2" else none) [.text "2 & more",
      .element "ul" (fun _ => none) [.element "li" (fun _ => none) [.text "0"], .element "li" (fun _ => none) [.text "1"]],
      .element "br" (fun _ => none) []], .text "2"] := by
    simp only [servedView, htmls, html, List.range, List.range.loop, List.flatMap_cons, List.flatMap_nil, List.append_nil, List.nil_append,
      List.cons_append]
    simp only [show (2 != 0) = true from rfl, if_true, List.find?_nil, Option.bind_none]
    congr 2
    funext a
    by_cases h : a = "title"
    · subst h; rfl
    · rw [if_neg h, List.find?_cons_of_neg (by simpa using fun e : "title" = a => h e.symm)]; rfl
  rw [e]
  have li : ∀ s, Ssr.Plain s → Readable (.element "li" (fun _ => none) [.text s]) := fun s hs =>
    readable_nil ⟨⟨_, _, rfl, by decide⟩, by decide⟩ (by decide) (by decide) (by decide) (by decide) fun c hc => by
      rw [List.mem_singleton.mp hc]; exact .text hs
  have p : ∀ s ∈ ["0", "1", "2", "<2", "2 & more"], Ssr.Plain s := by unfold Ssr.Plain; decide
  intro d hd
  simp only [List.mem_cons, List.not_mem_nil, or_false] at hd
  rcases hd with rfl | rfl
  · refine .element ⟨⟨_, _, rfl, by decide⟩, by decide⟩ (by decide) ?_ ?_ (fun h => absurd h (by decide)) (fun h => absurd h (by decide))
      (fun h => absurd h (by decide)) ?_
    · intro k v h
      split at h
      · cases h; rename_i hk; subst hk; exact ⟨⟨by decide, by decide⟩, p _ (by simp)⟩
      · cases h
    · intro k k' h h' _
      split at h
      · split at h'
        · rename_i h1 h2; rw [h1, h2]
        · exact absurd rfl h'
      · exact absurd rfl h
    · intro c hc
      simp only [List.mem_cons, List.not_mem_nil, or_false] at hc
      rcases hc with rfl | rfl | rfl
      · exact .text (p _ (by simp))
      · refine readable_nil ⟨⟨_, _, rfl, by decide⟩, by decide⟩ (by decide) (by decide) (by decide) (by decide) fun c hc => ?_
        simp only [List.mem_cons, List.not_mem_nil, or_false] at hc
        rcases hc with rfl | rfl <;> exact li _ (p _ (by simp))
      · exact readable_nil ⟨⟨_, _, rfl, by decide⟩, by decide⟩ (by decide) (by decide) (by decide) (by decide) (by simp)
  · exact .text (p _ (by simp))

theorem process_dom {p : Ssr.Program String Nat Unit Server} {s : Ssr.LoopState String Nat Unit Server} {j : Codec.JsJson} {d : Server}
    (h : p.feed s.doc j = some d) : s.process p (.program (.domUpdate j)) = .next { s with doc := d } := by
  simp only [Ssr.LoopState.process, h]

mutual
theorem same_refl : ∀ j : Codec.JsJson, Json.Same j j
  | .tru => .tru
  | .fls => .fls
  | .null => .null
  | .str s => .str s
  | .num b => .num b
  | .list l => .list (sameList_refl l)
  | .obj l => .obj (.refl _) (sameMap_refl l)
theorem sameList_refl : ∀ l : List Codec.JsJson, SameList l l
  | [] => .nil
  | j :: l => .cons (same_refl j) (sameList_refl l)
theorem sameMap_refl : ∀ l : List (String × Codec.JsJson), SameMap l l
  | [] => .nil
  | (_, j) :: l => .cons (same_refl j) (sameMap_refl l)
end

/-- A program that sends a first batch, and a second one when a response has arrived. -/
theorem two_batches {p : Ssr.Program String Nat Unit Server} {j0 j1 : Codec.JsJson} {d0 d1 : Server}
    (hc : p.call = fun _ _ _ => some ((), [.domUpdate j1])) (h0 : p.feed {} j0 = some d0) (h1 : p.feed d0 j1 = some d1) :
    ∃ (s : Ssr.LoopState String Nat Unit Server) (r : Ssr.Response), s.Reached p ∧ s.Finished p r ∧ s.first = {} ∧ Ssr.domUpdates s.produced = [j0, j1] ∧ s.sent = ["/a"] := by
  obtain ⟨call, feed, build⟩ := p
  simp only at hc h0 h1
  subst hc
  have s1 := Ssr.LoopState.Reached.start (Resp := Nat) (p := ⟨fun _ _ _ => some ((), [.domUpdate j1]), feed, build⟩) () ({} : Server)
    [.domUpdate j0, .fetchRequest 2 "/a"]
  have s2 := s1.step (.handle rfl (process_dom h0))
  have s3 := s2.step (.handle rfl rfl)
  have s4 := s3.step (.arrive (k := "/a") (List.mem_cons_self) 7)
  have s5 := s4.step (.handle rfl rfl)
  have s6 := s5.step (.handle rfl (process_dom h1))
  exact ⟨_, _, s6, ⟨rfl, rfl, rfl⟩, rfl, rfl, rfl⟩

/-- What it sends for `servedView`. -/
def servedBatch (n : Nat) : Codec.JsJson := batchJson (sortCommands (servedBatches.getD n []))

def servedProgram : Ssr.Program String Nat Unit Server :=
  Ssr.fullProgram Ssr.htmlEscape ⟨"/run.js", "/a.wasm"⟩ [("port", "80")] 100 fun _ _ _ => some ((), [.domUpdate (servedBatch 1)])

/-- The page for `servedView`. -/
example : ∃ (s : Ssr.LoopState String Nat Unit Server) (r : Ssr.Response), s.Reached servedProgram ∧ s.Finished servedProgram r ∧
    s.sent = ["/a"] ∧ ∃ text w ts, r = .html text ∧ Ssr.tokenize text = some (.doctype :: w ++ ts) ∧ Ssr.Blank w ∧
    Reads (.element "html" (attrsOf [("data-env-port", "80")]) [.element "head" (fun _ => none) [],
        .element "body" (fun _ => none) (htmls 2 servedView ++
          [.element "script" (attrsOf [("type", "module"), ("data-vertigo-run-wasm", "/a.wasm"), ("src", "/run.js")]) []])]) ts := by
  have hf : ((servedProgram.feed {} (servedBatch 0)).bind fun d => servedProgram.feed d (servedBatch 1)).isSome = true := by decide +kernel
  obtain ⟨d0, d1, h0, h1⟩ : ∃ d0 d1, servedProgram.feed {} (servedBatch 0) = some d0 ∧ servedProgram.feed d0 (servedBatch 1) = some d1 := by
    cases h0 : servedProgram.feed {} (servedBatch 0) with
    | none => rw [h0] at hf; cases hf
    | some d0 =>
      cases h1 : servedProgram.feed d0 (servedBatch 1) with
      | none => rw [h0, Option.bind_some, h1] at hf; cases hf
      | some d1 => exact ⟨d0, d1, rfl, h1⟩
  obtain ⟨s, r, hr, hf, hfirst, hsent, hs⟩ := two_batches (p := servedProgram) rfl h0 h1
  refine ⟨s, r, hr, hf, hs, ?_⟩
  exact C57_page_partial servedView servedView_ok servedView_served (fun l => l) (fun l => .refl l) 1 servedHistory servedHistory_complete
    servedView_readable servedBatches (by decide +kernel) (by decide +kernel) Ssr.htmlEscape_ok (mount := ⟨"/run.js", "/a.wasm"⟩)
    (by unfold Ssr.Plain; decide) (env := [("port", "80")]) (by decide) (by decide)
    (by intro v hv; rw [List.mem_singleton.mp hv]; exact ⟨⟨by decide, by decide⟩, by unfold Ssr.Plain; decide⟩) (depth := 100) (by decide +kernel)
    hr hf hfirst (by rw [hsent]; exact .cons (same_refl _) (.cons (same_refl _) .nil))

/-! ## Where the server fails -/

/-- An input that is sometimes disabled. -/
def absentView : List (View Nat Nat) := [.element "input" [("disabled", fun n => if n = 0 then none else some "")] []]

/-- **C57** does not hold for attributes without a value: the program sends a command for the attribute it does not have, and rendering
fails (`C28_remove_attr_violated`). With a value there is a page. -/
theorem C57_absent_violated : (∀ v ∈ absentView, v.Ok) ∧
    servedProgram.feed {} (batchJson (sortCommands (App.start 0 absentView).2)) = none ∧
    (servedProgram.feed {} (batchJson (sortCommands (App.start 1 absentView).2))).isSome = true := by
  refine ⟨?_, ?_, by decide +kernel⟩
  · intro v hv
    rw [List.mem_singleton.mp hv]
    exact .element (by decide) (by simp) (by simp) (by simp)
  · exact Option.isNone_iff_eq_none.mp (by decide +kernel)

end Verif.View

import Verif.View.StyledPage
import Verif.View.Content
/-!
# C57, C58, C64 and C65 for lists and fragments of anything

`C49_content_partial` is about the page in the browser: for all views in which items with the same key look the same it has the elements and texts
of the view, up to the order of siblings. Here the same is proved of the page that the server sends, of the page that replaces another one, and
of the classes and styles.
-/
namespace Verif.View
open Verif.Dom Verif.Css Verif.Json

/-! ## Specification -/

/-- The same documents up to the order of siblings, at every level. -/
inductive Shuffled : List Html → List Html → Prop where
  | nil : Shuffled [] []
  | text {s ds hs} : Shuffled ds hs → Shuffled (.text s :: ds) (.text s :: hs)
  | element {name attr cs cs' ds hs} : Shuffled cs cs' → Shuffled ds hs → Shuffled (.element name attr cs :: ds) (.element name attr cs' :: hs)
  | reorder {ds ds' hs} : ds.Perm ds' → Shuffled ds' hs → Shuffled ds hs

/-! ## Proofs -/

theorem shows_perm {b : Browser} {xs ys : List Id} (hp : xs.Perm ys) : ∀ {ds}, Shows b ys ds → ∃ ds', Shows b xs ds' ∧ ds'.Perm ds := by
  induction hp with
  | nil => exact fun h => ⟨_, h, .refl _⟩
  | cons x _ ih =>
    intro ds h
    cases h with
    | text e h => obtain ⟨ds', h1, h2⟩ := ih h; exact ⟨_, .text e h1, h2.cons _⟩
    | comment e h => obtain ⟨ds', h1, h2⟩ := ih h; exact ⟨_, .comment e h1, h2⟩
    | element e h0 h => obtain ⟨ds', h1, h2⟩ := ih h; exact ⟨_, .element e h0 h1, h2.cons _⟩
  | swap x y l =>
    intro ds h
    cases h with
    | text e h =>
      cases h with
      | text e' h => exact ⟨_, .text e' (.text e h), .swap _ _ _⟩
      | comment e' h => exact ⟨_, .comment e' (.text e h), .refl _⟩
      | element e' h0 h => exact ⟨_, .element e' h0 (.text e h), .swap _ _ _⟩
    | comment e h =>
      cases h with
      | text e' h => exact ⟨_, .text e' (.comment e h), .refl _⟩
      | comment e' h => exact ⟨_, .comment e' (.comment e h), .refl _⟩
      | element e' h0 h => exact ⟨_, .element e' h0 (.comment e h), .refl _⟩
    | element e h1 h =>
      cases h with
      | text e' h => exact ⟨_, .text e' (.element e h1 h), .swap _ _ _⟩
      | comment e' h => exact ⟨_, .comment e' (.element e h1 h), .refl _⟩
      | element e' h0 h => exact ⟨_, .element e' h0 (.element e h1 h), .swap _ _ _⟩
  | trans _ _ ih1 ih2 =>
    intro ds h
    obtain ⟨ds1, h1, h2⟩ := ih2 h
    obtain ⟨ds2, h3, h4⟩ := ih1 h1
    exact ⟨_, h3, h4.trans h2⟩

/-- What a page shows is what it has, up to order. -/
theorem ShowsSome.shows {b : Browser} {xs hs} (h : ShowsSome b xs hs) : ∃ ds, Shows b xs ds ∧ Shuffled ds hs := by
  induction h with
  | nil => exact ⟨_, .nil, .nil⟩
  | text e _ ih => obtain ⟨ds, h1, h2⟩ := ih; exact ⟨_, .text e h1, .text h2⟩
  | comment e _ ih => obtain ⟨ds, h1, h2⟩ := ih; exact ⟨_, .comment e h1, h2⟩
  | element e hp _ _ ih1 ih2 =>
    obtain ⟨cs, h1, h2⟩ := ih1
    obtain ⟨ds, h3, h4⟩ := ih2
    obtain ⟨cs', h5, h6⟩ := shows_perm hp h1
    exact ⟨_, .element e h5 h3, .element (.reorder h6 h2) h4⟩

theorem mem_words {c : Char} : ∀ {hs : List Html}, c ∈ words hs ↔ ∃ s, .text s ∈ hs ∧ c ∈ s.toList
  | [] => by simp [words]
  | .text s :: hs => by
      simp only [words, List.mem_append, mem_words (hs := hs), List.mem_cons, Html.text.injEq]
      constructor
      · rintro (h | ⟨s', h, h'⟩)
        · exact ⟨s, Or.inl rfl, h⟩
        · exact ⟨s', Or.inr h, h'⟩
      · rintro ⟨s', rfl | h, h'⟩
        · exact Or.inl h'
        · exact Or.inr ⟨s', h, h'⟩
  | .element _ _ _ :: hs => by simp [words, mem_words (hs := hs)]

theorem Shuffled.texts {ds hs} (h : Shuffled ds hs) : ∀ s, .text s ∈ ds ↔ .text s ∈ hs := by
  induction h with
  | nil => simp
  | text _ ih => intro s; simp [ih]
  | element _ _ _ ih => intro s; simp [ih]
  | reorder hp _ ih => intro s; rw [hp.mem_iff, ih]

theorem Shuffled.words {ds hs} (h : Shuffled ds hs) (c : Char) : c ∈ View.words ds ↔ c ∈ View.words hs := by
  simp only [mem_words, h.texts]

theorem Shuffled.isText {ds hs} (h : Shuffled ds hs) : (∀ c ∈ hs, c.IsText) → ∀ c ∈ ds, c.IsText := by
  induction h with
  | nil => simp
  | text _ ih =>
    intro ht c hc
    rcases List.mem_cons.mp hc with rfl | hc
    · trivial
    · exact ih (fun c hc => ht c (by simp [hc])) c hc
  | element => intro ht; exact absurd (ht _ List.mem_cons_self) (by simp [Html.IsText])
  | reorder hp _ ih => intro ht c hc; exact ih ht c (hp.mem_iff.mp hc)

theorem Shuffled.readable {ds hs} (h : Shuffled ds hs) : (∀ d ∈ hs, Readable d) → ∀ d ∈ ds, Readable d := by
  induction h with
  | nil => simp
  | text _ ih =>
    intro ht c hc
    rcases List.mem_cons.mp hc with rfl | hc
    · cases ht _ List.mem_cons_self with | text h => exact .text h
    · exact ih (fun c hc => ht c (by simp [hc])) c hc
  | element h0 _ ih1 ih2 =>
    intro ht c hc
    rcases List.mem_cons.mp hc with rfl | hc
    · cases ht _ List.mem_cons_self with
      | element e1 e2 e3 e4 e5 e6 e7 e8 =>
        exact .element e1 e2 e3 e4 (fun h => h0.isText (e5 h)) (fun h => by rw [h0.words]; exact e6 h) e7 (ih1 e8)
    · exact ih2 (fun c hc => ht c (by simp [hc])) c hc
  | reorder hp _ ih => intro ht c hc; exact ih ht c (hp.mem_iff.mp hc)

theorem Shuffled.wearable {ds hs} (h : Shuffled ds hs) : (∀ d ∈ hs, Wearable d) → ∀ d ∈ ds, Wearable d := by
  induction h with
  | nil => simp
  | text _ ih =>
    intro ht c hc
    rcases List.mem_cons.mp hc with rfl | hc
    · cases ht _ List.mem_cons_self with | text h => exact .text h
    · exact ih (fun c hc => ht c (by simp [hc])) c hc
  | element h0 _ ih1 ih2 =>
    intro ht c hc
    rcases List.mem_cons.mp hc with rfl | hc
    · cases ht _ List.mem_cons_self with
      | element e1 e2 e3 e4 e5 e6 e7 e8 =>
        exact .element e1 e2 e3 e4 (fun h => h0.isText (e5 h)) (fun h => by rw [h0.words]; exact e6 h) e7 (ih1 e8)
    · exact ih2 (fun c hc => ht c (by simp [hc])) c hc
  | reorder hp _ ih => intro ht c hc; exact ih ht c (hp.mem_iff.mp hc)

theorem has_closed {b : Browser} {n} (hg : Good b n) {is : List (Inst S V)} {p} (h : HasAll b p is) {x} (hx : x ∈ idsAll is)
    {y} (hy : y ∈ b.children x) : y ∈ idsAll is := by
  rcases hasAll_children is h x hx y hy with h1 | ⟨s, h1⟩
  · exact h1
  · obtain ⟨-, nm, f, e⟩ := hg.inv.par y x ((hg.inv.link x y).mp hy)
    rcases h1 with h1 | h1 <;> rw [e] at h1 <;> cases h1

mutual
theorem has_void {free : String → Prop} {b : Browser} : ∀ (i : Inst S V) {v p}, Has b p i → Fits v i → v.ServedBut free → ∀ x ∈ ids i, ∀ name a,
    b.objects x = some (.element name a) → Ssr.Void name → b.children x = []
  | .element id name' attrs' is, v, p, h, hf, hv, x, hx, name, a, e, hvoid => by
      cases v with
      | element nm attrs vs =>
        obtain ⟨rfl, rfl, hf⟩ := hf
        cases hv with
        | element v1 v2 v3 =>
          obtain ⟨-, ⟨F, ho, -⟩, hch, hall⟩ := h
          rcases List.mem_cons.mp hx with rfl | hx
          · rw [ho] at e; cases e
            rw [v2 hvoid] at hf
            cases is with
            | nil =>
              refine List.eq_nil_iff_forall_not_mem.mpr fun y hy => ?_
              have := (hch y).mp hy
              simp [topsAll] at this
            | cons i is => exact hf.elim
          · exact hasAll_void is hall hf v3 x hx name a e hvoid
      | _ => exact hf.elim
  | .text id value, v, p, h, hf, hv, x, hx, name, a, e, hvoid => by
      simp only [ids, List.mem_singleton] at hx; subst hx; rw [h.2] at e; cases e
  | .computedText id f last, v, p, h, hf, hv, x, hx, name, a, e, hvoid => by
      simp only [ids, List.mem_singleton] at hx; subst hx; rw [h.2] at e; cases e
  | .value id p' f shown render last content, v, p, h, hf, hv, x, hx, name, a, e, hvoid => by
      cases v with
      | value f' shown' render' =>
        obtain ⟨rfl, rfl, rfl, hf⟩ := hf
        cases hv with
        | value v1 =>
          rcases List.mem_cons.mp hx with rfl | hx
          · obtain ⟨s, hs⟩ := h.2.2.1; rw [hs] at e; cases e
          · refine hasAll_void (free := free) content h.2.2.2 hf ?_ x hx name a e hvoid
            intro c hc
            split at hc
            · rw [List.mem_singleton.mp hc]; exact v1 _
            · cases hc
      | _ => exact hf.elim
  | .list id p' f key render items content, v, p, h, hf, hv, x, hx, name, a, e, hvoid => by
      cases v with
      | list f' key' render' =>
        obtain ⟨rfl, rfl, rfl, hf⟩ := hf
        cases hv with
        | list v1 =>
          rcases List.mem_cons.mp hx with rfl | hx
          · obtain ⟨s, hs⟩ := h.2.2.1; rw [hs] at e; cases e
          · refine hasAll_void (free := free) content h.2.2.2 hf ?_ x hx name a e hvoid
            intro c hc
            obtain ⟨y, -, rfl⟩ := List.mem_map.mp hc
            exact v1 y
      | _ => exact hf.elim
  | .fragment id p' content, v, p, h, hf, hv, x, hx, name, a, e, hvoid => by
      cases v with
      | fragment vs =>
        cases hv with
        | fragment v1 =>
          rcases List.mem_cons.mp hx with rfl | hx
          · obtain ⟨s, hs⟩ := h.2.2.1; rw [hs] at e; cases e
          · exact hasAll_void content h.2.2.2 hf v1 x hx name a e hvoid
      | _ => exact hf.elim
theorem hasAll_void {free : String → Prop} {b : Browser} : ∀ (is : List (Inst S V)) {vs p}, HasAll b p is → FitsAll vs is → (∀ v ∈ vs, v.ServedBut free) →
    ∀ x ∈ idsAll is, ∀ name a, b.objects x = some (.element name a) → Ssr.Void name → b.children x = []
  | [], _, _, _, _, _, x, hx, _, _, _, _ => by cases hx
  | i :: is, vs, p, h, hf, hv, x, hx, name, a, e, hvoid => by
      cases vs with
      | nil => exact hf.elim
      | cons v vs =>
        rcases List.mem_append.mp hx with hx | hx
        · exact has_void i h.1 hf.1 (hv v List.mem_cons_self) x hx name a e hvoid
        · exact hasAll_void is h.2 hf.2 (fun w hw => hv w (List.mem_cons_of_mem _ hw)) x hx name a e hvoid
end

section
variable {S V : Type} [DecidableEq V]

/-- What is known about the page of an application, in any order. -/
structure Settles (views : List (View S V)) (σ : S) (all : List Cmd) (a : App S V) (b : Browser) (ds : List Html) : Prop where
  stays : Stays all a.next b
  shows : Shows b (b.children 3) ds
  like : Shuffled ds (htmls σ views)
  tops : ∀ x ∈ b.children 3, x ∈ idsAll a.body
  closed : ∀ {free : String → Prop}, (∀ v ∈ views, v.ServedBut free) → Closed b (idsAll a.body)

theorem settles {views : List (View S V)} (hok : ∀ v ∈ views, v.Loose) {order : List (Inst S V) → List (Inst S V)}
    (hord : ∀ l, (order l).Perm l) {σ : S} {h : List (S × List Sub)} (hc : Complete order h (App.start σ views).1) :
    ∃ b ds, Settles views (lastState σ h) (App.sent σ views order h) ((App.start σ views).1.history order h).1 b ds := by
  obtain ⟨b, hs⟩ := leads σ views hord h
  obtain ⟨_, _, _, _, -, -, -, -, hn⟩ := start_near σ views
  obtain ⟨h1, h2⟩ := start_made (σ := σ) hok
  obtain ⟨h3, h4⟩ := history_made hok hord h hn h1 h2 hc
  have hp := some_perm (hs.near.good.inv.nodup 3) (topsAll_nodup _ hs.near.sits.nodup) hs.near.kids
  have hsome := showsSomeAll_of hs.near.good _ hok hs.near.sits.has h3 h4 hs.near.sits.nodup ShowsSome.nil
  rw [List.append_nil, List.append_nil] at hsome
  obtain ⟨ds, h5, h6⟩ := hsome.shows
  obtain ⟨ds', h7, h8⟩ := shows_perm hp h5
  exact ⟨b, ds', ⟨hs.split, hs.run, hs.inserts, hs.near.good, hs.near.html⟩, h7, .reorder h8 h6, fun x hx => topsAll_sub _ x ((hs.near.kids x).mp hx),
    fun hserved => ⟨fun _ hx _ hy => has_closed hs.near.good hs.near.sits.has hx hy, hasAll_void _ hs.near.sits.has h3 hserved⟩⟩

/-! ## Theorems -/

/-- **C57** up to the order of siblings: lists and fragments of anything. A page is sent when there is nothing to wait for. Then the program has
sent the commands of its view, for its history, in batches. The response is HTML; and what a browser reads of it is, inside of the body and before the
element that loads the program, the view in the last state, up to the order of siblings. -/
theorem C57_content_partial (views : List (View S V)) (hok : ∀ v ∈ views, v.Keyed) (hserved : ∀ v ∈ views, v.Served)
    (order : List (Inst S V) → List (Inst S V)) (hord : ∀ l, (order l).Perm l) (σ : S) (h : List (S × List Sub))
    (hc : Complete order h (App.start σ views).1)
    (hread : ∀ d ∈ htmls (lastState σ h) views, Readable d)
    (batches : List (List Cmd)) (hb : batches.flatten = (App.start σ views).2 ++ ((App.start σ views).1.history order h).2)
    (hsmall : ((App.start σ views).1.history order h).1.next ≤ 2 ^ 53)
    {e : Ssr.Escape} (he : e.Ok) {mount : Ssr.Mount} (hm : Ssr.Plain mount.runJs ∧ Ssr.Plain mount.wasmPath)
    {env : List (String × String)} (henv : (env.map (·.1)).Nodup) (hlow : ∀ v ∈ env, v.1.toList.map Ssr.lower = v.1.toList)
    (hname : ∀ v ∈ env, Ssr.AttrName ("data-env-" ++ v.1) ∧ Ssr.Plain v.2)
    {depth : Nat} (hdepth : ((App.start σ views).1.history order h).1.next ≤ depth)
    [DecidableEq Key] {call : Client → Nat → Option Resp → Option (Client × List (Ssr.ProgramMessage Key))}
    {s : Ssr.LoopState Key Resp Client Server} (hs : s.Reached (Ssr.fullProgram e mount env depth call)) {r : Ssr.Response}
    (hf : s.Finished (Ssr.fullProgram e mount env depth call) r) (hfirst : s.first = {})
    (hsent : List.Forall₂ (fun j cs => Json.Same j (batchJson (sortCommands cs))) (Ssr.domUpdates s.produced) batches) :
    ∃ content text w ts, Shuffled content (htmls (lastState σ h) views) ∧ r = .html text ∧ Ssr.tokenize text = some (.doctype :: w ++ ts) ∧ Ssr.Blank w ∧
      Reads (.element "html" (attrsOf (env.map fun v => ("data-env-" ++ v.1, v.2))) [.element "head" (fun _ => none) [],
        .element "body" (fun _ => none) (content ++
          [.element "script" (attrsOf [("type", "module"), ("data-vertigo-run-wasm", mount.wasmPath), ("src", mount.runJs)]) []])]) ts := by
  obtain ⟨b, ds, hS⟩ := settles (fun v hv => (hok v hv).loose) hord hc
  have hcl := app_clean (order := order) (σ := σ) (h := h) hserved
  obtain ⟨rt, hr1, hr2⟩ := hS.stays.roots hcl hb
  have := page_read (hS.stays.batches hb) hr1 hr2 (mem_sorted hb hcl) (mem_sorted hb (hS.stays.small hsmall)) hS.stays.bare hS.stays.html
    (hS.closed fun v hv => (hserved v hv).but (free := fun _ => False)) hS.tops hS.shows (hS.like.readable hread) (by rw [hS.stays.css]; simp) he hm henv
    hlow hname (Nat.le_trans hS.stays.objs hdepth) hs hf hfirst (by simpa [List.forall₂_map_right_iff] using hsent)
  rw [hS.stays.css] at this
  obtain ⟨text, w, ts, h1⟩ := this
  exact ⟨ds, text, w, ts, hS.like, h1⟩

/-- **C58 for applications** up to the order of siblings: lists and fragments of anything. Whatever the page has in its head and body when the program
starts, after the commands of the application have been executed, in sorted batches, it shows the application and nothing else. -/
theorem C58_content_partial {page : Browser} (hp : Arrived page) (views : List (View S V)) (hok : ∀ v ∈ views, v.Keyed)
    (order : List (Inst S V) → List (Inst S V))
    (hord : ∀ l, (order l).Perm l) (σ : S) (h : List (S × List Sub)) (hc : Complete order h (App.start σ views).1)
    (batches : List (List Cmd)) (hb : batches.flatten = (App.start σ views).2 ++ ((App.start σ views).1.history order h).2)
    (hids : ∀ c ∈ batches.flatten, ∀ x, makes c = some x → ¬ Old page x) :
    let p := ((batches.map sortCommands).foldl Driver.update ⟨page, false⟩).page
    (∃ content, Shows p (p.children 3) content ∧ Shuffled content (htmls (lastState σ h) views)) ∧ p.children 2 = [] ∧
      (p.children 1).filter isRoot = [2, 3] ∧ ∀ x, x ∈ page.children 2 ∨ x ∈ page.children 3 → p.parent x = none := by
  obtain ⟨b, ds, hS⟩ := settles (fun v hv => (hok v hv).loose) hord hc
  obtain ⟨h1, h2⟩ := takeover_of hp hS.stays hS.shows batches hb hids
  exact ⟨⟨ds, h1, hS.like⟩, h2⟩

/-- **C64** up to the order of siblings: lists and fragments of anything, with classes and css. Nothing panics; the commands can be sent in any batches, each of
them sorted; the browser executes them without an error; and the page looks like the view in the last state, up to the order of siblings. -/
theorem C64_content_partial (style : String → CssValue) (hstyle : Styling style) (views : List (View S V)) (hok : ∀ v ∈ views, v.Loose)
    (order : List (Inst S V) → List (Inst S V)) (hord : ∀ l, (order l).Perm l) (σ : S) (h : List (S × List Sub))
    (hc : Complete order h (App.start σ views).1) :
    ∃ s out b cls uses content, Styles.run style ((App.start σ views).2 ++ ((App.start σ views).1.history order h).2) {} = some (s, out) ∧
      b.children 1 = [2, 3] ∧ Shuffled content (htmls (lastState σ h) views) ∧ Looks style cls uses b (b.children 3) content ∧ Sheet style cls uses b.css ∧
      ∀ batches : List (List Cmd), batches.flatten = out → Browser.init.run (batches.map sortCommands).flatten = .ok b := by
  obtain ⟨b, ds, hS⟩ := settles hok hord hc
  obtain ⟨s, out, b, cls, uses, h1, h2⟩ := styled_of hstyle hS.stays hS.shows
  exact ⟨s, out, b, cls, uses, ds, h1, h2.html, hS.like, h2.looks, h2.sheet, fun batches hb => h2.batches hb⟩

/-- **C64 with C58** up to the order of siblings. The same when the page came from the server: whatever it has in its head and body is replaced. -/
theorem C64_takeover_content_partial {page : Browser} (hp : Arrived page) (style : String → CssValue) (hstyle : Styling style) (views : List (View S V))
    (hok : ∀ v ∈ views, v.Loose) (order : List (Inst S V) → List (Inst S V)) (hord : ∀ l, (order l).Perm l) (σ : S) (h : List (S × List Sub))
    (hc : Complete order h (App.start σ views).1)
    (hids : ∀ c ∈ (App.start σ views).2 ++ ((App.start σ views).1.history order h).2, ∀ x, makes c = some x → ¬ Old page x) :
    ∃ s out cls uses content, Styles.run style ((App.start σ views).2 ++ ((App.start σ views).1.history order h).2) {} = some (s, out) ∧
      Shuffled content (htmls (lastState σ h) views) ∧
      ∀ batches : List (List Cmd), batches.flatten = out →
        let p := ((batches.map sortCommands).foldl Driver.update ⟨page, false⟩).page
        Looks style cls uses p (p.children 3) content ∧ Sheet style cls uses p.css ∧ p.children 2 = [] ∧
          (p.children 1).filter isRoot = [2, 3] ∧ ∀ x, x ∈ page.children 2 ∨ x ∈ page.children 3 → p.parent x = none := by
  obtain ⟨b0, ds, hS⟩ := settles hok hord hc
  obtain ⟨s, out, b, cls, uses, h1, h2⟩ := styled_of hstyle hS.stays hS.shows
  exact ⟨s, out, cls, uses, ds, h1, hS.like, fun batches hb => styledTakeover_of hp hS.stays h1 h2 hids batches hb⟩

/-- **C65** up to the order of siblings: lists and fragments of anything, with classes and css. What a browser reads of the page of the server is the view
in the last state, up to the order of siblings, inside of the body: every element has the class that is written with the classes of its css, before that
are the rules of these classes, and after that is the element that loads the program. -/
theorem C65_content_partial (style : String → CssValue) (hstyle : Styling style) (hplain : PlainStyle style)
    (views : List (View S V)) (hok : ∀ v ∈ views, v.Loose) (hserved : ∀ v ∈ views, v.ServedBut fun a => a = "class" ∨ a = "css")
    (order : List (Inst S V) → List (Inst S V)) (hord : ∀ l, (order l).Perm l) (σ : S) (h : List (S × List Sub))
    (hc : Complete order h (App.start σ views).1)
    (hread : ∀ d ∈ htmls (lastState σ h) views, Wearable d)
    {styles : Styles} {out : List Cmd}
    (hout : Styles.run style ((App.start σ views).2 ++ ((App.start σ views).1.history order h).2) {} = some (styles, out))
    (batches : List (List Cmd)) (hb : batches.flatten = out)
    (hsmall : ((App.start σ views).1.history order h).1.next ≤ 2 ^ 53)
    {e : Ssr.Escape} (he : e.Ok) {mount : Ssr.Mount} (hm : Ssr.Plain mount.runJs ∧ Ssr.Plain mount.wasmPath)
    {env : List (String × String)} (henv : (env.map (·.1)).Nodup) (hlow : ∀ v ∈ env, v.1.toList.map Ssr.lower = v.1.toList)
    (hname : ∀ v ∈ env, Ssr.AttrName ("data-env-" ++ v.1) ∧ Ssr.Plain v.2)
    {depth : Nat} (hdepth : ((App.start σ views).1.history order h).1.next ≤ depth)
    [DecidableEq Key] {call : Client → Nat → Option Resp → Option (Client × List (Ssr.ProgramMessage Key))}
    {s : Ssr.LoopState Key Resp Client Server} (hs : s.Reached (Ssr.fullProgram e mount env depth call)) {r : Ssr.Response}
    (hf : s.Finished (Ssr.fullProgram e mount env depth call) r) (hfirst : s.first = {})
    (hsent : List.Forall₂ (fun j cs => Json.Same j (batchJson (sortCommands cs))) (Ssr.domUpdates s.produced) batches) :
    ∃ cls uses css plain content text w ts, Sheet style cls uses css ∧ Shuffled plain (htmls (lastState σ h) views) ∧
      Dressed style cls uses plain content ∧
      r = .html text ∧ Ssr.tokenize text = some (.doctype :: w ++ ts) ∧ Ssr.Blank w ∧
      Reads (.element "html" (attrsOf (env.map fun v => ("data-env-" ++ v.1, v.2))) [.element "head" (fun _ => none) [],
        .element "body" (fun _ => none)
          (css.map (fun r => .element "style" (fun _ => none) [.text (r.1 ++ " { " ++ r.2 ++ " }")]) ++ content ++
          [.element "script" (attrsOf [("type", "module"), ("data-vertigo-run-wasm", mount.wasmPath), ("src", mount.runJs)]) []])]) ts := by
  obtain ⟨b, ds, hS⟩ := settles hok hord hc
  obtain ⟨cls, uses, css, content, text, w, ts, h1, h2⟩ := styledPage_of hstyle hplain hS.stays (app_cleanBut (order := order) (σ := σ) (h := h) hserved)
    (hS.closed hserved) hS.tops hS.shows (hS.like.wearable hread) hout batches hb hsmall he hm henv hlow hname hdepth hs hf hfirst hsent
  exact ⟨cls, uses, css, ds, content, text, w, ts, h1, hS.like, h2⟩

end

/-! ## Examples -/

theorem mixedView_served : ∀ v ∈ mixedView, v.Served := by
  intro v hv
  simp only [mixedView, List.mem_cons, List.not_mem_nil, or_false] at hv
  subst hv
  refine .list fun v => .fragment fun c hc => ?_
  simp only [List.mem_cons, List.not_mem_nil, or_false] at hc
  rcases hc with rfl | rfl
  · refine .element (by simp) (fun h => absurd h (by decide)) fun c hc => ?_
    rw [List.mem_singleton.mp hc]; exact .text
  · exact .value fun _ => .text

theorem mixedView_readable : ∀ d ∈ htmls 2 mixedView, Readable d := by
  have e : htmls 2 mixedView = [.element "a" (fun _ => none) [.text "0"], .text "2", .element "a" (fun _ => none) [.text "1"], .text "3"] := rfl
  rw [e]
  have a : ∀ s, Ssr.Plain s → Readable (.element "a" (fun _ => none) [.text s]) := fun s hs =>
    readable_nil ⟨⟨_, _, rfl, by decide⟩, by decide⟩ (by decide) (by decide) (by decide) (by decide) fun c hc => by
      rw [List.mem_singleton.mp hc]; exact .text hs
  have p : ∀ s ∈ ["0", "1", "2", "3"], Ssr.Plain s := by unfold Ssr.Plain; decide
  intro d hd
  simp only [List.mem_cons, List.not_mem_nil, or_false] at hd
  rcases hd with rfl | rfl | rfl | rfl
  · exact a _ (p _ (by simp))
  · exact .text (p _ (by simp))
  · exact a _ (p _ (by simp))
  · exact .text (p _ (by simp))

def mixedBatch (n : Nat) : Codec.JsJson := batchJson (sortCommands (mixedBatches.getD n []))

def mixedProgram : Ssr.Program String Nat Unit Server :=
  Ssr.fullProgram Ssr.htmlEscape ⟨"/run.js", "/a.wasm"⟩ [("port", "80")] 100 fun _ _ _ => some ((), [.domUpdate (mixedBatch 1)])

/-- The page for `mixedView`: a list of fragments, of which the second one is out of order. -/
example : ∃ (s : Ssr.LoopState String Nat Unit Server) (r : Ssr.Response), s.Reached mixedProgram ∧ s.Finished mixedProgram r ∧
    s.sent = ["/a"] ∧ ∃ content text w ts, Shuffled content (htmls 2 mixedView) ∧ r = .html text ∧ Ssr.tokenize text = some (.doctype :: w ++ ts) ∧ Ssr.Blank w ∧
    Reads (.element "html" (attrsOf [("data-env-port", "80")]) [.element "head" (fun _ => none) [],
        .element "body" (fun _ => none) (content ++
          [.element "script" (attrsOf [("type", "module"), ("data-vertigo-run-wasm", "/a.wasm"), ("src", "/run.js")]) []])]) ts := by
  have hf : ((mixedProgram.feed {} (mixedBatch 0)).bind fun d => mixedProgram.feed d (mixedBatch 1)).isSome = true := by decide +kernel
  obtain ⟨d0, d1, h0, h1⟩ : ∃ d0 d1, mixedProgram.feed {} (mixedBatch 0) = some d0 ∧ mixedProgram.feed d0 (mixedBatch 1) = some d1 := by
    cases h0 : mixedProgram.feed {} (mixedBatch 0) with
    | none => rw [h0] at hf; cases hf
    | some d0 =>
      cases h1 : mixedProgram.feed d0 (mixedBatch 1) with
      | none => rw [h0, Option.bind_some, h1] at hf; cases hf
      | some d1 => exact ⟨d0, d1, rfl, h1⟩
  obtain ⟨s, r, hr, hf, hfirst, hsent, hs⟩ := two_batches (p := mixedProgram) rfl h0 h1
  refine ⟨s, r, hr, hf, hs, ?_⟩
  exact C57_content_partial mixedView mixedView_keyed mixedView_served List.reverse List.reverse_perm 2 mixedHistory mixedHistory_complete
    mixedView_readable mixedBatches (by decide +kernel) (by decide +kernel) Ssr.htmlEscape_ok (mount := ⟨"/run.js", "/a.wasm"⟩)
    (by unfold Ssr.Plain; decide) (env := [("port", "80")]) (by decide) (by decide)
    (by intro v hv; rw [List.mem_singleton.mp hv]; exact ⟨⟨by decide, by decide⟩, by unfold Ssr.Plain; decide⟩) (depth := 100) (by decide +kernel)
    hr hf hfirst (by rw [hsent]; exact .cons (same_refl _) (.cons (same_refl _) .nil))

/-- The same view on the page of a server. -/
example : let p := ((mixedBatches.map sortCommands).foldl Driver.update ⟨sentPage, false⟩).page
    (∃ content, Shows p (p.children 3) content ∧ Shuffled content (htmls 2 mixedView)) ∧ p.children 2 = [] ∧
      (p.children 1).filter isRoot = [2, 3] ∧ ∀ x, x ∈ sentPage.children 2 ∨ x ∈ sentPage.children 3 → p.parent x = none :=
  C58_content_partial sentPage_arrived mixedView mixedView_keyed List.reverse List.reverse_perm 2 mixedHistory mixedHistory_complete
    mixedBatches (by decide +kernel) (sentPage_ids (by decide +kernel))

/-- The nodes of an element in another order; not those of another element, and not one of them twice. -/
example : Shuffled [.text "1", .element "p" (fun _ => none) [.text "3", .text "2"]] [.element "p" (fun _ => none) [.text "2", .text "3"], .text "1"] :=
  .reorder (.swap _ _ _) (.element (.reorder (.swap _ _ _) (.text (.text .nil))) (.text .nil))
example : ¬ Shuffled [.text "1", .element "p" (fun _ => none) [.text "2"]] [.text "2", .element "p" (fun _ => none) [.text "1"]] := fun h => by
  have := (h.texts "1").mp (by simp)
  simp at this

theorem Shuffled.length {ds hs} (h : Shuffled ds hs) : ds.length = hs.length := by
  induction h with
  | nil => rfl
  | text _ ih => simp [ih]
  | element _ _ _ ih => simp [ih]
  | reorder hp _ ih => rw [hp.length_eq, ih]

example : ¬ Shuffled [.text "1", .text "1"] [.text "1"] := fun h => absurd h.length (by decide)

/-- A list of fragments of an element with css, and of a value with a class. -/
def mixedStyle : List (View Nat Nat) :=
  [.list (fun n => List.range n) (fun v => v) fun v => .fragment [.element "a" [("css", fun n => some (if n = 3 then "b" else "a"))] [.text (toString v)],
    .value (fun n => n) (fun n => n % 2 = 0) fun n => .element "i" [("class", fun n => if 0 < n then some "on" else none), ("css", fun _ => some "b")]
      [.text (toString (v + n))]]]

theorem mixedStyle_loose : ∀ v ∈ mixedStyle, v.Loose := by
  intro v hv
  simp only [mixedStyle, List.mem_cons, List.not_mem_nil, or_false] at hv
  subst hv
  have ht : ∀ (s : String), ∀ c ∈ [View.text s], View.Loose (S := Nat) (V := Nat) c := by
    intro s c hc
    rw [List.mem_singleton.mp hc]; exact .text
  refine .list (fun v => .fragment fun c hc => ?_) (fun _ _ e => by rw [show _ = _ from e])
  simp only [List.mem_cons, List.not_mem_nil, or_false] at hc
  rcases hc with rfl | rfl
  · exact .element (by decide) (by simp) (ht _)
  · exact .value fun _ => .element (by decide) (by simp) (ht _)

theorem mixedStyle_served : ∀ v ∈ mixedStyle, v.ServedBut fun a => a = "class" ∨ a = "css" := by
  intro v hv
  simp only [mixedStyle, List.mem_cons, List.not_mem_nil, or_false] at hv
  subst hv
  have ht : ∀ (s : String), ∀ c ∈ [View.text s], View.ServedBut (S := Nat) (V := Nat) (fun a => a = "class" ∨ a = "css") c := by
    intro s c hc
    rw [List.mem_singleton.mp hc]; exact .text
  refine .list fun v => .fragment fun c hc => ?_
  simp only [List.mem_cons, List.not_mem_nil, or_false] at hc
  rcases hc with rfl | rfl
  · exact .element (by simp) (fun h => absurd h (by decide)) (ht _)
  · exact .value fun _ => .element (by simp) (fun h => absurd h (by decide)) (ht _)

/-- The state becomes 3 and 2. -/
def mixedStyleHistory : List (Nat × List Sub) :=
  let a := (App.start 1 mixedStyle).1
  [(3, (dueAll 3 a.body).reverse), (2, (dueAll 2 (a.change 3 List.reverse (dueAll 3 a.body).reverse).1.body).reverse)]

theorem mixedStyleHistory_complete : Complete List.reverse mixedStyleHistory (App.start 1 mixedStyle).1 :=
  ⟨fun _ h => by simpa using h, fun _ h => by simpa using h, trivial⟩

def mixedCalls : List Cmd := (App.start 1 mixedStyle).2 ++ ((App.start 1 mixedStyle).1.history List.reverse mixedStyleHistory).2

example : ∃ s out b cls uses content, Styles.run exampleStyle mixedCalls {} = some (s, out) ∧
      b.children 1 = [2, 3] ∧ Shuffled content (htmls 2 mixedStyle) ∧ Looks exampleStyle cls uses b (b.children 3) content ∧ Sheet exampleStyle cls uses b.css ∧
      ∀ batches : List (List Cmd), batches.flatten = out → Browser.init.run (batches.map sortCommands).flatten = .ok b :=
  C64_content_partial exampleStyle exampleStyle_styling mixedStyle mixedStyle_loose List.reverse List.reverse_perm 1 mixedStyleHistory mixedStyleHistory_complete

example : ∃ s out cls uses content, Styles.run exampleStyle mixedCalls {} = some (s, out) ∧ Shuffled content (htmls 2 mixedStyle) ∧
      ∀ batches : List (List Cmd), batches.flatten = out →
        let p := ((batches.map sortCommands).foldl Driver.update ⟨sentPage, false⟩).page
        Looks exampleStyle cls uses p (p.children 3) content ∧ Sheet exampleStyle cls uses p.css ∧ p.children 2 = [] ∧
          (p.children 1).filter isRoot = [2, 3] ∧ ∀ x, x ∈ sentPage.children 2 ∨ x ∈ sentPage.children 3 → p.parent x = none :=
  C64_takeover_content_partial sentPage_arrived exampleStyle exampleStyle_styling mixedStyle mixedStyle_loose List.reverse List.reverse_perm 1 mixedStyleHistory
    mixedStyleHistory_complete (sentPage_ids (l := mixedCalls) (by decide +kernel))

theorem mixedStyle_wearable : ∀ d ∈ htmls 2 mixedStyle, Wearable d := by
  have p : ∀ s ∈ ["0", "1", "2", "3", "on"], Ssr.Plain s := by unfold Ssr.Plain; decide
  have txt : ∀ s ∈ ["0", "1", "2", "3"], ∀ c ∈ [Html.text s], Wearable c := fun s hs c hc => by
    rw [List.mem_singleton.mp hc]; exact .text (p s (by simp at hs ⊢; tauto))
  have ea : (fun a => ([("css", fun n : Nat => some (if n = 3 then "b" else "a"))].find? (fun x => x.1 = a)).bind fun x => x.2 2) =
      fun a => if a = "css" then some "a" else none := by
    funext a
    by_cases h : a = "css"
    · subst h; rfl
    · rw [if_neg h, List.find?_cons_of_neg (by simpa using fun e : "css" = a => h e.symm)]; rfl
  have ei : (fun a => ([("class", fun n : Nat => if 0 < n then some "on" else none), ("css", fun _ => some "b")].find? (fun x => x.1 = a)).bind fun x => x.2 2) =
      fun a => if a = "class" then some "on" else if a = "css" then some "b" else none := by
    funext a
    by_cases h1 : a = "class"
    · subst h1; rfl
    · rw [if_neg h1, List.find?_cons_of_neg (by simpa using fun e : "class" = a => h1 e.symm)]
      by_cases h : a = "css"
      · subst h; rfl
      · rw [if_neg h, List.find?_cons_of_neg (by simpa using fun e : "css" = a => h e.symm)]; rfl
  have e : htmls 2 mixedStyle = [.element "a" (fun a => if a = "css" then some "a" else none) [.text "0"],
      .element "i" (fun a => if a = "class" then some "on" else if a = "css" then some "b" else none) [.text "2"],
      .element "a" (fun a => if a = "css" then some "a" else none) [.text "1"],
      .element "i" (fun a => if a = "class" then some "on" else if a = "css" then some "b" else none) [.text "3"]] := by
    rw [← ea, ← ei]; rfl
  rw [e]
  have ha : ∀ s ∈ ["0", "1", "2", "3"], Wearable (.element "a" (fun a => if a = "css" then some "a" else none) [.text s]) := fun s hs => by
    refine wearable_css ⟨⟨_, _, rfl, by decide⟩, by decide⟩ (by decide) (by decide) (by decide) (by decide) ?_ (txt s hs)
    intro k h
    by_contra hk
    rw [if_neg hk] at h
    exact h rfl
  have hi : ∀ s ∈ ["0", "1", "2", "3"], Wearable (.element "i" (fun a => if a = "class" then some "on" else if a = "css" then some "b" else none) [.text s]) :=
    fun s hs => by
      have one : ∀ k, k ≠ "css" → ((if k = "class" then some "on" else if k = "css" then some "b" else none) ≠ none ∨ k = "class") → k = "class" := by
        intro k hk h
        by_contra h1
        rw [if_neg h1, if_neg hk] at h
        exact h.elim (fun h => h rfl) h1
      refine .element ⟨⟨_, _, rfl, by decide⟩, by decide⟩ (by decide) ?_ ?_ (fun h => absurd h (by decide)) (fun h => absurd h (by decide))
        (fun h => absurd h (by decide)) (txt s hs)
      · intro k v hk h
        have := one k hk (Or.inl (by rw [h]; simp))
        subst this
        cases h
        exact ⟨⟨by decide, by decide⟩, p _ (by simp)⟩
      · intro k k' hk hk' h h' _
        rw [one k hk h, one k' hk' h']
  intro d hd
  simp only [List.mem_cons, List.not_mem_nil, or_false] at hd
  rcases hd with rfl | rfl | rfl | rfl
  · exact ha _ (by simp)
  · exact hi _ (by simp)
  · exact ha _ (by simp)
  · exact hi _ (by simp)

/-- The commands of `mixedStyle`, and two batches. -/
def mixedOut : List Cmd := ((Styles.run exampleStyle mixedCalls {}).map (·.2)).getD []

def mixedStyleBatch (n : Nat) : Codec.JsJson := batchJson (sortCommands (if n = 0 then mixedOut.take 20 else mixedOut.drop 20))

def mixedStyleProgram : Ssr.Program String Nat Unit Server :=
  Ssr.fullProgram Ssr.htmlEscape ⟨"/run.js", "/a.wasm"⟩ [("port", "80")] 100 fun _ _ _ => some ((), [.domUpdate (mixedStyleBatch 1)])

/-- The page for `mixedStyle`. -/
example : ∃ (s : Ssr.LoopState String Nat Unit Server) (r : Ssr.Response), s.Reached mixedStyleProgram ∧ s.Finished mixedStyleProgram r ∧
    s.sent = ["/a"] ∧ ∃ cls uses css plain content text w ts, Sheet exampleStyle cls uses css ∧ Shuffled plain (htmls 2 mixedStyle) ∧
    Dressed exampleStyle cls uses plain content ∧
    r = .html text ∧ Ssr.tokenize text = some (.doctype :: w ++ ts) ∧ Ssr.Blank w ∧
    Reads (.element "html" (attrsOf [("data-env-port", "80")]) [.element "head" (fun _ => none) [],
        .element "body" (fun _ => none)
          (css.map (fun r => .element "style" (fun _ => none) [.text (r.1 ++ " { " ++ r.2 ++ " }")]) ++ content ++
          [.element "script" (attrsOf [("type", "module"), ("data-vertigo-run-wasm", "/a.wasm"), ("src", "/run.js")]) []])]) ts := by
  have hf : ((mixedStyleProgram.feed {} (mixedStyleBatch 0)).bind fun d => mixedStyleProgram.feed d (mixedStyleBatch 1)).isSome = true := by decide +kernel
  obtain ⟨d0, d1, h0, h1⟩ : ∃ d0 d1, mixedStyleProgram.feed {} (mixedStyleBatch 0) = some d0 ∧ mixedStyleProgram.feed d0 (mixedStyleBatch 1) = some d1 := by
    cases h0 : mixedStyleProgram.feed {} (mixedStyleBatch 0) with
    | none => rw [h0] at hf; cases hf
    | some d0 =>
      cases h1 : mixedStyleProgram.feed d0 (mixedStyleBatch 1) with
      | none => rw [h0, Option.bind_some, h1] at hf; cases hf
      | some d1 => exact ⟨d0, d1, rfl, h1⟩
  obtain ⟨s, r, hr, hf, hfirst, hsent, hs⟩ := two_batches (p := mixedStyleProgram) rfl h0 h1
  refine ⟨s, r, hr, hf, hs, ?_⟩
  obtain ⟨st, out, -, -, -, -, hrun, -⟩ := C64_content_partial exampleStyle exampleStyle_styling mixedStyle mixedStyle_loose List.reverse List.reverse_perm 1
    mixedStyleHistory mixedStyleHistory_complete
  have hout : mixedOut = out := by unfold mixedOut mixedCalls; rw [hrun]; rfl
  have e0 : mixedStyleBatch 0 = batchJson (sortCommands (mixedOut.take 20)) := by unfold mixedStyleBatch; rw [if_pos rfl]
  have e1 : mixedStyleBatch 1 = batchJson (sortCommands (mixedOut.drop 20)) := by unfold mixedStyleBatch; rw [if_neg (by decide)]
  rw [e0, e1] at hsent
  exact C65_content_partial exampleStyle exampleStyle_styling exampleStyle_plain mixedStyle mixedStyle_loose mixedStyle_served List.reverse
    List.reverse_perm 1 mixedStyleHistory mixedStyleHistory_complete mixedStyle_wearable hrun [mixedOut.take 20, mixedOut.drop 20]
    (by rw [← hout]; simp) (by decide +kernel) Ssr.htmlEscape_ok (mount := ⟨"/run.js", "/a.wasm"⟩)
    (by unfold Ssr.Plain; decide) (env := [("port", "80")]) (by decide) (by decide)
    (by intro v hv; rw [List.mem_singleton.mp hv]; exact ⟨⟨by decide, by decide⟩, by unfold Ssr.Plain; decide⟩) (depth := 100) (by decide +kernel)
    hr hf hfirst (by rw [hsent]; exact .cons (same_refl _) (.cons (same_refl _) .nil))

end Verif.View

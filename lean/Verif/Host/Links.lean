import Verif.Host.Router
/-!
# Links (C56)

`src_js/api_browser/dom/dom.ts:108-129` (`create_node`): an element `a` gets a listener for clicks that follows its link inside of the application. The navigation
is that of the router (`Host/Router.lean`, C40).
-/

namespace Verif.Host.Links

open Verif.Host

variable {L T : Type} [DecidableEq T]

/-! ## Model -/

/-- A click on a link: the attribute `href` (`none`: there is none), and what a browser looks at to see whether to open a link elsewhere: the attribute `target`, and
whether the ctrl (or command) key is held. -/
structure Click where
  href : Option String
  target : Option String
  ctrl : Bool

/-- What was done about a click: the state, whether the default is prevented, and whether the page is scrolled to its top. -/
structure Reaction (L T : Type) where
  state : Nav L T
  prevented : Bool
  scrolled : Bool

/-- `dom.ts:114`. Strings as lists of characters; a prefix is the same in UTF-16. -/
def skipped (href : String) : Bool :=
  "#".toList.isPrefixOf href.toList || "http://".toList.isPrefixOf href.toList || "https://".toList.isPrefixOf href.toList || "//".toList.isPrefixOf href.toList

/-- `String.prototype.trim` and `toLowerCase` of a name, for letters of ASCII and spaces. -/
def normalize (name : String) : List Char :=
  ((name.toList.dropWhile (· = ' ')).reverse.dropWhile (· = ' ')).reverse.map Char.toLower

/-- `dom.ts:108-129`, the listener with what `historyLocation.push` does (`Nav.push`): `throws` is that `pushState`, or reading the location, throws, so that the page
is not scrolled. -/
def clicked (b : Browser L) (parse : String → T) (s : Nav L T) (name : String) (inside : List (List Inner)) (c : Click) : Reaction L T :=
  if normalize name = ['a'] then
    match c.href with
    | none => ⟨s, false, false⟩
    | some href =>
        if skipped href then ⟨s, false, false⟩
        else
          let throws : Bool :=
            match b.get s.loc with
            | none => true
            | some cur => if cur = href then false else (b.nav s.loc href).isNone
          ⟨s.push b parse href inside, true, !throws⟩
  else ⟨s, false, false⟩

/-! ## Specification -/

/-- RFC 3986, 3.1: letters, and the other characters of a scheme. -/
def isLetter (c : Char) : Bool := ('a' ≤ c && c ≤ 'z') || ('A' ≤ c && c ≤ 'Z')

def isSchemeChar (c : Char) : Bool := isLetter c || ('0' ≤ c && c ≤ '9') || c = '+' || c = '-' || c = '.'

/-- RFC 3986, 4.1: the reference is a URI, it starts with a scheme and a colon. -/
def HasScheme (href : String) : Prop :=
  ∃ (a : Char) (s rest : List Char), href.toList = a :: s ++ ':' :: rest ∧ isLetter a = true ∧ ∀ c ∈ s, isSchemeChar c = true

/-- The reference names another place of the application: it has no scheme, no authority (RFC 3986, 4.2), and is not a part of the page itself. -/
def Inside (href : String) : Prop :=
  ¬ HasScheme href ∧ (¬ ∃ rest, href.toList = '/' :: '/' :: rest) ∧ ¬ ∃ rest, href.toList = '#' :: rest

/-- The reference is absolute with one of the two schemes of the web, written in small letters. -/
def Web (href : String) : Prop :=
  (∃ rest, href.toList = "http://".toList ++ rest) ∨ ∃ rest, href.toList = "https://".toList ++ rest

/-- The name of a link: `a` in either case, perhaps between spaces. -/
def IsLink (name : String) : Prop :=
  ∃ (i j : Nat) (c : Char), (c = 'a' ∨ c = 'A') ∧ name.toList = List.replicate i ' ' ++ c :: List.replicate j ' '

/-! ## Proofs -/

theorem isPrefixOf_iff (a b : List Char) : a.isPrefixOf b = true ↔ ∃ t, b = a ++ t := by
  rw [List.isPrefixOf_iff_prefix]
  exact ⟨fun ⟨t, h⟩ => ⟨t, h.symm⟩, fun ⟨t, h⟩ => ⟨t, h.symm⟩⟩

theorem web_scheme {href : String} (h : Web href) : HasScheme href := by
  rcases h with ⟨t, h⟩ | ⟨t, h⟩
  · exact ⟨'h', ['t', 't', 'p'], '/' :: '/' :: t, by rw [h]; simp, by decide, by decide⟩
  · exact ⟨'h', ['t', 't', 'p', 's'], '/' :: '/' :: t, by rw [h]; simp, by decide, by decide⟩

theorem skipped_iff {href : String} (hs : HasScheme href → Web href) : skipped href = false ↔ Inside href := by
  have e1 : "#".toList.isPrefixOf href.toList = true ↔ ∃ t, href.toList = '#' :: t := isPrefixOf_iff _ _
  have e2 : "//".toList.isPrefixOf href.toList = true ↔ ∃ t, href.toList = '/' :: '/' :: t := isPrefixOf_iff _ _
  have e3 : ("http://".toList.isPrefixOf href.toList = true ∨ "https://".toList.isPrefixOf href.toList = true) ↔ Web href := by
    rw [isPrefixOf_iff, isPrefixOf_iff]; rfl
  rw [← Bool.not_eq_true]
  simp only [skipped, Bool.or_eq_true, Inside]
  rw [e1, e2]
  constructor
  · intro h
    refine ⟨fun hh => h ?_, fun hh => h (.inr hh), fun hh => h (.inl (.inl (.inl hh)))⟩
    rcases e3.2 (hs hh) with h | h
    · exact .inl (.inl (.inr h))
    · exact .inl (.inr h)
  · rintro ⟨h1, h2, h3⟩ (((h | h) | h) | h)
    · exact h3 h
    · exact h1 (web_scheme (e3.1 (.inl h)))
    · exact h1 (web_scheme (e3.1 (.inr h)))
    · exact h2 h

theorem spaces (l : List Char) : ∃ i, l = List.replicate i ' ' ++ l.dropWhile (· = ' ') := by
  induction l with
  | nil => exact ⟨0, rfl⟩
  | cons c l ih =>
    by_cases h : c = ' '
    · obtain ⟨i, hi⟩ := ih
      refine ⟨i + 1, ?_⟩
      subst h
      rw [List.dropWhile_cons_of_pos (by simp), List.replicate_succ, List.cons_append, ← hi]
    · exact ⟨0, by rw [List.dropWhile_cons_of_neg (by simpa using h)]; rfl⟩

theorem drop_spaces (i : Nat) {c : Char} (l : List Char) (h : c ≠ ' ') :
    (List.replicate i ' ' ++ c :: l).dropWhile (· = ' ') = c :: l := by
  induction i with
  | zero => simp [h]
  | succ i ih => rw [List.replicate_succ, List.cons_append, List.dropWhile_cons_of_pos (by simp), ih]

theorem lower_a {c : Char} : c.toLower = 'a' ↔ c = 'a' ∨ c = 'A' := by
  constructor
  · intro h
    unfold Char.toLower at h
    split at h
    · right
      have := congrArg Char.val h
      simp only at this
      apply Char.ext
      have h2 : c.val + 32 = 97 := by simpa using this
      have h3 : c.val = 65 := by
        have : c.val = (c.val + 32) - 32 := by rw [UInt32.add_sub_cancel]
        rw [this, h2]; rfl
      exact h3
    · exact .inl h
  · rintro (rfl | rfl) <;> decide

theorem normalize_iff (name : String) : normalize name = ['a'] ↔ IsLink name := by
  constructor
  · intro h
    unfold normalize at h
    obtain ⟨i, hi⟩ := spaces name.toList
    obtain ⟨j, hj⟩ := spaces (name.toList.dropWhile (· = ' ')).reverse
    obtain ⟨c, hc, hl⟩ := List.map_eq_singleton_iff.mp h
    have hr : ((name.toList.dropWhile (· = ' ')).reverse.dropWhile (· = ' ')) = [c] := by
      rw [← List.reverse_reverse (List.dropWhile _ (List.reverse _)), hc]; rfl
    rw [hr] at hj
    have := congrArg List.reverse hj
    rw [List.reverse_reverse, List.reverse_append, List.reverse_replicate] at this
    refine ⟨i, j, c, lower_a.1 hl, ?_⟩
    rw [this] at hi
    exact hi
  · rintro ⟨i, j, c, hc, h⟩
    have hs : c ≠ ' ' := by rcases hc with rfl | rfl <;> decide
    unfold normalize
    rw [h, drop_spaces i _ hs, List.reverse_cons, List.reverse_replicate, drop_spaces j _ hs]
    simpa using lower_a.2 hc

/-! ## Theorems -/

/-- **C56** (which links). For every link whose `href` has no scheme, or is absolute with `http://` or `https://`: it is followed inside of the application if and only if it
names another place of the application; otherwise it is left to the browser and nothing changes. Missing because false: other schemes (`C56_scheme_violated`), the same
schemes in capital letters (`C56_case_violated`), links that are to be opened elsewhere (`C56_elsewhere_violated`). -/
theorem C56_which_partial (b : Browser L) (parse : String → T) (s : Nav L T) (inside : List (List Inner)) (c : Click) (href : String) (hc : c.href = some href)
    (hs : HasScheme href → Web href) :
    ((clicked b parse s "a" inside c).prevented = true ↔ Inside href) ∧
    (¬ Inside href → clicked b parse s "a" inside c = ⟨s, false, false⟩) := by
  have hn : normalize "a" = ['a'] := by decide
  simp only [clicked, hn, if_true, hc]
  cases hsk : skipped href with
  | false =>
    have := (skipped_iff hs).1 hsk
    simp [this]
  | true =>
    have : ¬ Inside href := fun h => by rw [(skipped_iff hs).2 h] at hsk; cases hsk
    simp [this]

/-- **C56** (what following a link does). Whatever happened before, a click on a link to another place changes the location as `pushState` does, scrolls to the top and prevents the
default, and every router that is observed then shows the route of the new location. -/
theorem C56_follows (b : Browser L) (parse : String → T) (toStr : T → String) (loc : L) (before : List (NavOp L T)) (inside : List (List Inner)) (c : Click)
    (href cur : String) (loc' : L) (hc : c.href = some href) (hin : Inside href)
    (hread : b.get (navigate b parse toStr loc before).loc = some cur) (hne : cur ≠ href)
    (hnav : b.nav (navigate b parse toStr loc before).loc href = some loc') :
    let r := clicked b parse (navigate b parse toStr loc before) "a" inside c
    r.prevented = true ∧ r.scrolled = true ∧ r.state.loc = loc' ∧
      ∀ i, Observed (navigate b parse toStr loc before) i → (∀ l ∈ inside, .unobserve i ∉ l) →
        ∀ url, b.get loc' = some url → (r.state.routers[i]?.map (·.value)) = some (parse url) := by
  intro r
  have hn : normalize "a" = ['a'] := by decide
  have hsk : skipped href = false := (skipped_iff fun h => absurd h hin.1).2 hin
  have hr : r = ⟨Nav.trigger b parse { (navigate b parse toStr loc before) with loc := loc' } inside, true, true⟩ := by
    simp only [r, clicked, hn, if_true, hc, hsk, Bool.false_eq_true, if_false, hread, if_neg hne, hnav, Nav.push, Option.isNone_some, Bool.not_false]
  have hok := navigate_ok b parse toStr loc before
  have hok' : ({ (navigate b parse toStr loc before) with loc := loc' } : Nav L T).Ok := ⟨hok.conn, hok.ids⟩
  obtain ⟨t1, t2, t3, t4⟩ := trigger_ok b parse inside hok'
  rw [hr]
  refine ⟨rfl, rfl, t2, ?_⟩
  rintro i ⟨R, hR, hcn⟩ hun url hu
  obtain ⟨k, hk⟩ := Option.isSome_iff_exists.1 hcn
  obtain ⟨R', hr', _, hv⟩ := t4 i R k hR hk hun
  rw [hr']
  simp only [Option.map_some]
  rw [hv _ hu]

/-- **C56** (the same place). A click on a link to the current location changes nothing; the default is prevented and the page scrolled. -/
theorem C56_same (b : Browser L) (parse : String → T) (s : Nav L T) (inside : List (List Inner)) (c : Click) (href : String) (hc : c.href = some href) (hin : Inside href)
    (hread : b.get s.loc = some href) : clicked b parse s "a" inside c = ⟨s, true, true⟩ := by
  have hn : normalize "a" = ['a'] := by decide
  have hsk : skipped href = false := (skipped_iff fun h => absurd h hin.1).2 hin
  simp [clicked, hn, hc, hsk, hread, Nav.push]

/-- **C56** (no navigation). If the browser refuses to go to the place, or to tell where it is, then the link does nothing: the location and the routers stay as they are, and
the page is not scrolled. -/
theorem C56_refused (b : Browser L) (parse : String → T) (s : Nav L T) (inside : List (List Inner)) (c : Click) (href : String) (hc : c.href = some href) (hin : Inside href)
    (h : b.get s.loc = none ∨ b.get s.loc ≠ some href ∧ b.nav s.loc href = none) : clicked b parse s "a" inside c = ⟨s, true, false⟩ := by
  have hn : normalize "a" = ['a'] := by decide
  have hsk : skipped href = false := (skipped_iff fun h => absurd h hin.1).2 hin
  cases hg : b.get s.loc with
  | none => simp [clicked, hn, hc, hsk, hg, Nav.push]
  | some cur =>
    rw [hg] at h
    obtain ⟨h1, h2⟩ := h.resolve_left (by simp)
    have h1 : cur ≠ href := fun e => h1 (by rw [e])
    simp [clicked, hn, hc, hsk, hg, Nav.push, h1, h2]

/-- **C56** (other elements). Elements that are no links, and links without `href`, do not react to clicks. -/
theorem C56_others (b : Browser L) (parse : String → T) (s : Nav L T) (inside : List (List Inner)) (name : String) (c : Click)
    (h : ¬ IsLink name ∨ c.href = none) : clicked b parse s name inside c = ⟨s, false, false⟩ := by
  simp only [clicked]
  rcases h with h | h
  · rw [if_neg fun e => h ((normalize_iff name).1 e)]
  · split
    · rw [h]
    · rfl

/-- **C56** (names). A link is one however its name is written. -/
theorem C56_names (b : Browser L) (parse : String → T) (s : Nav L T) (inside : List (List Inner)) (name : String) (c : Click) (h : IsLink name) :
    clicked b parse s name inside c = clicked b parse s "a" inside c := by
  have hn : normalize "a" = ['a'] := by decide
  simp only [clicked, hn, (normalize_iff name).2 h, if_true]

/-! ## What does not hold -/

/-- A browser at a site: `pushState` throws for a reference with a scheme (of another site). -/
def site : Browser String where
  get := some
  nav := fun _ href => if href.toList.contains ':' then none else some href

/-- The state of the witnesses: a router that is observed, at `/a`. -/
def home : Nav String String := navigate site id id "/a" [.inner .create, .inner (.observe 0)]

/-- A link to a mail address is taken for a link of the application: the default is prevented, `pushState` throws, and so nothing happens at all. -/
theorem C56_scheme_violated :
    HasScheme "mailto:info@example.com" ∧
    (clicked site id home "a" [] ⟨some "mailto:info@example.com", none, false⟩).prevented = true ∧
    (clicked site id home "a" [] ⟨some "mailto:info@example.com", none, false⟩).scrolled = false ∧
    (clicked site id home "a" [] ⟨some "mailto:info@example.com", none, false⟩).state.loc = home.loc := by
  refine ⟨⟨'m', "ailto".toList, "info@example.com".toList, by decide, by decide, by decide⟩, by decide, by decide, by decide⟩

/-- A link to another site whose scheme is written in capital letters does nothing either. -/
theorem C56_case_violated :
    HasScheme "HTTPS://example.com/" ∧
    (clicked site id home "a" [] ⟨some "HTTPS://example.com/", none, false⟩).prevented = true ∧
    (clicked site id home "a" [] ⟨some "HTTPS://example.com/", none, false⟩).state.loc = home.loc := by
  refine ⟨⟨'H', "TTPS".toList, "//example.com/".toList, by decide, by decide, by decide⟩, by decide, by decide⟩

/-- A link that is to be opened in another tab, by its `target` or with the ctrl key, is opened in this one. -/
theorem C56_elsewhere_violated :
    (clicked site id home "a" [] ⟨some "/b", some "_blank", false⟩).state.loc = "/b" ∧
    (clicked site id home "a" [] ⟨some "/b", some "_blank", false⟩).prevented = true ∧
    (clicked site id home "a" [] ⟨some "/b", none, true⟩).state.loc = "/b" ∧
    (clicked site id home "a" [] ⟨some "/b", none, true⟩).prevented = true := by
  decide

/-! ## Non-vacuity -/

example : IsLink " A" ∧ ¬ IsLink "area" :=
  ⟨⟨1, 0, 'A', .inr rfl, rfl⟩, fun h => absurd ((normalize_iff _).2 h) (by decide)⟩

theorem inside_b : Inside "/b?x=1:2" := by
  refine ⟨?_, ?_, ?_⟩
  · rintro ⟨a, s, rest, h, ha, -⟩
    have : a = '/' := by
      have := congrArg List.head? h
      simp at this
      exact this.symm
    rw [this] at ha
    revert ha
    decide
  · rintro ⟨rest, h⟩
    have := congrArg (fun l => l[1]?) h
    revert this
    simp
  · rintro ⟨rest, h⟩
    have := congrArg List.head? h
    revert this
    simp

/-- `C56_which_partial` for a link of each kind. -/
example : (clicked plain id (Nav.start "/a" : Nav String String) "a" [] ⟨some "/b?x=1:2", none, false⟩).prevented = true ∧
    clicked plain id (Nav.start "/a" : Nav String String) "a" [] ⟨some "https://example.com/", none, false⟩ = ⟨Nav.start "/a", false, false⟩ := by
  refine ⟨((C56_which_partial plain id _ [] _ _ rfl fun h => absurd h inside_b.1).1).2 inside_b, ?_⟩
  have hw : Web "https://example.com/" := .inr ⟨"example.com/".toList, by decide⟩
  exact (C56_which_partial plain id _ [] _ _ rfl fun _ => hw).2 fun h => h.1 (web_scheme hw)

/-- `C56_follows` with an observed router. -/
example : (clicked plain id (navigate plain id id "/a" [.inner .create, .inner (.observe 0)]) "a" [] ⟨some "/b?x=1:2", none, false⟩).state.routers[0]?.map (·.value) =
    some "/b?x=1:2" :=
  (C56_follows plain id id "/a" [.inner .create, .inner (.observe 0)] [] ⟨some "/b?x=1:2", none, false⟩ "/b?x=1:2" "/a" "/b?x=1:2" rfl inside_b rfl (by decide) rfl).2.2.2
    0 ⟨_, rfl, rfl⟩ (by simp) _ rfl

end Verif.Host.Links

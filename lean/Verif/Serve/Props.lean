import Verif.Serve.Model
/-!
# C68: proofs
-/
namespace Verif.Serve
open Verif.Ssr (Below splitSlash splitSlash_ne addWatchScript)

/-! ## The path below a prefix -/

theorem splitSlash_append (a b : List Char) : splitSlash (a ++ '/' :: b) = splitSlash a ++ splitSlash b := by
  induction a with
  | nil => simp [splitSlash]
  | cons c a ih =>
    simp only [List.cons_append, splitSlash, ih]
    split
    · rfl
    · cases hs : splitSlash a with
      | nil => exact absurd hs (splitSlash_ne a)
      | cons w ws => simp

theorem splitSlash_length (a : List Char) : ((splitSlash a).map fun w => 1 + w.length).sum = a.length + 1 := by
  induction a with
  | nil => rfl
  | cons c a ih =>
    simp only [splitSlash]
    split
    · simp only [List.map_cons, List.sum_cons, List.length_nil, List.length_cons, ih]; omega
    · cases hs : splitSlash a with
      | nil => exact absurd hs (splitSlash_ne a)
      | cons w ws =>
        rw [hs] at ih
        simp only [List.map_cons, List.sum_cons, List.length_cons] at ih ⊢
        omega

theorem prefixLength_append : ∀ (a b : List (List Char)) (n : Nat), prefixLength (a ++ b) a n =
    some (n + (a.map fun w => 1 + w.length).sum + if b = [] then 0 else 1)
  | [], [], n => by simp [prefixLength]
  | [], _ :: _, n => by simp [prefixLength]
  | w :: a, b, n => by
      simp only [List.cons_append, prefixLength, or_true, if_true, prefixLength_append a b, List.map_cons, List.sum_cons]
      congr 1
      omega

theorem strip_below {p : List Char} (hp : p.head? = some '/') (rest : List Char) :
    strip p (p ++ ['/'] ++ rest) = if rest.head? = some '/' then rest else '/' :: rest := by
  cases p with
  | nil => cases hp
  | cons c p =>
    simp only [strip, List.cons_append, List.drop_succ_cons, List.drop_zero, List.append_assoc, List.nil_append]
    rw [splitSlash_append, prefixLength_append]
    have hd : (c :: (p ++ '/' :: rest)).drop (0 + ((splitSlash p).map fun w => 1 + w.length).sum + if splitSlash rest = [] then 0 else 1) = rest := by
      rw [splitSlash_length, if_neg (splitSlash_ne rest), Nat.zero_add, List.drop_succ_cons, List.drop_append]
      simp
    simp only [hd]

theorem strip_self {p : List Char} (hp : p.head? = some '/') : strip p p = ['/'] := by
  cases p with
  | nil => cases hp
  | cons c p =>
    simp only [strip, List.drop_succ_cons, List.drop_zero]
    have := prefixLength_append (splitSlash p) [] 0
    rw [List.append_nil] at this
    rw [this, splitSlash_length]
    simp

/-! ## The routes -/

theorem best_none : ∀ {rs : List Route} {path}, best path rs = none → ∀ r ∈ rs, r.pattern.matched path = false
  | [], _, _, _, h => by cases h
  | a :: rs, path, h, r, hr => by
      simp only [best] at h
      split at h
      · split at h
        · cases h
        · split at h <;> cases h
      · rename_i hn
        rcases List.mem_cons.mp hr with rfl | hr
        · simpa using hn
        · exact best_none h r hr

theorem best_some : ∀ {rs : List Route} {path r}, best path rs = some r →
    r ∈ rs ∧ r.pattern.matched path = true ∧ ∀ r' ∈ rs, r'.pattern.matched path = true → r'.pattern.weight path ≤ r.pattern.weight path
  | [], _, _, h => by cases h
  | a :: rs, path, r, h => by
      simp only [best] at h
      split at h
      · rename_i hm
        split at h
        · rename_i hb
          cases h
          refine ⟨List.mem_cons_self, hm, fun r' hr' hm' => ?_⟩
          rcases List.mem_cons.mp hr' with rfl | hr'
          · exact Nat.le_refl _
          · have := best_none hb r' hr'
            rw [hm'] at this
            cases this
        · rename_i r0 hb
          obtain ⟨h1, h2, h3⟩ := best_some hb
          split at h
          · rename_i hw
            cases h
            refine ⟨List.mem_cons_self, hm, fun r' hr' hm' => ?_⟩
            rcases List.mem_cons.mp hr' with rfl | hr'
            · exact Nat.le_refl _
            · exact Nat.le_trans (h3 r' hr' hm') hw
          · rename_i hw
            cases h
            refine ⟨List.mem_cons_of_mem _ h1, h2, fun r' hr' hm' => ?_⟩
            rcases List.mem_cons.mp hr' with rfl | hr'
            · omega
            · exact h3 r' hr' hm'
      · rename_i hm
        obtain ⟨h1, h2, h3⟩ := best_some h
        refine ⟨List.mem_cons_of_mem _ h1, h2, fun r' hr' hm' => ?_⟩
        rcases List.mem_cons.mp hr' with rfl | hr'
        · exact absurd hm' hm
        · exact h3 r' hr' hm'

/-- The three routes of a prefix. -/
def triple (o : List Char × Handler) : List Route :=
  [⟨.after (o.1 ++ ['/']), o.1, o.2⟩, ⟨.exact o.1, o.1, o.2⟩, ⟨.exact (o.1 ++ ['/']), o.1, o.2⟩]

theorem insertRoute_new {rs : List Route} {r : Route} (h : ∀ x ∈ rs, x.pattern ≠ r.pattern) : insertRoute rs r = some (rs ++ [r]) := by
  rw [insertRoute, if_neg]
  simp only [List.any_eq_true, not_exists, not_and]
  intro x hx hc
  exact h x hx (of_decide_eq_true hc)

theorem nest_plain {rs : List Route} {p : List Char} (hp : Plain p) (h : Handler)
    (hn : ∀ x ∈ rs, x.pattern ≠ .after (p ++ ['/']) ∧ x.pattern ≠ .exact p ∧ x.pattern ≠ .exact (p ++ ['/'])) :
    nest rs p h = some (rs ++ triple (p, h)) := by
  have hne : p ≠ [] := by rintro rfl; cases hp.start
  have hs : ¬ ('*' ∈ p ∨ p.head? ≠ some '/') := by simp [hp.star, hp.start]
  simp only [nest, if_neg hne, if_neg hs, if_neg hp.last]
  rw [insertRoute_new fun x hx => (hn x hx).1, Option.bind_some, insertRoute_new, Option.bind_some, insertRoute_new]
  · simp [triple]
  · intro x hx
    simp only [List.mem_append, List.mem_singleton, or_assoc] at hx
    rcases hx with hx | rfl | rfl
    · exact (hn x hx).2.2
    · simp
    · simp
  · intro x hx
    simp only [List.mem_append, List.mem_singleton] at hx
    rcases hx with hx | rfl
    · exact (hn x hx).2.1
    · simp

theorem plain_slash {p q : List Char} (hp : Plain p) : p ≠ q ++ ['/'] := by
  rintro rfl
  exact hp.last (by simp)

theorem triples_apart {os : List (List Char × Handler)} {o : List Char × Handler} (hos : ∀ x ∈ os, Plain x.1) (ho : Plain o.1)
    (hn : o.1 ∉ os.map (·.1)) : ∀ x ∈ os.flatMap triple, x.pattern ≠ .after (o.1 ++ ['/']) ∧ x.pattern ≠ .exact o.1 ∧ x.pattern ≠ .exact (o.1 ++ ['/']) := by
  intro x hx
  obtain ⟨y, hy, hx⟩ := List.mem_flatMap.mp hx
  have hne : y.1 ≠ o.1 := fun e => hn (List.mem_map.mpr ⟨y, hy, e⟩)
  simp only [triple, List.mem_cons, List.not_mem_nil, or_false] at hx
  rcases hx with rfl | rfl | rfl
  · simpa using hne
  · simpa using ⟨hne, fun e => plain_slash (hos y hy) e⟩
  · simpa using ⟨fun e => plain_slash ho e.symm, hne⟩

theorem foldl_nest (ps : List (List Char × List Char)) : ∀ (os : List (List Char × Handler)), (∀ x ∈ os ++ ps.map (fun p => (p.1, Handler.proxy p.2)), Plain x.1) →
    ((os ++ ps.map fun p => (p.1, Handler.proxy p.2)).map (·.1)).Nodup →
    ps.foldl (fun rs p => rs.bind fun rs => nest rs p.1 (.proxy p.2)) (some (os.flatMap triple)) =
      some ((os ++ ps.map fun p => (p.1, Handler.proxy p.2)).flatMap triple) := by
  induction ps with
  | nil => intro os _ _; simp
  | cons p ps ih =>
    intro os hp hn
    have hp1 : Plain p.1 := hp (p.1, .proxy p.2) (by simp)
    have hn1 : p.1 ∉ os.map (·.1) := by
      intro hm
      rw [List.map_append, List.nodup_append] at hn
      exact hn.2.2 _ hm _ (by simp) rfl
    rw [List.foldl_cons, Option.bind_some, nest_plain hp1 _ (triples_apart (o := (p.1, .proxy p.2)) (fun x hx => hp x (List.mem_append_left _ hx)) hp1 hn1)]
    have := ih (os ++ [(p.1, .proxy p.2)]) (by simpa using hp) (by simpa using hn)
    simpa using this

theorem routes_good {c : Config} (h : c.Good) : c.routes = some (c.owners.flatMap triple) := by
  have h1 : nest [] c.publicPath .files = some (triple (c.publicPath, .files)) := by
    have := nest_plain (rs := []) (h.plain (c.publicPath, .files) (by simp [Config.owners])) .files (by simp)
    simpa using this
  rw [Config.routes, h1]
  have := foldl_nest c.proxies [(c.publicPath, .files)] (by simpa [Config.owners] using h.plain) (by simpa [Config.owners] using h.distinct)
  simpa [Config.owners] using this

theorem triple_below {o : List Char × Handler} {r : Route} (hr : r ∈ triple o) {path} (hm : r.pattern.matched path = true) : Below o.1 path := by
  simp only [triple, List.mem_cons, List.not_mem_nil, or_false] at hr
  rcases hr with rfl | rfl | rfl
  · simp only [Pattern.matched, Bool.and_eq_true] at hm
    obtain ⟨b, hb⟩ := (Ssr.isPrefixOf_iff _ _).mp hm.1
    exact .inr ⟨b, hb⟩
  · exact .inl (of_decide_eq_true hm).symm
  · exact .inr ⟨[], by rw [← of_decide_eq_true hm]; simp⟩

theorem below_triple {o : List Char × Handler} {path} (h : Below o.1 path) : ∃ r ∈ triple o, r.pattern.matched path = true ∧ o.1.length + 1 ≤ r.pattern.weight path := by
  rcases h with rfl | ⟨rest, rfl⟩
  · exact ⟨⟨.exact o.1, o.1, o.2⟩, by simp [triple], by simp [Pattern.matched], by simp [Pattern.weight]⟩
  · cases rest with
    | nil => exact ⟨⟨.exact (o.1 ++ ['/']), o.1, o.2⟩, by simp [triple], by simp [Pattern.matched], by simp [Pattern.weight]⟩
    | cons c rest =>
      refine ⟨⟨.after (o.1 ++ ['/']), o.1, o.2⟩, by simp [triple], ?_, by simp [Pattern.weight]⟩
      simp only [Pattern.matched, Bool.and_eq_true, decide_eq_true_eq]
      exact ⟨(Ssr.isPrefixOf_iff _ _).mpr ⟨_, rfl⟩, by simp⟩

theorem best_belongs {c : Config} (hc : c.Good) {path} {o} (h : Belongs c path o) :
    ∃ pattern, best path (c.owners.flatMap triple) = some ⟨pattern, o.1, o.2⟩ := by
  obtain ⟨r0, hr0, hm0, hw0⟩ := below_triple h.below
  cases hb : best path (c.owners.flatMap triple) with
  | none =>
    have := best_none hb r0 (List.mem_flatMap.mpr ⟨o, h.mem, hr0⟩)
    rw [hm0] at this
    cases this
  | some r =>
    obtain ⟨h1, h2, h3⟩ := best_some hb
    obtain ⟨o', ho', hr⟩ := List.mem_flatMap.mp h1
    have hb' := triple_below hr h2
    have hw := h3 r0 (List.mem_flatMap.mpr ⟨o, h.mem, hr0⟩) hm0
    have he : o'.1 = o.1 := by
      rcases h.special o' ho' hb' with e | ⟨rest, e⟩
      · exact e.symm
      · exfalso
        have hl : o.1.length = o'.1.length + 1 + rest.length := by rw [e]; simp; omega
        have hrest : rest ≠ [] := by
          rintro rfl
          exact plain_slash (q := o'.1) (hc.plain o h.mem) (by rw [e]; simp)
        have hlen : 0 < rest.length := List.length_pos_of_ne_nil hrest
        have hpl : o.1.length ≤ path.length := by
          rcases h.below with rfl | ⟨x, rfl⟩ <;> simp
        simp only [triple, List.mem_cons, List.not_mem_nil, or_false] at hr
        rcases hr with rfl | rfl | rfl
        · have hw' : r0.pattern.weight path ≤ (o'.1 ++ ['/']).length := hw
          simp only [List.length_append, List.length_singleton] at hw'
          omega
        · have := of_decide_eq_true h2
          rw [← this] at hpl
          omega
        · have := of_decide_eq_true h2
          rw [← this] at hpl
          simp only [List.length_append, List.length_singleton] at hpl
          omega
    have : o' = o := List.inj_on_of_nodup_map hc.distinct ho' h.mem he
    subst this
    simp only [triple, List.mem_cons, List.not_mem_nil, or_false] at hr
    rcases hr with rfl | rfl | rfl
    · exact ⟨_, rfl⟩
    · exact ⟨_, rfl⟩
    · exact ⟨_, rfl⟩

theorem best_free {c : Config} {path} (h : Free c path) : best path (c.owners.flatMap triple) = none := by
  cases hb : best path (c.owners.flatMap triple) with
  | none => rfl
  | some r =>
    obtain ⟨h1, h2, _⟩ := best_some hb
    obtain ⟨o, ho, hr⟩ := List.mem_flatMap.mp h1
    exact absurd (triple_below hr h2) (h o ho)

/-! ## Theorems -/

/-- **C68, the start.** With different prefixes the server starts, in whatever order they are given; every path belongs to exactly one of them, or to none. -/
theorem C68_starts {c : Config} (hc : c.Good) : ∃ rs, c.routes = some rs ∧
    ∀ path, Free c path ∨ ∃ o, Belongs c path o ∧ ∀ o', Belongs c path o' → o' = o := by
  refine ⟨_, routes_good hc, fun path => ?_⟩
  by_cases hf : Free c path
  · exact .inl hf
  · right
    -- the longest prefix
    have key : ∀ os : List (List Char × Handler), (∃ o ∈ os, Below o.1 path) →
        ∃ o ∈ os, Below o.1 path ∧ ∀ o' ∈ os, Below o'.1 path → o'.1.length ≤ o.1.length := by
      intro os
      induction os with
      | nil => rintro ⟨o, ho, _⟩; cases ho
      | cons a os ih =>
        intro hex
        by_cases hos : ∃ o ∈ os, Below o.1 path
        · obtain ⟨o, h1, h2, h3⟩ := ih hos
          by_cases ha : Below a.1 path ∧ o.1.length ≤ a.1.length
          · refine ⟨a, List.mem_cons_self, ha.1, fun o' ho' hb => ?_⟩
            rcases List.mem_cons.mp ho' with rfl | ho'
            · exact Nat.le_refl _
            · exact Nat.le_trans (h3 o' ho' hb) ha.2
          · refine ⟨o, List.mem_cons_of_mem _ h1, h2, fun o' ho' hb => ?_⟩
            rcases List.mem_cons.mp ho' with rfl | ho'
            · by_contra hlt
              exact ha ⟨hb, by omega⟩
            · exact h3 o' ho' hb
        · obtain ⟨o, ho, hb⟩ := hex
          rcases List.mem_cons.mp ho with rfl | ho
          · refine ⟨o, List.mem_cons_self, hb, fun o' ho' hb' => ?_⟩
            rcases List.mem_cons.mp ho' with rfl | ho'
            · exact Nat.le_refl _
            · exact absurd ⟨o', ho', hb'⟩ hos
          · exact absurd ⟨o, ho, hb⟩ hos
    have hex : ∃ o ∈ c.owners, Below o.1 path := by
      by_contra hno
      exact hf fun o ho hb => hno ⟨o, ho, hb⟩
    obtain ⟨o, h1, h2, h3⟩ := key _ hex
    -- two prefixes of one path
    have nested : ∀ {p q : List Char}, Plain q → Below p path → Below q path → p.length ≤ q.length → Below p q := by
      intro p q hq hp' hq' hl
      have hpre : ∀ {r : List Char}, Below r path → r <+: path := by
        rintro r (e | ⟨rest, e⟩)
        · exact ⟨[], by rw [e]; simp⟩
        · exact ⟨['/'] ++ rest, by rw [e]; simp⟩
      obtain ⟨t, ht⟩ := List.prefix_of_prefix_length_le (hpre hp') (hpre hq') hl
      cases t with
      | nil => exact .inl (by rw [← ht]; simp)
      | cons x t =>
        obtain ⟨u, hu⟩ := hpre hq'
        rcases hp' with e | ⟨rest, e⟩
        · exfalso
          have := congrArg List.length hu
          rw [e, ← ht] at this
          simp at this
        · rw [← hu, ← ht] at e
          simp only [List.append_assoc, List.append_cancel_left_eq, List.cons_append, List.nil_append, List.cons.injEq] at e
          exact .inr ⟨t, by rw [← ht, e.1]; simp⟩
    refine ⟨o, ⟨h1, h2, fun o' ho' hb => nested (hc.plain o h1) hb h2 (h3 o' ho' hb)⟩, fun o' hb => ?_⟩
    refine List.inj_on_of_nodup_map hc.distinct hb.mem h1 ?_
    have ha := nested (hc.plain o h1) hb.below h2 (h3 o' hb.mem hb.below)
    have hb' := hb.special o h1 h2
    rcases ha with ha | ⟨x, ha⟩
    · exact ha.symm
    · rcases hb' with hb' | ⟨y, hb'⟩
      · exact hb'
      · exfalso
        have l1 := congrArg List.length ha
        have l2 := congrArg List.length hb'
        simp at l1 l2
        omega

/-- **C68, pages.** A request whose path belongs to no prefix is answered by the application, for this path and query, whatever the method, the headers and the body are; nothing
is sent to another server, the answer is not to be stored, and its type is that of the page. -/
theorem C68_pages {J} (o : Outside J) {c : Config} (hc : c.Good) {rs} (hrs : c.routes = some rs) (r : Request) (hf : Free c r.path) :
    ∃ reply, answer o c rs r = (reply, none) ∧
      ("cache-control", "private, no-cache, no-store, must-revalidate, max-age=0") ∈ reply.headers ∧
      ("content-type", match (o.render (match r.query with | none => r.path | some q => r.path ++ ['?'] ++ q)).contentType with
        | .html => "text/html; charset=utf-8"
        | .plain => "text/plain") ∈ reply.headers ∧
      reply.status = (o.render (match r.query with | none => r.path | some q => r.path ++ ['?'] ++ q)).status ∧
      (c.portWatch = none → reply.body = .text (o.render (match r.query with | none => r.path | some q => r.path ++ ['?'] ++ q)).body) ∧
      (∀ port, c.portWatch = some port →
        reply.body = .text (addWatchScript o.watch port (o.render (match r.query with | none => r.path | some q => r.path ++ ['?'] ++ q))).body) := by
  rw [routes_good hc] at hrs
  cases hrs
  have hq : withQuery r.path r.query = (match r.query with | none => r.path | some q => r.path ++ ['?'] ++ q) := by
    cases r.query <;> simp [withQuery]
  refine ⟨page o c r, by rw [answer, best_free hf], by simp [page, pageReply], ?_, ?_, ?_, ?_⟩
  · have : ∀ port p, (addWatchScript o.watch port p).contentType = p.contentType := by
      intro port p
      simp only [addWatchScript]
      split
      · split <;> rfl
      · rfl
    rw [← hq, page]
    cases c.portWatch with
    | none => simp only [pageReply]; cases (o.render (withQuery r.path r.query)).contentType <;> simp
    | some port => simp only [pageReply, this]; cases (o.render (withQuery r.path r.query)).contentType <;> simp
  · rw [← hq, page]
    cases c.portWatch with
    | none => rfl
    | some port =>
      simp only [pageReply, addWatchScript]
      split
      · split <;> rfl
      · rfl
  · intro hp; rw [← hq, page, hp]; rfl
  · intro port hp; rw [← hq, page, hp]; rfl

/-- **C68, files.** A request for a path below the public path, that belongs to no proxy, is answered with the file at the rest of the path; the answer may be stored for a day. Nothing is
sent to another server and the application is not called. -/
theorem C68_files {J} (o : Outside J) {c : Config} (hc : c.Good) {rs} (hrs : c.routes = some rs) (r : Request) {rest : List Char}
    (hp : r.path = c.publicPath ++ ['/'] ++ rest) (hr : rest.head? ≠ some '/') (hb : Belongs c r.path (c.publicPath, .files)) :
    answer o c rs r = (let f := o.files r.method (['/'] ++ rest) r.headers
      { f with headers := ("cache-control", "public, max-age=86400") :: f.headers.filter fun h => h.1 ≠ "cache-control" }, none) := by
  rw [routes_good hc] at hrs
  cases hrs
  obtain ⟨pattern, h1⟩ := best_belongs hc hb
  have h2 := strip_below (hc.plain _ hb.mem).start rest
  rw [if_neg hr] at h2
  simp only [answer, h1, cached, setHeader]
  rw [hp]
  rw [h2]
  rfl

/-- **C68, a proxy, part.** A GET request below a proxy is sent on to the target with the rest of the path and the query, and what the other server answers is the answer. What is
missing: see the theorems `_violated`. -/
theorem C68_proxy_get_partial {J} (o : Outside J) {c : Config} (hc : c.Good) {rs} (hrs : c.routes = some rs) (r : Request) {p target rest : List Char}
    (hp : r.path = p ++ ['/'] ++ rest) (hr : rest.head? ≠ some '/') (hb : Belongs c r.path (p, .proxy target)) (hm : r.method = .get) :
    ∃ sent : Sent, sent.post = false ∧
      sent.url = target ++ ['/'] ++ rest ++ (match r.query with | none => [] | some q => ['?'] ++ q) ∧
      (answer o c rs r).2 = some sent ∧
      (∀ reply, o.fetch sent = .ok reply → (answer o c rs r).1 = reply) ∧
      (∀ e, o.fetch sent = .error e → (answer o c rs r).1.status = 500) := by
  rw [routes_good hc] at hrs
  cases hrs
  obtain ⟨pattern, h1⟩ := best_belongs hc hb
  have h2 := strip_below (hc.plain _ hb.mem).start rest
  rw [if_neg hr, ← hp] at h2
  have h3 : answer o c (c.owners.flatMap triple) r = proxyAnswer o target ('/' :: rest) r := by
    simp only [answer, h1]
    rw [h2]
  refine ⟨⟨false, target ++ withQuery ('/' :: rest) r.query, [], []⟩, rfl, ?_, ?_, ?_, ?_⟩
  · cases r.query <;> simp [withQuery]
  · rw [h3]; simp only [proxyAnswer, hm]
  · intro reply hf
    rw [h3]; simp only [proxyAnswer, hm, relay, hf]
  · intro e hf
    rw [h3]; simp only [proxyAnswer, hm, relay, hf, plainText]

/-- **C68, a proxy, part.** A POST request with JSON is sent on in the same way, with its headers, and a body that is the same JSON value. -/
theorem C68_proxy_post_partial {J} (o : Outside J) (hjson : ∀ j, o.read (o.write j) = some j) {c : Config} (hc : c.Good) {rs} (hrs : c.routes = some rs)
    (r : Request) {p target rest : List Char} (hp : r.path = p ++ ['/'] ++ rest) (hr : rest.head? ≠ some '/') (hb : Belongs c r.path (p, .proxy target))
    (hm : r.method = .post) {type : String} (ht : r.headers.find? (fun h => h.1 = "content-type") = some ("content-type", type)) (htype : o.jsonType type = true)
    (hs : r.body.length ≤ 2097152) {j} (hj : o.read r.body = some j) :
    ∃ sent : Sent, sent.post = true ∧
      sent.url = target ++ ['/'] ++ rest ++ (match r.query with | none => [] | some q => ['?'] ++ q) ∧
      sent.headers = r.headers ∧ o.read sent.body = some j ∧
      (answer o c rs r).2 = some sent ∧
      (∀ reply, o.fetch sent = .ok reply → (answer o c rs r).1 = reply) ∧
      (∀ e, o.fetch sent = .error e → (answer o c rs r).1.status = 500) := by
  rw [routes_good hc] at hrs
  cases hrs
  obtain ⟨pattern, h1⟩ := best_belongs hc hb
  have h2 := strip_below (hc.plain _ hb.mem).start rest
  rw [if_neg hr, ← hp] at h2
  have h3 : answer o c (c.owners.flatMap triple) r = proxyAnswer o target ('/' :: rest) r := by
    simp only [answer, h1]
    rw [h2]
  have h4 : extractJson o r = .ok j := by
    have : r.body.length ≤ 2 * 1024 * 1024 := hs
    simp only [extractJson, ht, Option.any_some, htype, if_true, if_pos this, hj]
  refine ⟨⟨true, target ++ withQuery ('/' :: rest) r.query, r.headers, o.write j⟩, rfl, ?_, rfl, hjson j, ?_, ?_, ?_⟩
  · cases r.query <;> simp [withQuery]
  · rw [h3]; simp only [proxyAnswer, hm, h4]
  · intro reply hf
    rw [h3]; simp only [proxyAnswer, hm, relay, hf, h4]
  · intro e hf
    rw [h3]; simp only [proxyAnswer, hm, relay, hf, h4, plainText]

/-! ## What a proxy does not do -/

/-- A request for the prefix itself is not sent to the target but to the target with a slash at the end. -/
theorem C68_bare_violated {J} (o : Outside J) {c : Config} (hc : c.Good) {rs} (hrs : c.routes = some rs) (r : Request) {target : List Char}
    (hb : Belongs c r.path (r.path, .proxy target)) (hm : r.method = .get) (hq : r.query = none) :
    ∃ sent, (answer o c rs r).2 = some sent ∧ sent.url = target ++ ['/'] := by
  rw [routes_good hc] at hrs
  cases hrs
  obtain ⟨pattern, h1⟩ := best_belongs hc hb
  have h2 := strip_self (hc.plain _ hb.mem).start
  simp only at h2
  refine ⟨⟨false, target ++ ['/'], [], []⟩, ?_, rfl⟩
  simp only [answer, h1, h2, proxyAnswer, hm, hq, withQuery]

/-- No header of a GET request is ever sent on: the other server does not see cookies, credentials or the accepted types. -/
theorem C68_get_headers_violated {J} (o : Outside J) (c : Config) (rs : List Route) (r : Request) (hm : r.method = .get) {sent} (h : (answer o c rs r).2 = some sent) :
    sent.headers = [] := by
  simp only [answer] at h
  split at h
  · cases h
  · simp only [proxyAnswer, hm] at h
    cases h
    rfl
  · cases h

/-- Other methods are not sent on. -/
theorem C68_method_violated {J} (o : Outside J) {c : Config} (hc : c.Good) {rs} (hrs : c.routes = some rs) (r : Request) {p target : List Char}
    (hb : Belongs c r.path (p, .proxy target)) {name} (hm : r.method = .other name) :
    (answer o c rs r).2 = none ∧ (answer o c rs r).1.status = 405 := by
  rw [routes_good hc] at hrs
  cases hrs
  obtain ⟨pattern, h1⟩ := best_belongs hc hb
  simp only [answer, h1, proxyAnswer, hm]
  exact ⟨trivial, rfl⟩

/-- A POST request that is not JSON (a form, a file) is not sent on. -/
theorem C68_post_type_violated {J} (o : Outside J) {c : Config} (hc : c.Good) {rs} (hrs : c.routes = some rs) (r : Request) {p target : List Char}
    (hb : Belongs c r.path (p, .proxy target)) (hm : r.method = .post) (ht : ∀ h ∈ r.headers, h.1 = "content-type" → o.jsonType h.2 = false) :
    (answer o c rs r).2 = none ∧ (answer o c rs r).1.status = 415 := by
  rw [routes_good hc] at hrs
  cases hrs
  obtain ⟨pattern, h1⟩ := best_belongs hc hb
  have h2 : extractJson o r = .error (plainText 415 "Expected request with `Content-Type: application/json`".toList) := by
    rw [extractJson, if_neg]
    cases hf : r.headers.find? (fun h => h.1 = "content-type") with
    | none => simp
    | some h =>
      have h3 := List.find?_some hf
      simp [ht h (List.mem_of_find?_eq_some hf) (of_decide_eq_true h3)]
  simp only [answer, h1, proxyAnswer, hm, h2]
  exact ⟨trivial, rfl⟩

theorem strip_root {rest : List Char} (h : rest.head? ≠ some '/') : strip ['/'] ('/' :: rest) = '/' :: rest := by
  have hd : prefixLength (splitSlash rest) [[]] 0 = some 1 := by
    cases rest with
    | nil => rfl
    | cons x t =>
      have hx : x ≠ '/' := fun e => h (by rw [e]; rfl)
      simp only [splitSlash, if_neg hx]
      cases splitSlash t <;> simp [prefixLength]
  simp only [strip, List.drop_succ_cons, List.drop_zero]
  rw [show splitSlash [] = [[]] from rfl, hd]
  simp [h]

/-- If the application is built with an empty public path, no page is ever rendered: everything is taken for a file. -/
theorem C68_root_violated {J} (o : Outside J) (c : Config) (h1 : c.publicPath = []) (h2 : c.proxies = []) (r : Request) {rest : List Char}
    (hr : r.path = '/' :: rest) (hrest : rest.head? ≠ some '/') :
    ∃ rs, c.routes = some rs ∧ answer o c rs r = (cached (o.files r.method r.path r.headers), none) := by
  refine ⟨[⟨.after ['/'], ['/'], .files⟩, ⟨.exact ['/'], ['/'], .files⟩], by rw [Config.routes, h1, h2]; rfl, ?_⟩
  have : ∃ pattern, best r.path [⟨.after ['/'], ['/'], .files⟩, ⟨.exact ['/'], ['/'], .files⟩] = some ⟨pattern, ['/'], .files⟩ := by
    rw [hr]
    cases rest with
    | nil => exact ⟨_, rfl⟩
    | cons y t => exact ⟨.after ['/'], by simp [best, Pattern.matched, List.isPrefixOf]⟩
  obtain ⟨pattern, hb⟩ := this
  simp only [answer, hb]
  rw [hr, strip_root hrest]

/-! ## Examples -/

/-- A JSON value is a number, written as so many ones; spaces do not matter. Other servers answer with the url. -/
def exampleOutside : Outside Nat where
  files _ p _ := if p = "/a.js".toList then ⟨200, [("cache-control", "no-cache"), ("content-type", "text/javascript")], .bytes [1]⟩ else ⟨404, [], .bytes []⟩
  render uri := ⟨200, .html, "<body>".toList ++ uri ++ "</body>".toList⟩
  fetch s := if s.url = "http://down/".toList then .error "refused".toList else .ok ⟨201, [("x", "y")], .text s.url⟩
  read b := some (b.filter (· ≠ 32)).length
  write j := List.replicate j 49
  jsonType t := t = "application/json"
  watch := "w".toList

def exampleConfig : Config :=
  ⟨"/build".toList, [("/api".toList, "http://one/x".toList), ("/api/v2".toList, "http://two".toList), ("/build/live".toList, "http://three".toList)], none⟩

theorem exampleConfig_good : exampleConfig.Good := by
  refine ⟨fun o ho => ?_, by decide⟩
  simp only [Config.owners, exampleConfig, List.map_cons, List.map_nil, List.mem_cons, List.not_mem_nil, or_false] at ho
  rcases ho with rfl | rfl | rfl | rfl <;> exact ⟨by decide, by decide, by decide, by decide⟩

def exampleAnswer (m : Method) (path : String) (query : Option String) (headers : Headers) (body : List UInt8) : Option (Reply × Option Sent) :=
  exampleConfig.routes.map fun rs => answer exampleOutside exampleConfig rs ⟨m, path.toList, query.map String.toList, headers, body⟩

example : exampleAnswer .get "/apiary" (some "a=1") [] [] =
    some (⟨200, [("cache-control", "private, no-cache, no-store, must-revalidate, max-age=0"), ("content-type", "text/html; charset=utf-8")], .text "<body>/apiary?a=1</body>".toList⟩, none) := by
  decide +kernel

example : exampleAnswer .get "/build/a.js" none [] [] = some (⟨200, [("cache-control", "public, max-age=86400"), ("content-type", "text/javascript")], .bytes [1]⟩, none) := by
  decide +kernel

/-- Also that there is no such file may be stored for a day. -/
example : exampleAnswer .get "/build/b.js" none [] [] = some (⟨404, [("cache-control", "public, max-age=86400")], .bytes []⟩, none) := by decide +kernel

example : exampleAnswer .get "/api/v2/users" (some "n=2") [("cookie", "c")] [] =
    some (⟨201, [("x", "y")], .text "http://two/users?n=2".toList⟩, some ⟨false, "http://two/users?n=2".toList, [], []⟩) := by decide +kernel

example : exampleAnswer .get "/api/v2x" none [] [] = some (⟨201, [("x", "y")], .text "http://one/x/v2x".toList⟩, some ⟨false, "http://one/x/v2x".toList, [], []⟩) := by decide +kernel

theorem example_belongs : Belongs exampleConfig "/api/v2/users".toList ("/api/v2".toList, .proxy "http://two".toList) := by
  refine ⟨by decide, .inr ⟨"users".toList, by decide⟩, fun o ho hb => ?_⟩
  simp only [Config.owners, exampleConfig, List.map_cons, List.map_nil, List.mem_cons, List.not_mem_nil, or_false] at ho
  rcases ho with rfl | rfl | rfl | rfl
  · exfalso
    rcases hb with h | ⟨rest, h⟩
    · revert h; decide
    · have := congrArg (List.take 6) h
      simp at this
  · exact .inr ⟨"v2".toList, by decide⟩
  · exact .inl rfl
  · exfalso
    rcases hb with h | ⟨rest, h⟩
    · revert h; decide
    · have := congrArg (List.take 6) h
      simp at this

example := C68_proxy_get_partial exampleOutside exampleConfig_good (routes_good exampleConfig_good)
  ⟨.get, "/api/v2/users".toList, none, [], []⟩ (rest := "users".toList) (by decide) (by decide) example_belongs rfl

theorem example_json (j : Nat) : exampleOutside.read (exampleOutside.write j) = some j := by
  show some ((List.replicate j (49 : UInt8)).filter _).length = some j
  rw [List.filter_replicate_of_pos (by decide), List.length_replicate]

example := C68_proxy_post_partial exampleOutside example_json exampleConfig_good (routes_good exampleConfig_good)
  ⟨.post, "/api/v2/users".toList, none, [("content-type", "application/json")], [49, 32, 49]⟩ (rest := "users".toList) (by decide) (by decide) example_belongs rfl
  (type := "application/json") (by decide) (by decide) (by decide) (j := 2) (by decide)

/-- The headers of a POST request are sent on as they are, but the body is written anew: the length that is claimed need not be the length of what is sent. And the other server is told
that the request is for the host of this one. -/
theorem C68_post_headers_violated : ∃ (r : Request) (sent : Sent), r.body.length = 3 ∧ ("content-length", "3") ∈ r.headers ∧ ("host", "localhost:4444") ∈ r.headers ∧
    (exampleConfig.routes.map fun rs => (answer exampleOutside exampleConfig rs r).2) = some (some sent) ∧
    sent.url = "http://two/users".toList ∧ ("content-length", "3") ∈ sent.headers ∧ sent.body.length = 2 ∧ ("host", "localhost:4444") ∈ sent.headers :=
  ⟨⟨.post, "/api/v2/users".toList, none, [("content-type", "application/json"), ("content-length", "3"), ("host", "localhost:4444")], [49, 32, 49]⟩,
    ⟨true, "http://two/users".toList, [("content-type", "application/json"), ("content-length", "3"), ("host", "localhost:4444")], [49, 49]⟩,
    by decide +kernel⟩

end Verif.Serve

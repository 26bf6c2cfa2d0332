import Verif.Bind.Model
/-!
# C69: proofs
-/
namespace Verif.Bind

/-! ## Splitting -/

/-- The character does not occur outside of brackets. -/
def Without (c : Char) (ts : List Tok) : Prop := .punct c ∉ ts

theorem splitAt_none {c : Char} : ∀ {ts : List Tok}, Without c ts → splitAt c ts = [ts]
  | [], _ => rfl
  | t :: ts, h => by
      simp only [Without, List.mem_cons, not_or] at h
      rw [splitAt, if_neg (by simpa [isChar] using Ne.symm h.1), splitAt_none h.2]

theorem splitAt_one {c : Char} (b : List Tok) : ∀ {a : List Tok}, Without c a → splitAt c (a ++ .punct c :: b) = a :: splitAt c b
  | [], _ => by simp [splitAt, isChar]
  | t :: ts, h => by
      simp only [Without, List.mem_cons, not_or] at h
      rw [List.cons_append, splitAt, if_neg (by simpa [isChar] using Ne.symm h.1), splitAt_one b h.2]

theorem Capture.without {c : Char} (hc : c ≠ '.') (x : Capture) : Without c x.tokens := by
  simp only [Without, tokens, List.mem_cons, List.mem_flatMap, List.not_mem_nil, or_false, reduceCtorEq, false_or, not_exists, not_and]
  rintro f _ h
  exact hc (Tok.punct.inj h)

theorem written_append : ∀ (cs : List Capture) (body : List Tok), written cs body = written cs [] ++ body
  | [], _ => rfl
  | c :: cs, body => by simp [written, written_append cs body]

theorem written_without {c : Char} (h1 : c ≠ '.') (h2 : c ≠ ',') : ∀ cs : List Capture, Without c (written cs [])
  | [] => by simp [Without, written]
  | x :: cs => by
      have ih := written_without h1 h2 cs
      have hx := x.without h1
      simp only [Without, written, List.mem_append, List.mem_singleton, not_or] at ih hx ⊢
      exact ⟨⟨hx, fun e => h2 (Tok.punct.inj e)⟩, ih⟩

theorem splitAt_written {body : List Tok} (hb : Without ',' body) : ∀ cs : List Capture, splitAt ',' (written cs body) = cs.map Capture.tokens ++ [body]
  | [] => by simp [written, splitAt_none hb]
  | c :: cs => by
      simp only [written, List.append_assoc, List.cons_append, List.nil_append, List.map_cons]
      rw [splitAt_one _ (c.without (by decide)), splitAt_written hb cs]

theorem tokens_ne (c : Capture) : c.tokens ≠ [] := by simp [Capture.tokens]

theorem filter_tokens (cs : List Capture) : (cs.map Capture.tokens ++ [[]]).filter (· ≠ []) = cs.map Capture.tokens := by
  rw [List.filter_append, List.filter_eq_self.mpr]
  · simp
  · intro x hx
    obtain ⟨c, _, rfl⟩ := List.mem_map.mp hx
    simp [tokens_ne c]

theorem fromPipe_append {a b : List Tok} (h : Without '|' a) : fromPipe (a ++ .punct '|' :: b) = .punct '|' :: b := by
  induction a with
  | nil => simp [fromPipe, isChar]
  | cons t a ih =>
    simp only [Without, List.mem_cons, not_or] at h
    rw [List.cons_append, fromPipe, if_neg (by simpa [isChar] using Ne.symm h.1), ih h.2]

theorem parts_function (cs : List Capture) {params body : List Tok} (hp : Without '|' params) (hb : Without '|' body) :
    splitParts (written cs (closure params body)) = .ok ⟨cs.map Capture.tokens, some ((splitAt ',' params).filter (· ≠ [])), closure params body⟩ := by
  have hw := written_without (c := '|') (by decide) (by decide) cs
  have hc : closure params body = .punct '|' :: (params ++ .punct '|' :: body) := by simp [closure]
  have ha : (written cs (closure params body)).any (isChar '|') = true := by
    rw [written_append, hc]
    simp [isChar]
  have h1 := splitAt_written (body := []) (by simp [Without]) cs
  rw [splitParts, if_pos ha, splitFunction]
  simp only [written_append cs (closure params body)]
  rw [hc, splitAt_one _ hw, splitAt_one _ hp, splitAt_none hb]
  simp only [fromPipe_append hw, h1, filter_tokens]

theorem parts_block (cs : List Capture) {body : List Tok} (hb : Without '|' body) (hb' : Without ',' body) :
    splitParts (written cs body) = .ok ⟨cs.map Capture.tokens, none, body⟩ := by
  have ha : ¬ (written cs body).any (isChar '|') = true := by
    rw [written_append]
    have hw := written_without (c := '|') (by decide) (by decide) cs
    simp only [Without] at hw hb
    simp only [List.any_eq_true, List.mem_append, not_exists, not_and, isChar, decide_eq_true_eq]
    rintro x (h | h) rfl
    · exact hw h
    · exact hb h
  rw [splitParts, if_neg ha, splitBlock, splitAt_written hb']
  simp

theorem again_tokens : ∀ cs : List Capture, again (cs.map Capture.tokens) = written cs []
  | [] => rfl
  | c :: cs => by simp [again, written, again_tokens cs]

/-! ## Names and values -/

theorem paramName_tokens (c : Capture) : paramName c.tokens = .ok c.name := by
  have key : ∀ (fs : List String) (r : String), (Tok.ident r :: fs.flatMap fun f => [Tok.punct '.', .ident f]).getLast? = some (.ident (fs.getLast?.getD r)) := by
    intro fs
    induction fs with
    | nil => intro r; rfl
    | cons f fs ih =>
      intro r
      have := ih f
      simp only [List.flatMap_cons, List.cons_append, List.nil_append, List.getLast?_cons_cons] at this ⊢
      rw [this, List.getLast?_cons]
      simp
  rw [paramName, Capture.tokens, key]
  rfl

theorem lets_tokens : ∀ (cs : List Capture) (seen : List String), (cs.map Capture.name).Nodup → (∀ c ∈ cs, c.name ∉ seen) →
    lets (cs.map Capture.tokens) seen = .ok (cs.map fun c => (c.name, c.tokens))
  | [], _, _, _ => rfl
  | c :: cs, seen, hn, hs => by
      obtain ⟨h1, h2⟩ := List.nodup_cons.mp hn
      have := lets_tokens cs (c.name :: seen) h2 fun d hd => by
        simp only [List.mem_cons, not_or]
        exact ⟨fun e => h1 (List.mem_map.mpr ⟨d, hd, e⟩), hs d (List.mem_cons_of_mem _ hd)⟩
      simp only [List.map_cons, lets, paramName_tokens, if_neg (hs c List.mem_cons_self), this]

theorem lets_conflict : ∀ (cs : List Capture) (seen : List String), (¬ (cs.map Capture.name).Nodup ∨ ∃ c ∈ cs, c.name ∈ seen) →
    ∃ e, lets (cs.map Capture.tokens) seen = .error e
  | [], _, h => by simp at h
  | c :: cs, seen, h => by
      simp only [List.map_cons, lets, paramName_tokens]
      split
      · exact ⟨_, rfl⟩
      · rename_i hc
        have : ¬ (cs.map Capture.name).Nodup ∨ ∃ d ∈ cs, d.name ∈ c.name :: seen := by
          rcases h with h | ⟨d, hd, hm⟩
          · rw [List.map_cons, List.nodup_cons] at h
            by_cases hn : (cs.map Capture.name).Nodup
            · right
              have : c.name ∈ cs.map Capture.name := by
                exact Decidable.byContradiction fun hno => h ⟨hno, hn⟩
              obtain ⟨d, hd, e⟩ := List.mem_map.mp this
              exact ⟨d, hd, by rw [e]; exact List.mem_cons_self⟩
            · exact .inl hn
          · rcases List.mem_cons.mp hd with rfl | hd
            · exact absurd hm hc
            · exact .inr ⟨d, hd, List.mem_cons_of_mem _ hm⟩
        obtain ⟨e, he⟩ := lets_conflict cs _ this
        exact ⟨e, by rw [he]⟩

theorem fieldsOf_tokens (m : Values V) : ∀ (fs : List String) (v : V), fieldsOf m v (fs.flatMap fun f => [.punct '.', .ident f]) = some (fs.foldl m.field v)
  | [], _ => rfl
  | f :: fs, v => by
      simp only [List.flatMap_cons, List.cons_append, List.nil_append, fieldsOf, List.foldl_cons]
      exact fieldsOf_tokens m fs _

theorem pathValue_tokens (m : Values V) (env : Env V) (c : Capture) : pathValue m env c.tokens = c.value m env := by
  simp only [pathValue, Capture.tokens, Capture.value, fieldsOf_tokens]
  cases env c.root <;> rfl

theorem runLets_inside (m : Values V) : ∀ (cs : List Capture) (env : Env V), (cs.map Capture.name).Nodup → Apart cs → (∀ c ∈ cs, (env c.root).isSome) →
    ∃ env', runLets m (cs.map fun c => (c.name, c.tokens)) env = some env' ∧ Inside m cs env env'
  | [], env, _, _, _ => ⟨env, rfl, by simp, by simp⟩
  | c :: cs, env, hn, ha, hv => by
      obtain ⟨h1, h2⟩ := List.nodup_cons.mp hn
      obtain ⟨v, hcv⟩ := Option.isSome_iff_exists.mp (hv c List.mem_cons_self)
      have hval : c.value m env = some (c.fields.foldl m.field v) := by rw [Capture.value, hcv]; rfl
      obtain ⟨env', h3, h4⟩ := runLets_inside m cs (fun x => if x = c.name then some (m.clone (c.fields.foldl m.field v)) else env x) h2 ha.2 fun d hd => by
        simp only [if_neg (ha.1 d hd)]
        exact hv d (List.mem_cons_of_mem _ hd)
      refine ⟨env', by simp only [List.map_cons, runLets, pathValue_tokens, hval, h3], fun d hd => ?_, fun x hx => ?_⟩
      · rcases List.mem_cons.mp hd with rfl | hd
        · refine ⟨_, hval, ?_⟩
          rw [h4.other d.name fun e he e' => h1 (List.mem_map.mpr ⟨e, he, e'⟩)]
          simp
        · obtain ⟨w, hw, hw'⟩ := h4.captured d hd
          refine ⟨w, ?_, hw'⟩
          rw [← hw, Capture.value, Capture.value, if_neg (ha.1 d hd)]
      · rw [h4.other x fun e he => hx e (List.mem_cons_of_mem _ he), if_neg fun e => hx c List.mem_cons_self e.symm]

/-! ## Theorems -/

/-- **C69, bind!, part.** For all captures (variables or fields of variables) with different names and every closure: the macro gives the closure as it is written, and inside of it each name stands for a clone
of what was captured, taken when the closure was made. What is missing: captures that begin with the name of one before them (`C69_order_violated`) and closures with `|` in the
body or in the parameters, which are not accepted (`C69_pipe_violated`). -/
theorem C69_bind_partial (m : Values V) (cs : List Capture) (hn : (cs.map Capture.name).Nodup) (ha : Apart cs) (env : Env V) (hv : ∀ c ∈ cs, (env c.root).isSome)
    (params body : List Tok) (hp : .punct '|' ∉ params) (hb : .punct '|' ∉ body) :
    ∃ code env', bind (written cs (closure params body)) = .ok code ∧ code.move = true ∧ code.body = closure params body ∧
      runLets m code.lets env = some env' ∧ Inside m cs env env' := by
  obtain ⟨env', h1, h2⟩ := runLets_inside m cs env hn ha hv
  refine ⟨⟨_, true, closure params body⟩, env', ?_, rfl, rfl, h1, h2⟩
  simp only [bind, parts_function cs hp hb, lets_tokens cs [] hn (by simp)]
  simp [closure, isChar]

/-- The same for a block (`async move { .. }`). -/
theorem C69_block_partial (m : Values V) (cs : List Capture) (hn : (cs.map Capture.name).Nodup) (ha : Apart cs) (env : Env V) (hv : ∀ c ∈ cs, (env c.root).isSome)
    (body : List Tok) (hb : .punct '|' ∉ body) (hb' : .punct ',' ∉ body) :
    ∃ code env', bind (written cs body) = .ok code ∧ code.move = false ∧ code.body = body ∧ runLets m code.lets env = some env' ∧ Inside m cs env env' := by
  obtain ⟨env', h1, h2⟩ := runLets_inside m cs env hn ha hv
  refine ⟨⟨_, false, body⟩, env', ?_, rfl, rfl, h1, h2⟩
  simp only [bind, parts_block cs hb hb', lets_tokens cs [] hn (by simp)]
  have : body.head?.any (isChar '|') = false := by
    cases body with
    | nil => rfl
    | cons t body =>
      simp only [List.head?_cons, Option.any_some, isChar, decide_eq_false_iff_not]
      rintro rfl
      exact hb List.mem_cons_self
  simp [this]

/-- **C69, names.** Two captures with the same name are never accepted. -/
theorem C69_conflict (cs : List Capture) (hn : ¬ (cs.map Capture.name).Nodup) (params body : List Tok) (hp : .punct '|' ∉ params) (hb : .punct '|' ∉ body) :
    ∃ e, bind (written cs (closure params body)) = .error e := by
  obtain ⟨e, he⟩ := lets_conflict cs [] (.inl hn)
  exact ⟨e, by simp only [bind, parts_function cs hp hb, he]⟩

/-- **C69, bind_spawn!, part.** The macro gives a function without parameters. Whenever it is called, the block runs with each name standing for a clone (or a clone of a clone) of what was captured. What
is missing: captures of fields that begin with the name of any of the captures (`C69_spawn_order_violated`). -/
theorem C69_spawn_partial (m : Values V) (cs : List Capture) (hn : (cs.map Capture.name).Nodup) (ha : Apart cs)
    (ha' : ∀ c ∈ cs, c.fields ≠ [] → ∀ d ∈ cs, c.root ≠ d.name) (env : Env V) (hv : ∀ c ∈ cs, (env c.root).isSome)
    (body : List Tok) (hb : .punct '|' ∉ body) (hb' : .punct ',' ∉ body) :
    ∃ outer inner env1 env2, bindSpawn (written cs body) = .ok (outer, inner) ∧
      outer.move = true ∧ outer.body = closure [] [.other "{spawn}"] ∧ runLets m outer.lets env = some env1 ∧
      inner.move = false ∧ inner.body = body ∧ runLets m inner.lets env1 = some env2 ∧
      (∀ c ∈ cs, ∃ v, c.value m env = some v ∧ (env2 c.name = some (m.clone v) ∨ env2 c.name = some (m.clone (m.clone v)))) ∧
      (∀ x, (∀ c ∈ cs, c.name ≠ x) → env2 x = env x) := by
  obtain ⟨outer, env1, h1, h2, h3, h4, h5⟩ := C69_bind_partial m cs hn ha env hv [] [.other "{spawn}"] (by simp) (by simp)
  have hroot : ∀ c ∈ cs, c.fields ≠ [] → env1 c.root = env c.root := fun c hc hf => h5.other _ fun d hd e => ha' c hc hf d hd e.symm
  have hv1 : ∀ c ∈ cs, (env1 c.root).isSome := by
    intro c hc
    by_cases hf : c.fields = []
    · obtain ⟨v, _, hv'⟩ := h5.captured c hc
      have : c.name = c.root := by simp [Capture.name, hf]
      rw [← this, hv']
      rfl
    · rw [hroot c hc hf]
      exact hv c hc
  obtain ⟨inner, env2, g1, g2, g3, g4, g5⟩ := C69_block_partial m cs hn ha env1 hv1 body hb hb'
  refine ⟨outer, inner, env1, env2, ?_, h2, h3, h4, g2, g3, g4, fun c hc => ?_, fun x hx => ?_⟩
  · have e1 : written cs [] ++ [.punct '|', .punct '|', .other "{spawn}"] = written cs (closure [] [.other "{spawn}"]) := by
      rw [written_append cs (closure _ _)]; rfl
    simp only [bindSpawn, parts_block cs hb hb', again_tokens]
    rw [e1, h1, ← written_append, g1]
  · obtain ⟨v, hv0, hv1'⟩ := h5.captured c hc
    obtain ⟨w, hw, hw'⟩ := g5.captured c hc
    refine ⟨v, hv0, ?_⟩
    by_cases hf : c.fields = []
    · right
      have hname : c.name = c.root := by simp [Capture.name, hf]
      have : w = m.clone v := by
        rw [Capture.value, ← hname, hv1', hf] at hw
        simpa using hw.symm
      rw [hw', this]
    · left
      have : c.value m env1 = c.value m env := by rw [Capture.value, Capture.value, hroot c hc hf]
      rw [this, hv0] at hw
      rw [hw', ← Option.some.inj hw]
  · rw [g5.other x hx, h5.other x hx]

/-- Parameters of a closure: `name : type, ..`. -/
def typed : List (String × List Tok) → List Tok
  | [] => []
  | [(x, t)] => [.ident x, .punct ':'] ++ t
  | (x, t) :: ps => [.ident x, .punct ':'] ++ t ++ [.punct ','] ++ typed ps

theorem getTypes_typed : ∀ ps : List (String × List Tok), (∀ p ∈ ps, p.2 ≠ [] ∧ .punct ':' ∉ p.2 ∧ .punct ',' ∉ p.2) →
    getTypes ((splitAt ',' (typed ps)).filter (· ≠ [])) = .ok (ps.map (·.2)) := by
  have one : ∀ (x : String) (t : List Tok), .punct ':' ∉ t → getType ([.ident x, .punct ':'] ++ t) = .ok t := by
    intro x t ht
    have : splitAt ':' ([.ident x, .punct ':'] ++ t) = [[.ident x], t] := by
      have := splitAt_one (c := ':') t (a := [.ident x]) (by simp [Without])
      rw [splitAt_none ht] at this
      simpa using this
    rw [getType, this]
  intro ps
  induction ps with
  | nil => intro _; rfl
  | cons p ps ih =>
    intro h
    obtain ⟨x, t⟩ := p
    obtain ⟨h1, h2, h3⟩ := h (x, t) List.mem_cons_self
    have hw : Without ',' ([.ident x, .punct ':'] ++ t) := by simpa [Without] using h3
    cases ps with
    | nil =>
      simp only [typed, splitAt_none hw]
      simp only [List.cons_append, List.nil_append, ne_eq, reduceCtorEq, not_false_eq_true, decide_true, List.filter_cons_of_pos, List.filter_nil, getTypes]
      rw [show getType (Tok.ident x :: .punct ':' :: t) = .ok t from one x t h2]
      rfl
    | cons q ps =>
      have ih' := ih fun p hp => h p (List.mem_cons_of_mem _ hp)
      have e : typed ((x, t) :: q :: ps) = ([.ident x, .punct ':'] ++ t) ++ .punct ',' :: typed (q :: ps) := by simp [typed]
      rw [e, splitAt_one _ hw, List.filter_cons_of_pos (by simp), getTypes, one x t h2, ih']
      rfl

theorem typed_without : ∀ {ps : List (String × List Tok)}, (∀ p ∈ ps, .punct '|' ∉ p.2) → .punct '|' ∉ typed ps
  | [], _ => by simp [typed]
  | [(x, t)], h => by simpa [typed] using h (x, t) (by simp)
  | (x, t) :: q :: ps, h => by
      have := typed_without (ps := q :: ps) fun p hp => h p (List.mem_cons_of_mem _ hp)
      have h1 := h (x, t) List.mem_cons_self
      simp only [typed, List.mem_append, List.mem_cons, List.not_mem_nil, or_false, not_or]
      exact ⟨⟨⟨by simp, h1⟩, by simp⟩, this⟩

/-- **C69, bind_rc!, part.** The function in the `Rc` is the closure of bind!, and its type has the types of the parameters, in their order. What is missing: types with `::` or with commas
(`C69_rc_path_violated`). -/
theorem C69_rc_partial (m : Values V) (cs : List Capture) (hn : (cs.map Capture.name).Nodup) (ha : Apart cs) (env : Env V) (hv : ∀ c ∈ cs, (env c.root).isSome)
    (ps : List (String × List Tok)) (hps : ∀ p ∈ ps, p.2 ≠ [] ∧ .punct ':' ∉ p.2 ∧ .punct ',' ∉ p.2 ∧ .punct '|' ∉ p.2) (body : List Tok) (hb : .punct '|' ∉ body) :
    ∃ code env', bindRc (written cs (closure (typed ps) body)) = .ok (ps.map (·.2), code) ∧ code.move = true ∧ code.body = closure (typed ps) body ∧
      runLets m code.lets env = some env' ∧ Inside m cs env env' := by
  have hw := typed_without fun p hp => (hps p hp).2.2.2
  obtain ⟨code, env', h1, h2, h3, h4, h5⟩ := C69_bind_partial m cs hn ha env hv (typed ps) body hw hb
  refine ⟨code, env', ?_, h2, h3, h4, h5⟩
  simp only [bindRc, parts_function cs hw hb, getTypes_typed ps fun p hp => ⟨(hps p hp).1, (hps p hp).2.1, (hps p hp).2.2.1⟩, again_tokens]
  rw [← written_append, h1]

/-! ## What is missing -/

/-- Paths as values: the value of `x.a` is the path. -/
def exampleValues : Values (List String) := ⟨fun v f => v ++ [f], fun v => v⟩

def exampleEnv : Env (List String) := fun x => some [x]

/-- A capture that begins with the name of one before it: not the variable `a` outside is captured, but the one just made. -/
theorem C69_order_violated : ∃ (cs : List Capture) (code : Code) (env' : Env (List String)), (cs.map Capture.name).Nodup ∧
    bind (written cs (closure [] [.other "{}"])) = .ok code ∧ runLets exampleValues code.lets exampleEnv = some env' ∧
    env' "b" = some ["x", "a", "b"] ∧ (⟨"a", ["b"]⟩ : Capture) ∈ cs ∧ (⟨"a", ["b"]⟩ : Capture).value exampleValues exampleEnv = some ["a", "b"] := by
  refine ⟨[⟨"x", ["a"]⟩, ⟨"a", ["b"]⟩], ⟨[("a", [.ident "x", .punct '.', .ident "a"]), ("b", [.ident "a", .punct '.', .ident "b"])], true, closure [] [.other "{}"]⟩,
    fun x => if x = "b" then some ["x", "a", "b"] else if x = "a" then some ["x", "a"] else some [x], by decide, rfl, rfl, by decide, by decide, by decide⟩

/-- In bind_spawn! the order does not help: the inner bind! sees all names of the outer one. -/
theorem C69_spawn_order_violated : ∃ (cs : List Capture) (outer inner : Code) (env1 env2 : Env (List String)), (cs.map Capture.name).Nodup ∧ Apart cs ∧
    bindSpawn (written cs [.ident "async", .ident "move", .other "{}"]) = .ok (outer, inner) ∧ runLets exampleValues outer.lets exampleEnv = some env1 ∧
    runLets exampleValues inner.lets env1 = some env2 ∧ env1 "b" = some ["a", "b"] ∧ env2 "b" = some ["x", "a", "b"] := by
  refine ⟨[⟨"a", ["b"]⟩, ⟨"x", ["a"]⟩], ⟨[("b", [.ident "a", .punct '.', .ident "b"]), ("a", [.ident "x", .punct '.', .ident "a"])], true, closure [] [.other "{spawn}"]⟩,
    ⟨[("b", [.ident "a", .punct '.', .ident "b"]), ("a", [.ident "x", .punct '.', .ident "a"])], false, [.ident "async", .ident "move", .other "{}"]⟩,
    fun x => if x = "a" then some ["x", "a"] else if x = "b" then some ["a", "b"] else some [x],
    fun x => if x = "a" then some ["x", "a"] else if x = "b" then some ["x", "a", "b"] else if x = "a" then some ["x", "a"] else if x = "b" then some ["a", "b"] else some [x],
    by decide, ⟨by decide, by decide, trivial⟩, rfl, rfl, rfl, by decide, by decide⟩

/-- A closure with `|` in its body (`|x| x | 1`) is not accepted, whatever is captured. -/
theorem C69_pipe_violated (cs : List Capture) {params a b : List Tok} (hp : .punct '|' ∉ params) (ha : .punct '|' ∉ a) :
    ∃ e, bind (written cs (closure params (a ++ [.punct '|'] ++ b))) = .error e := by
  have hw := written_without (c := '|') (by decide) (by decide) cs
  refine ⟨"Two brackets '|' were expected", ?_⟩
  have hc : closure params (a ++ [.punct '|'] ++ b) = .punct '|' :: (params ++ .punct '|' :: (a ++ .punct '|' :: b)) := by simp [closure]
  have hany : (written cs (closure params (a ++ [.punct '|'] ++ b))).any (isChar '|') = true := by
    rw [written_append, hc]
    simp [isChar]
  have hsplit : splitAt '|' (written cs (closure params (a ++ [.punct '|'] ++ b))) = written cs [] :: params :: a :: splitAt '|' b := by
    rw [written_append, hc, splitAt_one _ hw, splitAt_one _ hp, splitAt_one _ ha]
  have hne : splitAt '|' b ≠ [] := by
    cases b with
    | nil => simp [splitAt]
    | cons t b => rw [splitAt]; split; · simp
                  split <;> simp
  cases hb : splitAt '|' b with
  | nil => exact absurd hb hne
  | cons w ws => simp only [bind, splitParts, if_pos hany, splitFunction, hsplit, hb]

/-- A parameter whose type is a path with `::` is not accepted by bind_rc!. -/
theorem C69_rc_path_violated (x a b : String) (cs : List Capture) :
    ∃ e, bindRc (written cs (closure [.ident x, .punct ':', .ident a, .punct ':', .punct ':', .ident b] [.other "{}"])) = .error e := by
  refine ⟨"type must be specified for all function parameters", ?_⟩
  simp only [bindRc, parts_function cs (params := [.ident x, .punct ':', .ident a, .punct ':', .punct ':', .ident b]) (body := [.other "{}"]) (by simp [Without]) (by simp [Without])]
  simp [splitAt, isChar, getTypes, getType]

/-! ## Example -/

def exampleCaptures : List Capture := [⟨"state", []⟩, ⟨"self", ["driver", "value"]⟩]

/-- `bind!(state, self.driver.value, |n| { .. })` -/
example : bind (written exampleCaptures (closure [.ident "n"] [.other "{..}"])) =
    .ok ⟨[("state", [.ident "state"]), ("value", [.ident "self", .punct '.', .ident "driver", .punct '.', .ident "value"])], true,
      [.punct '|', .ident "n", .punct '|', .other "{..}"]⟩ := rfl

example := C69_bind_partial exampleValues exampleCaptures (by decide) ⟨by decide, by decide, trivial⟩ exampleEnv (by simp [exampleEnv]) [.ident "n"] [.other "{..}"] (by decide) (by decide)

example := C69_spawn_partial exampleValues exampleCaptures (by decide) ⟨by decide, by decide, trivial⟩ (by decide) exampleEnv (by simp [exampleEnv])
  [.ident "async", .ident "move", .other "{..}"] (by decide) (by decide)

example := C69_rc_partial exampleValues exampleCaptures (by decide) ⟨by decide, by decide, trivial⟩ exampleEnv (by simp [exampleEnv])
  [("n", [.ident "u32"]), ("s", [.punct '&', .ident "str"])] (by decide) [.other "{..}"] (by decide)

end Verif.Bind

import Verif.Reactive.MachineProps
/-!
# C86: map, to_computed and computed_tuple!

Model of the functions with which an application derives computeds: `Value::map`, `Value::to_computed` (`value.rs:121-126`, `136-140`), `Computed::map` and the
conversion from a value (`computed_box.rs:88-93`, `171-175`), and of the macro `computed_tuple!` (`computed/mod.rs:58-73`), on top of the reactive core.
-/
namespace Verif.Reactive

variable {V : Type}

/-! ## Model -/

/-- value.rs:136-140, computed_box.rs:171-175: the closure of `to_computed`. -/
def toComputed (id : GraphId) : Prog V := .read id fun v => .ret v

/-- value.rs:121-126, computed_box.rs:88-93: the closure of `map`. -/
def mapped (id : GraphId) (f : V → V) : Prog V := .read id fun v => .ret (f v)

/-- An argument of `computed_tuple!`: `name`, or `name => expr`. What an expression stands for depends on the variables. -/
inductive TupleArg where
  | plain (name : String)
  | named (name : String) (expr : (String → Option GraphId) → Option GraphId)

/-- `$arg`, or `$name`. -/
def TupleArg.name : TupleArg → String
  | .plain name => name
  | .named name _ => name

/-- `$arg.clone()`, or `($arg).clone()`: another handle of the same node. -/
def TupleArg.handle (vars : String → Option GraphId) : TupleArg → Option GraphId
  | .plain name => vars name
  | .named _ expr => expr vars

def TupleArg.isPlain : TupleArg → Bool
  | .plain _ => true
  | .named .. => false

/-- `($($arg.clone()),*)`: all of them are evaluated before a name is bound. -/
def handles (vars : String → Option GraphId) : List TupleArg → Option (List GraphId)
  | [] => some []
  | a :: rest =>
      match a.handle vars, handles vars rest with
      | some id, some ids => some (id :: ids)
      | _, _ => none

/-- `let ($($arg),*) = ..`. -/
def bindAll : List (String × GraphId) → (String → Option GraphId) → (String → Option GraphId)
  | [], vars => vars
  | (x, id) :: rest, vars => bindAll rest fun y => if y = x then some id else vars y

/-- What the names stand for in the closure; `none`: one of them is not bound. -/
def resolve (vars : String → Option GraphId) : List String → Option (List GraphId)
  | [] => some []
  | x :: xs =>
      match vars x, resolve vars xs with
      | some id, some ids => some (id :: ids)
      | _, _ => none

/-- `($($arg.get(ctx)),*)`: the nodes are read from left to right. With one name the brackets make no tuple. -/
def getAll (tuple : List V → V) : List GraphId → List V → Prog V
  | [], [v] => .ret v
  | [], vs => .ret (tuple vs)
  | id :: ids, vs => .read id fun v => getAll tuple ids (vs ++ [v])

/-- mod.rs:58-73. `none`: it is not compiled: the arguments are of both kinds, a name is bound twice, or an expression is not the handle of a node. -/
def computedTuple (tuple : List V → V) (vars : String → Option GraphId) (args : List TupleArg) : Option (Prog V) :=
  if args.all (·.isPlain) ∨ args.all (!·.isPlain) then
    if (args.map (·.name)).Nodup then
      match handles vars args with
      | none => none
      | some ids => (resolve (bindAll ((args.map (·.name)).zip ids) vars) (args.map (·.name))).map fun ids => getAll tuple ids []
    else none
  else none

/-! ## Specification -/

/-- The closure reads the nodes and gives this function of their values. -/
inductive Gives : Prog V → List GraphId → (List V → V) → Prop
  | ret : Gives (.ret (f [])) [] f
  | read : (∀ v, Gives (k v) ids fun vs => f (v :: vs)) → Gives (.read x k) (x :: ids) f

/-- The node that an argument stands for, among the variables outside of the macro. -/
inductive TupleArg.Means (vars : String → Option GraphId) : TupleArg → GraphId → Prop
  | plain : vars x = some n → Means vars (.plain x) n
  | named : e vars = some n → Means vars (.named x e) n

/-- The name that an argument binds. -/
inductive TupleArg.Binds : TupleArg → String → Prop
  | plain : Binds (.plain x) x
  | named : Binds (.named x e) x

/-- The nodes that the arguments stand for. -/
inductive MeansAll (vars : String → Option GraphId) : List TupleArg → List GraphId → Prop
  | nil : MeansAll vars [] []
  | cons : a.Means vars n → MeansAll vars args ids → MeansAll vars (a :: args) (n :: ids)

/-- A tuple; one value in brackets is this value. -/
def tupleOf (tuple : List V → V) : List V → V
  | [v] => v
  | vs => tuple vs

/-- Each node has this value, computed from the same contents of the values. -/
inductive ScratchAll (vals : GraphId → Option V) (defs : GraphId → Option (Prog V)) : List GraphId → List V → Prop
  | nil : ScratchAll vals defs [] []
  | cons : Scratch vals defs x v → ScratchAll vals defs ids vs → ScratchAll vals defs (x :: ids) (v :: vs)

/-! ## Proofs -/

theorem Gives.path {p : Prog V} {ids : List GraphId} {f : List V → V} (h : Gives p ids f) {l : List GraphId} (hp : p.Path l) : l = ids := by
  induction h generalizing l with
  | ret => cases hp; rfl
  | read _ ih =>
      cases hp with
      | read hp => rw [ih _ hp]

theorem Gives.den {vals : GraphId → Option V} {defs : GraphId → Option (Prog V)} {p : Prog V} {ids : List GraphId} {f : List V → V} (h : Gives p ids f)
    {v : V} (hd : Den vals defs (.inr p) v) : ∃ vs, ScratchAll vals defs ids vs ∧ v = f vs := by
  induction h generalizing v with
  | ret => cases hd; exact ⟨[], .nil, rfl⟩
  | read _ ih =>
      cases hd with
      | read h1 h2 =>
          obtain ⟨vs, a, b⟩ := ih _ h2
          exact ⟨_ :: vs, .cons h1 a, b⟩

/-- Programs in which every computed gives a function of nodes older than it are static. -/
theorem derived_static {log : List (Ev V)} (h : ∀ id p, .defined id p ∈ log → ∃ ids f, Gives p ids f ∧ ∀ x ∈ ids, x.num < id.num) : StaticLog log := by
  intro id p hd
  obtain ⟨ids, f, h1, h2⟩ := h id p hd
  exact ⟨ids, fun l hl x => by rw [h1.path hl], h2⟩

theorem handles_length {vars : String → Option GraphId} : ∀ {args : List TupleArg} {ids : List GraphId}, handles vars args = some ids → ids.length = args.length
  | [], _, h => by simp [handles] at h; subst h; rfl
  | a :: rest, _, h => by
      simp only [handles] at h
      split at h
      · next e =>
          injection h with h
          subst h
          simp [handles_length e]
      · simp at h

theorem bindAll_get : ∀ (l : List (String × GraphId)) (vars : String → Option GraphId), (l.map (·.1)).Nodup → ∀ x id, (x, id) ∈ l → bindAll l vars x = some id
  | [], _, _, _, _, h => by cases h
  | (y, j) :: l, vars, hn, x, id, h => by
      simp only [List.map_cons, List.nodup_cons] at hn
      rw [bindAll]
      rcases List.mem_cons.mp h with e | h
      · injection e with e1 e2
        subst e1; subst e2
        have : ∀ (l : List (String × GraphId)) (vars : String → Option GraphId), x ∉ l.map (·.1) → bindAll l vars x = vars x := by
          intro l
          induction l with
          | nil => intro _ _; rfl
          | cons p l ih =>
              intro vars hx
              simp only [List.map_cons, List.mem_cons, not_or] at hx
              rw [bindAll, ih _ hx.2, if_neg hx.1]
        rw [this _ _ hn.1, if_pos rfl]
      · exact bindAll_get l _ hn.2 x id h

theorem getAll_gives (tuple : List V → V) : ∀ (ids : List GraphId) (vs : List V), Gives (getAll tuple ids vs) ids fun ws => tupleOf tuple (vs ++ ws)
  | [], vs => by
      have : getAll tuple [] vs = .ret ((fun ws => tupleOf tuple (vs ++ ws)) []) := by
        dsimp only
        rw [List.append_nil]
        match vs with
        | [] => rfl
        | [v] => rfl
        | _ :: _ :: _ => rfl
      rw [this]
      exact .ret (f := fun ws => tupleOf tuple (vs ++ ws))
  | id :: ids, vs => .read fun v => by simpa using getAll_gives tuple ids (vs ++ [v])

/-- The names stand for the nodes that are bound to them. -/
theorem resolve_zip (vars : String → Option GraphId) : ∀ (names : List String) (ids : List GraphId), names.length = ids.length →
    (∀ x id, (x, id) ∈ names.zip ids → vars x = some id) → resolve vars names = some ids
  | [], [], _, _ => rfl
  | x :: names, id :: ids, hl, hv => by
      rw [resolve, hv x id (by simp), resolve_zip vars names ids (by simpa using hl) fun y j h => hv y j (by simp [h])]
  | [], _ :: _, hl, _ => by simp at hl
  | _ :: _, [], hl, _ => by simp at hl

/-! ## Theorems -/

/-- **C86.** What `computed_tuple!` gives: a closure that reads the nodes that the arguments stand for outside, in their order, and makes a tuple of the values. The names
are bound together: an argument does not see the name of another one. -/
theorem C86_tuple (tuple : List V → V) (vars : String → Option GraphId) (args : List TupleArg) :
    (∀ p, computedTuple tuple vars args = some p →
      ∃ ids, MeansAll vars args ids ∧ Gives p ids (tupleOf tuple)) ∧
    ((computedTuple tuple vars args).isSome ↔
      ((∀ a ∈ args, ∃ x, a = .plain x) ∨ (∀ a ∈ args, ∃ x e, a = .named x e)) ∧
        args.Pairwise (fun a b => ∀ x, a.Binds x → ¬ b.Binds x) ∧ ∃ ids, MeansAll vars args ids) := by
  have hm : ∀ (a : TupleArg) n, a.handle vars = some n ↔ a.Means vars n := by
    intro a n
    cases a with
    | plain x => exact ⟨.plain, fun h => by cases h; assumption⟩
    | named x e => exact ⟨.named, fun h => by cases h; assumption⟩
  have hb : ∀ (a : TupleArg) x, a.Binds x ↔ x = a.name := by
    intro a x
    cases a with
    | plain y => exact ⟨fun h => by cases h; rfl, fun h => by subst h; exact .plain⟩
    | named y e => exact ⟨fun h => by cases h; rfl, fun h => by subst h; exact .named⟩
  have hnd : (args.map (·.name)).Nodup ↔ args.Pairwise (fun a b => ∀ x, a.Binds x → ¬ b.Binds x) := by
    unfold List.Nodup
    rw [List.pairwise_map]
    simp [hb]
  have hh : ∀ (args : List TupleArg) ids, handles vars args = some ids → MeansAll vars args ids := by
    intro args
    induction args with
    | nil => intro ids h; simp [handles] at h; subst h; exact .nil
    | cons a rest ih =>
        intro ids h
        simp only [handles] at h
        split at h
        · next e1 e2 =>
            injection h with h
            subst h
            exact .cons ((hm _ _).mp e1) (ih _ e2)
        · simp at h
  have hs' : ∀ (args : List TupleArg) ids, MeansAll vars args ids → handles vars args = some ids := by
    intro args ids h
    induction h with
    | nil => rfl
    | cons h1 _ ih => rw [handles, (hm _ _).mpr h1, ih]
  have hs : (handles vars args).isSome ↔ ∃ ids, MeansAll vars args ids := by
    rw [Option.isSome_iff_exists]
    exact ⟨fun ⟨ids, h⟩ => ⟨ids, hh _ _ h⟩, fun ⟨ids, h⟩ => ⟨ids, hs' _ _ h⟩⟩
  have hg : ∀ ids, handles vars args = some ids → (args.map (·.name)).Nodup →
      resolve (bindAll ((args.map (·.name)).zip ids) vars) (args.map (·.name)) = some ids := by
    intro ids h hn
    have hl := handles_length h
    exact resolve_zip _ _ ids (by simp [hl])
      (fun x id hx => bindAll_get _ _ (by rw [List.map_fst_zip (by simp [hl])]; exact hn) x id hx)
  have hp : (args.all (·.isPlain) ∨ args.all (!·.isPlain)) ↔ ((∀ a ∈ args, ∃ x, a = .plain x) ∨ (∀ a ∈ args, ∃ x e, a = .named x e)) := by
    simp only [List.all_eq_true]
    have e1 : ∀ a : TupleArg, a.isPlain = true ↔ ∃ x, a = .plain x := by intro a; cases a <;> simp [TupleArg.isPlain]
    have e2 : ∀ a : TupleArg, (!a.isPlain) = true ↔ ∃ x e, a = .named x e := by intro a; cases a <;> simp [TupleArg.isPlain]
    simp only [e1, e2]
  constructor
  · intro p h
    unfold computedTuple at h
    split at h
    · split at h
      · next hn =>
          split at h
          · simp at h
          · next ids e =>
              rw [hg ids e hn] at h
              injection h with h
              subst h
              exact ⟨ids, hh _ _ e, by simpa using getAll_gives tuple ids []⟩
      · simp at h
    · simp at h
  · rw [← hp, ← hs, ← hnd]
    unfold computedTuple
    split
    · next hc =>
        split
        · next hn =>
            cases e : handles vars args with
            | none => simp
            | some ids =>
                simp only [hg ids e hn, Option.map_some, Option.isSome_some, true_iff]
                exact ⟨hc, hn, trivial⟩
        · next hn => simp [hn]
    · next hc => simp only [Option.isSome_none, Bool.false_eq_true, false_iff]; exact fun h => hc h.1

/-- **C86.** `map` and `to_computed` read one node and give the function of its value. -/
theorem C86_mapped (id : GraphId) (f : V → V) (w : V) :
    (Gives (mapped id f) [id] fun vs => f (vs.headD w)) ∧ Gives (toComputed id) [id] fun vs : List V => vs.headD w :=
  ⟨.read fun v => .ret (f := fun vs => f ((v :: vs).headD w)), .read fun v => .ret (f := fun vs => (v :: vs).headD w)⟩

variable [DecidableEq V]

/-- **C86, among other computeds.** The same in programs with other computeds whose conditional dependencies are private (see `Private`). -/
theorem C86_never_torn_private {lim} {a : Act V} {s : St V} (h : a.exec lim = .ok s) (hd : Private (defsOf s.log)) :
    (∀ id v clean vals defs p ids f, .read id v clean vals defs ∈ s.log → id.kind = .computed → defs id = some p → Gives p ids f →
      ∃ vs, ScratchAll vals defs ids vs ∧ v = f vs) ∧
    (∀ c v clean vals defs, .deliver c v clean vals defs ∈ s.log → ∃ t all, .subscribed c t all ∈ s.log ∧
      (t.kind = .computed → ∃ p, defs t = some p ∧ ∀ ids f, Gives p ids f → ∃ vs, ScratchAll vals defs ids vs ∧ v = f vs)) := by
  obtain ⟨h1, h2⟩ := C01_private_conditions_log_fresh h hd
  constructor
  · intro id v clean vals defs p ids f hr hk hp hg
    cases h1 _ _ _ _ _ hr with
    | value hk' => rw [hk] at hk'; cases hk'
    | computed _ hp' hden =>
        rw [hp] at hp'
        cases hp'
        exact hg.den hden
  · intro c v clean vals defs hr
    obtain ⟨t, all, hs, hv⟩ := h2 _ _ _ _ _ hr
    refine ⟨t, all, hs, fun hk => ?_⟩
    cases hv with
    | value hk' => rw [hk] at hk'; cases hk'
    | computed _ hp' hden => exact ⟨_, hp', fun ids f hg => hg.den hden⟩

/-- **C86.** Nothing derived is ever torn: in every program whose computeds are all made in this way (from nodes made before), everything that is read and everything that is given to
a subscription of a derived computed is the function of the values that its sources have at this moment, all computed from the same contents of the values. -/
theorem C86_never_torn {lim} {a : Act V} {s : St V} (h : a.exec lim = .ok s)
    (hd : ∀ id p, .defined id p ∈ s.log → ∃ ids f, Gives p ids f ∧ ∀ x ∈ ids, x.num < id.num) :
    (∀ id v clean vals defs p ids f, .read id v clean vals defs ∈ s.log → id.kind = .computed → defs id = some p → Gives p ids f →
      ∃ vs, ScratchAll vals defs ids vs ∧ v = f vs) ∧
    (∀ c v clean vals defs, .deliver c v clean vals defs ∈ s.log → ∃ t all, .subscribed c t all ∈ s.log ∧
      (t.kind = .computed → ∃ p, defs t = some p ∧ ∀ ids f, Gives p ids f → ∃ vs, ScratchAll vals defs ids vs ∧ v = f vs)) :=
  C86_never_torn_private h (derived_static hd).priv

omit [DecidableEq V] in
/-- **C86, the sources.** A handle made by `to_computed`, `map` or `computed_tuple!` of handles again reads nodes; the function of its sources is the composition. -/
theorem C86_nested {vals : GraphId → Option V} {defs : GraphId → Option (Prog V)} {id src : GraphId} {f : V → V} {v : V} (hk : id.kind = .computed)
    (hd : defs id = some (mapped src f)) (h : Scratch vals defs id v) : ∃ w, Scratch vals defs src w ∧ v = f w := by
  cases h with
  | value hk' => rw [hk] at hk'; cases hk'
  | computed _ hp hden =>
      rw [hd] at hp
      cases hp
      cases hden with
      | read h1 h2 => cases h2; exact ⟨_, h1, rfl⟩

/-! ## Examples -/

/-- Numbers from 0 to 15; the tuple of two numbers below 4 is one number. -/
def pair : List (Fin 16) → Fin 16
  | [a, b] => 4 * a + b
  | _ => 0

/-- Two values, the double of the first one, and `computed_tuple!(b => double, a => second)` as it is compiled: a subscription sees the pairs only when both values have been set. -/
def tornProgram : Act (Fin 16) :=
  .newValue 0 false fun a => .newValue 1 false fun b =>
  .newComputed (mapped a fun v => 2 * v) fun double =>
  .newComputed (getAll pair [double, b] []) fun both =>
  .subscribe both false false (fun _ => .done) fun _ =>
  .txBegin <| .write a 1 false <| .get both fun _ => .write b 3 false <| .txEnd .done

/-- `computed_tuple!(b => double, a => second)` is this closure, although the names are those of other nodes outside. -/
example : (computedTuple pair (fun x => if x = "a" then some ⟨.value, 1⟩ else if x = "b" then some ⟨.value, 2⟩ else if x = "double" then some ⟨.computed, 3⟩ else none)
    [.named "b" fun vars => vars "double", .named "a" fun vars => vars "b"]) = some (getAll pair [⟨.computed, 3⟩, ⟨.value, 2⟩] []) := by
  simp [computedTuple, handles, resolve, bindAll, TupleArg.isPlain, TupleArg.name, TupleArg.handle]

/-- The deliveries to a subscription. -/
def givenTo (c : GraphId) (log : List (Ev V)) : List V :=
  log.filterMap fun e => match e with
    | .deliver d v _ _ _ => if d = c then some v else none
    | _ => none

omit [DecidableEq V] in
/-- A closure that always reads the same nodes in the same order gives a function of their values. -/
theorem gives_of_paths (w : V) : ∀ (p : Prog V) (ids : List GraphId), (∀ l, p.Path l → l = ids) → ∃ f, Gives p ids f
  | .ret v, ids, h => by
      obtain rfl := h [] (.ret v)
      exact ⟨fun _ => v, .ret (f := fun _ => v)⟩
  | .read x k, ids, h => by
      obtain ⟨l, hl⟩ := (k w).path_exists w
      obtain rfl := h _ (.read hl)
      have : ∀ v, ∃ f, Gives (k v) l f := fun v => gives_of_paths w (k v) l fun l' h' => by
        have := h _ (.read h')
        injection this
      obtain ⟨F, hF⟩ := Classical.axiomOfChoice this
      refine ⟨fun vs => match vs with
        | [] => w
        | v :: vs => F v vs, .read fun v => hF v⟩

def derivedCheck {n : Nat} (log : List (Ev (Fin n))) : Bool :=
  log.all fun e => match e with
    | .defined id p => p.paths.all (fun l => decide (l = p.paths.headD [])) && (p.paths.headD []).all fun x => decide (x.num < id.num)
    | _ => true

theorem derived_of_check {n : Nat} {log : List (Ev (Fin (n + 1)))} (h : derivedCheck log = true) :
    ∀ id p, .defined id p ∈ log → ∃ ids f, Gives p ids f ∧ ∀ x ∈ ids, x.num < id.num := by
  intro id p hm
  have := List.all_eq_true.mp h _ hm
  simp only [Bool.and_eq_true, List.all_eq_true, decide_eq_true_eq] at this
  obtain ⟨f, hf⟩ := gives_of_paths 0 p (p.paths.headD []) fun l hl => this.1 l (Prog.path_mem hl)
  exact ⟨_, f, hf, this.2⟩

example : ∃ s, tornProgram.exec 20 = .ok s ∧
    (∀ id p, .defined id p ∈ s.log → ∃ ids f, Gives p ids f ∧ ∀ x ∈ ids, x.num < id.num) ∧ givenTo ⟨.client, 5⟩ s.log = [1, 11] := by
  exact ⟨_, final_of_isOk (by decide +kernel), derived_of_check (by decide +kernel), by decide +kernel⟩

end Verif.Reactive

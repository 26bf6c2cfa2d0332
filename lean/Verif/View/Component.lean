import Verif.View.MacroProps
/-!
# C85: #[component]

Model of `crates/vertigo-macro/src/component.rs`, and of what the compiler makes of the struct that it writes and of the code with which `dom!` uses it
(`crates/vertigo-macro/src/html_parser.rs:99-146`, in `Verif.View.Macro`).

A function with the attribute becomes a struct with one field for each parameter and a method `mount`. The compiler is modelled as far as it is needed:
which fields it can read, where a struct can be named, which struct literals it takes, and that the fields are evaluated in the order in which they are
written. Types are not checked, except that a type has to be allowed for a field (`typeOk`: not `impl Trait`, no elided lifetime). Generics and attributes are
handed on and not looked at.
-/
namespace Verif.View.Component
open Verif.View.Macro

/-! ## The function -/

/-- `syn::Visibility`. A restricted one names the module in which the function can be seen. -/
inductive Vis where
  | pub
  | restricted (path : List String)
  | inherited
  deriving DecidableEq

/-- `syn::Pat`: a name, or another pattern. -/
inductive Pat where
  | ident (byRef isMut : Bool) (name : String) (sub : Option (List Tok))
  | other (tokens : List Tok)

/-- `syn::FnArg`. -/
inductive Arg where
  | receiver (tokens : List Tok)
  | typed (attrs : List Tok) (pat : Pat) (type : List Tok)

/-- `syn::ItemFn`. The block is what it does with the variables that it sees, in a world `W`. -/
structure ItemFn (V N W : Type) where
  attrs : List Tok
  vis : Vis
  isConst : Bool
  isAsync : Bool
  isUnsafe : Bool
  abi : Option String
  name : String
  generics : List Tok
  inputs : List Arg
  output : List Tok
  block : (String → Option V) → W → N × W

/-- `ToTokens for Pat`. -/
def Pat.tokens : Pat → List Tok
  | .ident byRef isMut name sub =>
      (if byRef then [.ident "ref"] else []) ++ (if isMut then [.ident "mut"] else []) ++ [.ident name] ++
        (match sub with
        | some p => .punct '@' :: p
        | none => [])
  | .other tokens => tokens

/-- `ToTokens for FnArg`. -/
def Arg.tokens : Arg → List Tok
  | .receiver tokens => tokens
  | .typed attrs pat type => attrs ++ pat.tokens ++ [.punct ':'] ++ type

/-! ## component.rs -/

/-- The struct and the method that are written, component.rs:62-75. -/
structure Code (V N W : Type) where
  attrs : List Tok
  isPub : Bool
  name : String
  generics : List Tok
  /-- the tokens of each field -/
  fields : List (List Tok)
  /-- the names in `let name = self.name;` -/
  lets : List String
  body : (String → Option V) → W → N × W

/-- The loop component.rs:29-33: `pub` and the parameter. -/
def structFields (inputs : List Arg) : List (List Tok) := inputs.map fun field => .ident "pub" :: field.tokens

/-- The loop component.rs:37-48. -/
def paramNames : List Arg → List String
  | [] => []
  | .typed _ (.ident _ _ name _) _ :: rest => name :: paramNames rest
  | _ :: rest => paramNames rest

/-- component.rs:5-78 (`component_inner`). `none`: the error of component.rs:17-25, nothing is compiled. -/
def component (ast : ItemFn V N W) : Option (Code V N W) :=
  match ast.output with
  | _ :: _ => none
  | [] =>
      some {
        attrs := ast.attrs
        isPub := match ast.vis with
          | .pub => true
          | _ => false
        name := ast.name
        generics := ast.generics
        fields := structFields ast.inputs
        lets := paramNames ast.inputs
        body := ast.block }

/-! ## The compiler -/

/-- Words that cannot name a field. -/
def reserved : List String := ["self", "mut", "ref", "_"]

/-- A field `pub name: type`. -/
def readField (typeOk : List Tok → Bool) : List Tok → Option String
  | .ident "pub" :: .ident name :: .punct ':' :: type => if name ∈ reserved ∨ typeOk type = false then none else some name
  | _ => none

def readFields (typeOk : List Tok → Bool) : List (List Tok) → Option (List String)
  | [] => some []
  | f :: fs =>
      match readField typeOk f, readFields typeOk fs with
      | some name, some names => some (name :: names)
      | _, _ => none

/-- A struct that is compiled, with its method `mount`. -/
structure Struct (V N W : Type) where
  isPub : Bool
  home : List String
  fields : List String
  lets : List String
  body : (String → Option V) → W → N × W

/-- The fields can be read, and no two have the same name. `home` is the module in which the component is written. -/
def compile (typeOk : List Tok → Bool) (home : List String) (code : Code V N W) : Option (Struct V N W) :=
  match readFields typeOk code.fields with
  | none => none
  | some names => if names.Nodup then some ⟨code.isPub, home, names, code.lets, code.body⟩ else none

/-- The values of the fields of a struct literal, in the order in which they are written. -/
def evalAll : List (String × (W → V × W)) → W → List (String × V) × W
  | [], w => ([], w)
  | (name, e) :: es, w =>
      let r := e w
      let rest := evalAll es r.2
      ((name, r.1) :: rest.1, rest.2)

/-- `let x = self.x;`, one after another (component.rs:42-44, 70). -/
def runLets (self : List (String × V)) : List String → (String → Option V) → (String → Option V)
  | [], env => env
  | x :: xs, env => runLets self xs fun y => if y = x then self.lookup x else env y

/-- `mount`, component.rs:69-73. `into` is the conversion to a `DomNode`. -/
def Struct.mount (into : N → D) (s : Struct V N W) (self : List (String × V)) (w : W) : D × W :=
  let r := s.body (runLets self s.lets fun _ => none) w
  (into r.1, r.2)

/-- The names of the fields of a struct literal; a field is an identifier. -/
def keys : List (List Tok × P) → Option (List (String × P))
  | [] => some []
  | ([.ident key], v) :: rest => (keys rest).map fun ks => (key, v) :: ks
  | _ :: _ => none

/-- `{ let cmp = Name { fields }; cmp.mount() }` (html_parser.rs:138-145) in the module `here`. `none`: it is not compiled: the struct cannot be seen here, or the fields are not those
of the struct, each once. -/
def Struct.use (into : N → D) (s : Struct V N W) (here : List String) (fields : List (List Tok × (W → V × W))) : Option (W → D × W) :=
  match keys fields with
  | none => none
  | some ks =>
      if (s.isPub ∨ s.home <+: here) ∧ (ks.map (·.1)).Nodup ∧ (∀ k ∈ ks.map (·.1), k ∈ s.fields) ∧ (∀ k ∈ s.fields, k ∈ ks.map (·.1)) then
        some fun w => let r := evalAll ks w; s.mount into r.1 r.2
      else none

/-- Both steps: the struct for a function in the module `home`. -/
def defined (typeOk : List Tok → Bool) (home : List String) (ast : ItemFn V N W) : Option (Struct V N W) :=
  (component ast).bind (compile typeOk home)

/-! ## Specification -/

/-- A parameter that is a name with a type, and nothing else. -/
inductive Plain (typeOk : List Tok → Bool) : Arg → String → Prop
  | mk : name ∉ reserved → typeOk type = true → Plain typeOk (.typed [] (.ident false false name none) type) name

/-- The parameters are plain, and these are their names. -/
inductive Named (typeOk : List Tok → Bool) : List Arg → List String → Prop
  | nil : Named typeOk [] []
  | cons : Plain typeOk arg name → Named typeOk args names → Named typeOk (arg :: args) (name :: names)

/-- Running the expressions, first to last, each once. -/
inductive Evaluated {V W : Type} : List (String × (W → V × W)) → W → List (String × V) → W → Prop
  | nil : Evaluated [] w [] w
  | cons : e w = (v, w1) → Evaluated es w1 vs w2 → Evaluated ((name, e) :: es) w ((name, v) :: vs) w2

/-- Where the function itself could be called. -/
def Vis.reaches : Vis → (home here : List String) → Prop
  | .pub, _, _ => True
  | .restricted path, _, here => path <+: here
  | .inherited, home, here => home <+: here

/-! ## Proofs -/

theorem readFields_iff (typeOk : List Tok → Bool) : ∀ (args : List Arg) (names : List String),
    (∀ a ∈ args, ∀ t, a = .receiver t → ∀ n rest, t = .ident n :: .punct ':' :: rest → n ∈ reserved) →
    (∀ a ∈ args, ∀ attrs p t, a = .typed attrs p t → (∀ n rest, attrs ≠ .ident n :: rest) ∧ ∀ q, p = .other q → ∀ n rest, q ++ .punct ':' :: t = .ident n :: .punct ':' :: rest → n ∈ reserved) →
    (readFields typeOk (structFields args) = some names ↔ Named typeOk args names)
  | [], names, _, _ => by
      simp only [structFields, List.map_nil, readFields, Option.some.injEq]
      constructor
      · rintro rfl; exact .nil
      · intro h; cases h; rfl
  | a :: args, names, hr, ho => by
      have ih := fun names => readFields_iff typeOk args names (fun x hx => hr x (List.mem_cons_of_mem _ hx))
        (fun x hx => ho x (List.mem_cons_of_mem _ hx))
      have one : ∀ name, readField typeOk (.ident "pub" :: a.tokens) = some name ↔ Plain typeOk a name := by
        intro name
        cases a with
        | receiver t =>
            constructor
            · intro h
              exfalso
              simp only [Arg.tokens] at h
              unfold readField at h
              split at h
              · next n type e =>
                  injection e with _ e
                  rw [if_pos (.inl (hr _ (List.mem_cons_self ..) t rfl n type e))] at h
                  cases h
              · cases h
            · intro h; cases h
        | typed attrs p t =>
            obtain ⟨h1, h2⟩ := ho _ (List.mem_cons_self ..) attrs p t rfl
            constructor
            · intro h
              unfold readField at h
              split at h
              · next n type e =>
                  injection e with _ e
                  cases attrs with
                  | cons x rest =>
                      simp only [Arg.tokens, List.cons_append, List.append_assoc] at e
                      injection e with e _
                      exact absurd (by rw [e]) (h1 n rest)
                  | nil =>
                      cases p with
                      | other q =>
                          simp only [Arg.tokens, Pat.tokens, List.nil_append, List.append_assoc, List.singleton_append] at e
                          rw [if_pos (.inl (h2 q rfl n type e))] at h
                          cases h
                      | ident r m x sub =>
                          cases r <;> cases m <;> cases sub <;> simp [Arg.tokens, Pat.tokens] at e
                          obtain ⟨rfl, rfl⟩ := e
                          split at h
                          · simp at h
                          · next hc =>
                              injection h with h; subst h
                              rw [not_or] at hc
                              exact .mk hc.1 (by simpa using hc.2)
              · simp at h
            · intro h
              cases h with
              | mk a b => simp [Arg.tokens, Pat.tokens, readField, a, b]
      simp only [structFields, List.map_cons, readFields]
      rw [show List.map (fun field => Tok.ident "pub" :: field.tokens) args = structFields args from rfl]
      constructor
      · intro h
        split at h
        · next n ns e1 e2 =>
            injection h with h; subst h
            exact .cons ((one n).mp e1) ((ih ns).mp e2)
        · simp at h
      · intro h
        cases h with
        | cons h1 h2 => rw [(one _).mpr h1, (ih _).mpr h2]

theorem paramNames_named {typeOk : List Tok → Bool} {args : List Arg} {names : List String} (h : Named typeOk args names) : paramNames args = names := by
  induction h with
  | nil => rfl
  | cons h _ ih => cases h; simp [paramNames, ih]

theorem keys_idents : ∀ (ks : List (String × P)), keys (ks.map fun k => ([Tok.ident k.1], k.2)) = some ks
  | [] => rfl
  | (k, v) :: ks => by simp [keys, keys_idents ks]

theorem evalAll_spec : ∀ (es : List (String × (W → V × W))) (w : W), Evaluated es w (evalAll es w).1 (evalAll es w).2
  | [], _ => .nil
  | (_, _) :: es, _ => .cons rfl (evalAll_spec es _)

theorem Evaluated.names {es : List (String × (W → V × W))} {w w' : W} {vs : List (String × V)} (h : Evaluated es w vs w') :
    vs.map (·.1) = es.map (·.1) := by
  induction h with
  | nil => rfl
  | cons _ _ ih => simp [ih]

theorem Evaluated.unique {es : List (String × (W → V × W))} {w w1 w2 : W} {vs us : List (String × V)} (h : Evaluated es w vs w1)
    (k : Evaluated es w us w2) : vs = us ∧ w1 = w2 := by
  induction h generalizing us w2 with
  | nil => cases k; exact ⟨rfl, rfl⟩
  | cons e _ ih =>
      cases k with
      | cons e' k =>
          rw [e] at e'
          injection e' with a b
          subst a; subst b
          obtain ⟨rfl, rfl⟩ := ih k
          exact ⟨rfl, rfl⟩

theorem lookup_mem {vs : List (String × V)} (hn : (vs.map (·.1)).Nodup) {x : String} {v : V} (h : (x, v) ∈ vs) : vs.lookup x = some v := by
  induction vs with
  | nil => cases h
  | cons p vs ih =>
      obtain ⟨y, u⟩ := p
      simp only [List.map_cons, List.nodup_cons] at hn
      rcases List.mem_cons.mp h with e | h'
      · injection e with e1 e2; subst e1; subst e2; simp [List.lookup]
      · have : x ≠ y := by
          rintro rfl
          exact hn.1 (List.mem_map.mpr ⟨(x, v), h', rfl⟩)
        simp [List.lookup, beq_false_of_ne this, ih hn.2 h']

theorem runLets_get (self : List (String × V)) : ∀ (xs : List String) (env : String → Option V) (y : String),
    runLets self xs env y = if y ∈ xs then self.lookup y else env y
  | [], env, y => by simp [runLets]
  | x :: xs, env, y => by
      rw [runLets, runLets_get self xs]
      by_cases h : y ∈ xs
      · simp [h]
      · by_cases e : y = x
        · simp [e]
        · simp [h, e]

/-! ## Theorems -/

/-- What the parser gives: a receiver that looks like a parameter is `self: type`, attributes do not begin with a name, and a pattern that is one word but no name is `_`. -/
structure Parsed (args : List Arg) : Prop where
  receiver : ∀ a ∈ args, ∀ t, a = .receiver t → ∀ n rest, t = .ident n :: .punct ':' :: rest → n ∈ reserved
  typed : ∀ a ∈ args, ∀ attrs p t, a = .typed attrs p t →
    (∀ n rest, attrs ≠ .ident n :: rest) ∧ ∀ q, p = .other q → ∀ n rest, q ++ .punct ':' :: t = .ident n :: .punct ':' :: rest → n ∈ reserved

/-- **C85.** Exactly these functions become components: those without a return type, whose parameters are plain and have different names. -/
theorem C85_accepted (typeOk : List Tok → Bool) (home : List String) (ast : ItemFn V N W) (hp : Parsed ast.inputs) :
    (defined typeOk home ast).isSome ↔ ast.output = [] ∧ ∃ names, Named typeOk ast.inputs names ∧ names.Nodup := by
  unfold defined component
  cases ho : ast.output with
  | cons x xs => simp
  | nil =>
      simp only [Option.bind_some, compile, true_and]
      constructor
      · intro h
        split at h
        · simp at h
        · next names e =>
            refine ⟨names, (readFields_iff typeOk _ _ hp.receiver hp.typed).mp e, ?_⟩
            by_cases hn : names.Nodup
            · exact hn
            · simp [hn] at h
      · rintro ⟨names, h, hn⟩
        rw [(readFields_iff typeOk _ _ hp.receiver hp.typed).mpr h]
        simp [hn]

/-- The struct of a function that is accepted. -/
theorem defined_eq {typeOk : List Tok → Bool} {home : List String} {ast : ItemFn V N W} (hp : Parsed ast.inputs) {s : Struct V N W}
    (hs : defined typeOk home ast = some s) :
    ∃ names, Named typeOk ast.inputs names ∧ names.Nodup ∧ s = ⟨decide (ast.vis = .pub), home, names, names, ast.block⟩ := by
  unfold defined component at hs
  cases ho : ast.output with
  | cons x xs => rw [ho] at hs; simp at hs
  | nil =>
      rw [ho] at hs
      simp only [Option.bind_some, compile] at hs
      split at hs
      · simp at hs
      · next names e =>
          have hn := (readFields_iff typeOk _ _ hp.receiver hp.typed).mp e
          split at hs
          · next hd =>
              injection hs with hs
              refine ⟨names, hn, hd, ?_⟩
              rw [← hs, paramNames_named hn]
              congr 1
              cases ast.vis <;> rfl
          · simp at hs

/-- **C85.** A component in `dom!` is a call of the function: the properties are evaluated in the order in which they are written, each once; then the
block of the function runs once. It sees for each parameter the value of the property with this name, in whatever order they are written, and no other variable; its value, converted to
a node, is the node. -/
theorem C85_called {l : Lang} (hl : l.Ok) {env : Env S T H C F (W → V × W)} (he : env.Ok l) (typeOk : List Tok → Bool) (home here : List String)
    (ast : ItemFn V N W) (hp : Parsed ast.inputs) (s : Struct V N W) (hs : defined typeOk home ast = some s) (into : N → D)
    (path : List String) (props : List Property) (hprops : ∀ p ∈ props, p.Ok) :
    ∃ fields, convertToComponent l (some ("::".intercalate path)) (props.map Property.node) = (.component ("::".intercalate path) fields, []) ∧
      ∀ mounted, s.use into here (fields.map fun f => (f.1, f.2.value env)) = some mounted →
        ∀ w, ∃ values w1 seen, Evaluated (props.map fun p => p.value env) w values w1 ∧
          (∀ x v, (x, v) ∈ values → seen x = some v) ∧
          (∀ x, (∀ names, Named typeOk ast.inputs names → x ∉ names) → seen x = none) ∧
          (∀ names, Named typeOk ast.inputs names → ∀ x ∈ names, ∃ v, seen x = some v ∧ (x, v) ∈ values) ∧
          mounted w = (into (ast.block seen w1).1, (ast.block seen w1).2) := by
  obtain ⟨f1, f2⟩ := fields_ok hl he props hprops
  refine ⟨_, Prod.ext rfl f1, ?_⟩
  intro mounted hm w
  obtain ⟨names, hn, hd, rfl⟩ := defined_eq hp hs
  rw [f2, show (props.map fun p => ([Tok.ident (p.value env).1], (p.value env).2)) =
    (props.map fun p => p.value env).map fun k => ([Tok.ident k.1], k.2) by rw [List.map_map]; rfl] at hm
  unfold Struct.use at hm
  rw [keys_idents] at hm
  dsimp only at hm
  split at hm
  · next hc =>
      injection hm with hm
      subst hm
      obtain ⟨_, h2, h3, h4⟩ := hc
      have hev := evalAll_spec (props.map fun p => p.value env) w
      have hnames := hev.names
      refine ⟨_, _, runLets (evalAll (props.map fun p => p.value env) w).1 names fun _ => none, hev, ?_, ?_, ?_, rfl⟩
      · intro x v h
        rw [runLets_get, if_pos, lookup_mem (by rw [hnames]; exact h2) h]
        apply h3
        rw [← hnames]
        exact List.mem_map.mpr ⟨_, h, rfl⟩
      · intro x h
        rw [runLets_get, if_neg (h names hn)]
      · intro names' hn' x hx
        obtain rfl : names = names' := by rw [← paramNames_named hn, paramNames_named hn']
        have := h4 x hx
        rw [← hnames] at this
        obtain ⟨⟨y, u⟩, hu, rfl⟩ := List.mem_map.mp this
        exact ⟨u, by rw [runLets_get, if_pos hx, lookup_mem (by rw [hnames]; exact h2) hu], hu⟩
  · simp at hm

/-- **C85.** A component can be used exactly where it can be seen, and with exactly the properties that are its parameters: none is missing, none is unknown and none is given twice. -/
theorem C85_properties {l : Lang} (hl : l.Ok) {env : Env S T H C F (W → V × W)} (he : env.Ok l) (typeOk : List Tok → Bool) (home here : List String)
    (ast : ItemFn V N W) (hp : Parsed ast.inputs) (s : Struct V N W) (hs : defined typeOk home ast = some s) (into : N → D)
    (path : List String) (props : List Property) (hprops : ∀ p ∈ props, p.Ok) (names : List String) (hnames : Named typeOk ast.inputs names) :
    ∃ fields, convertToComponent l (some ("::".intercalate path)) (props.map Property.node) = (.component ("::".intercalate path) fields, []) ∧
      ((s.use into here (fields.map fun f => (f.1, f.2.value env))).isSome ↔
        (ast.vis = .pub ∨ home <+: here) ∧ (props.map fun p => (p.value env).1).Nodup ∧
          ∀ x, x ∈ (props.map fun p => (p.value env).1) ↔ x ∈ names) := by
  obtain ⟨f1, f2⟩ := fields_ok hl he props hprops
  refine ⟨_, Prod.ext rfl f1, ?_⟩
  obtain ⟨names', hn, hd, rfl⟩ := defined_eq hp hs
  obtain rfl : names' = names := by rw [← paramNames_named hn, paramNames_named hnames]
  rw [f2, show (props.map fun p => ([Tok.ident (p.value env).1], (p.value env).2)) =
    (props.map fun p => p.value env).map fun k => ([Tok.ident k.1], k.2) by rw [List.map_map]; rfl]
  unfold Struct.use
  rw [keys_idents]
  dsimp only
  rw [show (List.map (fun x => x.1) (props.map fun p => p.value env)) = props.map fun p => (p.value env).1 by rw [List.map_map]; rfl]
  split
  · next hc =>
      simp only [Option.isSome_some, true_iff]
      exact ⟨by simpa using hc.1, hc.2.1, fun x => ⟨hc.2.2.1 x, hc.2.2.2 x⟩⟩
  · next hc =>
      simp only [Option.isSome_none, Bool.false_eq_true, false_iff]
      rintro ⟨a, b, c⟩
      exact hc ⟨by simpa using a, b, fun x => (c x).mp, fun x => (c x).mpr⟩

/-- **C85.** A component that is `pub` or has no visibility can be used, with its properties, exactly where the function could be called. A restricted one can be used in fewer
places, never in more. Missing: that it can be used in all of them (`C85_restricted_violated`). -/
theorem C85_visible_partial {l : Lang} (hl : l.Ok) {env : Env S T H C F (W → V × W)} (he : env.Ok l) (typeOk : List Tok → Bool) (home here : List String)
    (ast : ItemFn V N W) (hp : Parsed ast.inputs) (s : Struct V N W) (hs : defined typeOk home ast = some s) (into : N → D)
    (path : List String) (props : List Property) (hprops : ∀ p ∈ props, p.Ok) (names : List String) (hnames : Named typeOk ast.inputs names)
    (hn : (props.map fun p => (p.value env).1).Nodup) (hx : ∀ x, x ∈ (props.map fun p => (p.value env).1) ↔ x ∈ names) :
    ∃ fields, convertToComponent l (some ("::".intercalate path)) (props.map Property.node) = (.component ("::".intercalate path) fields, []) ∧
      ((∀ path, ast.vis ≠ .restricted path) → ((s.use into here (fields.map fun f => (f.1, f.2.value env))).isSome ↔ ast.vis.reaches home here)) ∧
      ((∀ path, ast.vis = .restricted path → path <+: home) → (s.use into here (fields.map fun f => (f.1, f.2.value env))).isSome →
        ast.vis.reaches home here) := by
  obtain ⟨fields, h1, h2⟩ := C85_properties hl he typeOk home here ast hp s hs into path props hprops names hnames
  refine ⟨fields, h1, ?_, ?_⟩
  · intro h
    rw [h2]
    cases hv : ast.vis with
    | pub => simp [Vis.reaches, hn, hx]
    | restricted path => exact absurd hv (h path)
    | inherited => simp [Vis.reaches, hn, hx]
  · intro h hu
    rcases (h2.mp hu).1 with h' | h'
    · rw [h']; trivial
    · cases hv : ast.vis with
      | pub => trivial
      | restricted path => exact (h path hv).trans h'
      | inherited => exact h'

/-! ## Examples -/

/-- `pub fn Hello(name: String, who: String) { .. }` in the module `app::parts`: the block greets, and writes into the log (the world) that it ran. -/
def sampleFn (vis : Vis) : ItemFn String String (List String) where
  attrs := []
  vis := vis
  isConst := false
  isAsync := false
  isUnsafe := false
  abi := none
  name := "Hello"
  generics := []
  inputs := [.typed [] (.ident false false "name" none) [.ident "String"], .typed [] (.ident false false "who" none) [.ident "String"]]
  output := []
  block := fun seen log => ((seen "name").getD "?" ++ " greets " ++ (seen "who").getD "?", log ++ ["block"])

/-- Each expression writes itself into the log. -/
def sampleProps : Env Nat Nat String String String (List String → String × List String) where
  attr := sampleEnv.attr
  handler := flat
  css := flat
  suspense := flat
  string := flat
  embed := sampleEnv.embed
  items := sampleEnv.items
  into := fun ts log => (flat ts, log ++ [flat ts])
  clone := fun ts log => ("a clone of " ++ flat ts, log ++ [flat ts])
  default := fun log => ("", log)
  component := fun _ _ => .text ""

theorem sampleProps_ok : sampleProps.Ok sampleLang where
  attr := sampleEnv_ok.attr
  handler := flat_brace
  css := flat_brace
  suspense := flat_brace
  embed := sampleEnv_ok.embed
  into := fun e => by simp only [sampleProps, flat_brace]
  clone := fun e => by simp only [sampleProps, flat_brace]
  default := by
    intro e h
    change samplePrint e = _ at h
    rcases samplePrint_cases e with ⟨name, hn, e'⟩ | e' | ⟨-, e'⟩ | ⟨rest, -, e'⟩ | ⟨rest, -, e'⟩
    · rw [h] at e'; subst e'; exact absurd (hn ':' (by decide)) (by decide)
    all_goals rw [h] at e'; exact absurd e' (by decide)

theorem sampleFn_parsed (vis : Vis) : Parsed (sampleFn vis).inputs where
  receiver := by
    intro a ha t e
    simp only [sampleFn, List.mem_cons, List.not_mem_nil, or_false] at ha
    rcases ha with rfl | rfl <;> cases e
  typed := by
    intro a ha attrs p t e
    simp only [sampleFn, List.mem_cons, List.not_mem_nil, or_false] at ha
    rcases ha with rfl | rfl <;> cases e <;> exact ⟨by simp, by intro q hq; cases hq⟩

/-- The hypotheses are met: `<Hello who={&user} {name} />`, written in another module and with the properties in another order. The expressions run as they are written, then the block. -/
example : ∃ s, defined (fun _ => true) ["app", "parts"] (sampleFn .pub) = some s ∧ (∀ p ∈ [Property.cloned "who" [.ident "user"], .short "name"], p.Ok) ∧
    ∃ fields, convertToComponent sampleLang (some ("::".intercalate ["Hello"])) ([Property.cloned "who" [.ident "user"], .short "name"].map Property.node) =
        (.component ("::".intercalate ["Hello"]) fields, []) ∧
      ∃ mounted, s.use (fun text => "<p>" ++ text ++ "</p>") ["app", "page"] (fields.map fun f => (f.1, f.2.value sampleProps)) = some mounted ∧
        mounted [] = ("<p>name greets a clone of &user</p>", ["&user", "name", "block"]) := by
  have hprops : ∀ p ∈ [Property.cloned "who" [.ident "user"], .short "name"], p.Ok := by
    intro p hp
    simp only [List.mem_cons, List.not_mem_nil, or_false] at hp
    rcases hp with rfl | rfl
    · trivial
    · show Ident "name"
      unfold Ident
      decide
  refine ⟨_, rfl, hprops, ?_⟩
  obtain ⟨f1, f2⟩ := fields_ok sampleLang_ok sampleProps_ok _ hprops
  refine ⟨_, Prod.ext rfl f1, ?_⟩
  rw [f2]
  exact ⟨_, rfl, by decide +kernel⟩

/-- Functions that are not accepted: with a return type, with a parameter `mut`, with a pattern, with `_`, with `self`, with an attribute at a parameter. -/
example : defined (fun _ => true) [] { sampleFn .pub with output := [.punct '-', .punct '>', .ident "DomNode"] } = none ∧
    defined (fun _ => true) [] { sampleFn .pub with inputs := [.typed [] (.ident false true "name" none) [.ident "String"]] } = none ∧
    defined (fun _ => true) [] { sampleFn .pub with inputs := [.typed [] (.other [.group .parenthesis []]) [.group .parenthesis []]] } = none ∧
    defined (fun _ => true) [] { sampleFn .pub with inputs := [.typed [] (.other [.ident "_"]) [.ident "String"]] } = none ∧
    defined (fun _ => true) [] { sampleFn .pub with inputs := [.receiver [.ident "self", .punct ':', .ident "Self"]] } = none ∧
    defined (fun _ => true) [] { sampleFn .pub with inputs := [.receiver [.punct '&', .ident "self"]] } = none ∧
    defined (fun _ => true) [] { sampleFn .pub with
      inputs := [.typed [.punct '#', .group .bracket [.ident "allow"]] (.ident false false "name" none) [.ident "String"]] } = none := by
  refine ⟨rfl, ?_, ?_, ?_, ?_, ?_, ?_⟩ <;> simp [defined, component, compile, structFields, readFields, readField, reserved, Arg.tokens, Pat.tokens, sampleFn]

/-- **C85, violated.** A `pub(crate)` component cannot be used in another module of the crate, although the function could be called there: every visibility other than
`pub` is dropped (component.rs:52-61). -/
theorem C85_restricted_violated :
    ∃ s, defined (fun _ => true) ["app", "parts"] (sampleFn (.restricted ["app"])) = some s ∧
      (Vis.restricted ["app"]).reaches ["app", "parts"] ["app", "page"] ∧
      s.use id ["app", "page"] [([.ident "name"], fun w => ("a", w)), ([.ident "who"], fun w => ("b", w))] = none ∧
      (s.use id ["app", "parts"] [([.ident "name"], fun w => ("a", w)), ([.ident "who"], fun w => ("b", w))]).isSome := by
  refine ⟨_, rfl, ⟨["page"], rfl⟩, ?_, ?_⟩
  · simp [Struct.use, keys, sampleFn]
  · simp [Struct.use, keys, sampleFn]

/-- **C85, violated.** The words `const`, `async`, `unsafe` and `extern` are taken and dropped: a function with them gives the same component as without. So safe code can mount
an `unsafe` function, and an `async` one runs at once. -/
theorem C85_modifiers_violated (ast : ItemFn V N W) (c a u : Bool) (abi : Option String) (typeOk : List Tok → Bool) (home : List String) :
    defined typeOk home { ast with isConst := c, isAsync := a, isUnsafe := u, abi := abi } = defined typeOk home ast := rfl

end Verif.View.Component

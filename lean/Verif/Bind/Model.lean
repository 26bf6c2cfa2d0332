/-!
# C69: bind!, bind_spawn! and bind_rc!

Model of vertigo-macro/src/bind.rs, and of what the compiler makes of the code that the macros write. Literals and groups in brackets are one token
(`other`); the compiler is modelled as far as it is needed: `let x = path.clone();`, one after another, then a closure or a block that keeps its
surroundings.
-/
namespace Verif.Bind

inductive Tok where
  | ident (s : String)
  | punct (c : Char)
  /-- a literal or a group, as text -/
  | other (s : String)
  deriving DecidableEq

/-! ## bind.rs -/

/-- bind.rs:133-139 (`is_char`). -/
def isChar (c : Char) (t : Tok) : Bool := t = .punct c

/-- `slice::split`: one chunk more than there are separators. -/
def splitAt (c : Char) : List Tok → List (List Tok)
  | [] => [[]]
  | t :: ts =>
      if isChar c t then [] :: splitAt c ts
      else
        match splitAt c ts with
        | [] => [[t]]
        | w :: ws => (t :: w) :: ws

/-- bind.rs:173-177. -/
structure Parts where
  binds : List (List Tok)
  params : Option (List (List Tok))
  body : List Tok

/-- The loop bind.rs:214-228: from the first `|` on. -/
def fromPipe : List Tok → List Tok
  | [] => []
  | t :: ts => if isChar '|' t then t :: ts else fromPipe ts

/-- bind.rs:191-235 (`split_params_and_body_function`). -/
def splitFunction (ts : List Tok) : Except String Parts :=
  match splitAt '|' ts with
  | [a, b, _] => .ok ⟨(splitAt ',' a).filter (· ≠ []), some ((splitAt ',' b).filter (· ≠ [])), fromPipe ts⟩
  | _ => .error "Two brackets '|' were expected"

/-- bind.rs:237-249 (`split_params_and_body_block`). -/
def splitBlock (ts : List Tok) : Except String Parts :=
  let chunks := splitAt ',' ts
  .ok ⟨chunks.dropLast, none, chunks.getLast?.getD []⟩

/-- bind.rs:179-189, 251-259 (`split_params_and_body`). -/
def splitParts (ts : List Tok) : Except String Parts :=
  if ts.any (isChar '|') then splitFunction ts else splitBlock ts

/-- bind.rs:141-159 (`find_param_name`). -/
def paramName (item : List Tok) : Except String String :=
  match item.getLast? with
  | some (.ident s) => .ok s
  | some _ => .error "Can't find variable name, expected ident (1)"
  | none => .error "Can't find variable name, expected ident (2)"

/-- The code that is written, bind.rs:38-59: `{ let name = item.clone(); .. move? body }`; `is_first_pipe_char` (161-171) decides on `move`. -/
structure Code where
  lets : List (String × List Tok)
  move : Bool
  body : List Tok
  deriving DecidableEq

/-- The loop bind.rs:27-41. An error that is emitted makes the compilation fail. -/
def lets : List (List Tok) → List String → Except String (List (String × List Tok))
  | [], _ => .ok []
  | item :: items, seen =>
      match paramName item with
      | .error e => .error e
      | .ok name =>
          if name ∈ seen then .error s!"Conflicting variable name: {name}"
          else
            match lets items (name :: seen) with
            | .error e => .error e
            | .ok rest => .ok ((name, item) :: rest)

/-- bind.rs:11-62 (`bind_inner`). -/
def bind (ts : List Tok) : Except String Code :=
  match splitParts ts with
  | .error e => .error e
  | .ok p =>
      match lets p.binds [] with
      | .error e => .error e
      | .ok ls => .ok ⟨ls, p.body.head?.any (isChar '|'), p.body⟩

/-- `#(#bind_params,)*`. -/
def again : List (List Tok) → List Tok
  | [] => []
  | b :: bs => b ++ .punct ',' :: again bs

/-- bind.rs:64-89 (`bind_spawn_inner`): `bind!(.., || { get_driver().spawn(bind!(.., body)); })`. The outer code, whose body is the group (one token here), and the code
inside of this group. -/
def bindSpawn (ts : List Tok) : Except String (Code × Code) :=
  match splitParts ts with
  | .error e => .error e
  | .ok p =>
      match bind (again p.binds ++ [.punct '|', .punct '|', .other "{spawn}"]), bind (again p.binds ++ p.body) with
      | .ok outer, .ok inner => .ok (outer, inner)
      | .error e, _ => .error e
      | _, .error e => .error e

/-- bind.rs:265-278 (`get_type`). -/
def getType (ts : List Tok) : Except String (List Tok) :=
  match splitAt ':' ts with
  | [_, t] => .ok t
  | _ => .error "type must be specified for all function parameters"

/-- The loop bind.rs:113-118. -/
def getTypes : List (List Tok) → Except String (List (List Tok))
  | [] => .ok []
  | p :: ps =>
      match getType p with
      | .error e => .error e
      | .ok t =>
          match getTypes ps with
          | .error e => .error e
          | .ok ts => .ok (t :: ts)

/-- bind.rs:91-131 (`bind_rc_inner`): the types of the parameters, and the code of the closure in the `Rc`. -/
def bindRc (ts : List Tok) : Except String (List (List Tok) × Code) :=
  match splitParts ts with
  | .error e => .error e
  | .ok p =>
      match p.params with
      | none => .error "The macro can only take functions"
      | some params =>
          match getTypes params with
          | .error e => .error e
          | .ok types =>
              match bind (again p.binds ++ p.body) with
              | .error e => .error e
              | .ok code => .ok (types, code)

/-! ## The compiler -/

/-- The values of the variables that can be seen. -/
abbrev Env (V : Type) := String → Option V

/-- What the program can do with values: take a field, and clone. -/
structure Values (V : Type) where
  field : V → String → V
  clone : V → V

/-- The fields in `.a.b.c`. -/
def fieldsOf (m : Values V) (v : V) : List Tok → Option V
  | [] => some v
  | .punct '.' :: .ident f :: ts => fieldsOf m (m.field v f) ts
  | _ => none

/-- The value of a path `x.a.b`. Other expressions are not modelled (`none`). -/
def pathValue (m : Values V) (env : Env V) : List Tok → Option V
  | .ident x :: ts => (env x).bind fun v => fieldsOf m v ts
  | _ => none

/-- `let name = item.clone();`, one after another: each sees the variables before it. -/
def runLets (m : Values V) : List (String × List Tok) → Env V → Option (Env V)
  | [], env => some env
  | (name, item) :: ls, env =>
      match pathValue m env item with
      | none => none
      | some v => runLets m ls fun x => if x = name then some (m.clone v) else env x

/-! ## Specification -/

/-- What is bound: a variable, or a field of a field .. of a variable. -/
structure Capture where
  root : String
  fields : List String
  deriving DecidableEq

/-- The name under which it is known inside: that of the last field. -/
def Capture.name (c : Capture) : String := c.fields.getLast?.getD c.root

/-- How it is written. -/
def Capture.tokens (c : Capture) : List Tok := .ident c.root :: c.fields.flatMap fun f => [.punct '.', .ident f]

/-- Its value. -/
def Capture.value (m : Values V) (env : Env V) (c : Capture) : Option V := (env c.root).map fun v => c.fields.foldl m.field v

/-- The whole argument: the captures, each followed by a comma, then the closure or block. -/
def written : List Capture → List Tok → List Tok
  | [], body => body
  | c :: cs, body => c.tokens ++ [.punct ','] ++ written cs body

/-- A closure: `|params| body`. -/
def closure (params body : List Tok) : List Tok := [.punct '|'] ++ params ++ [.punct '|'] ++ body

/-- Inside, each name stands for a clone of what was captured, all other names for what they stand for outside. -/
structure Inside (m : Values V) (cs : List Capture) (env env' : Env V) : Prop where
  captured : ∀ c ∈ cs, ∃ v, c.value m env = some v ∧ env' c.name = some (m.clone v)
  other : ∀ x, (∀ c ∈ cs, c.name ≠ x) → env' x = env x

/-- None of the captures begins with a name that one before it gives. -/
def Apart : List Capture → Prop
  | [] => True
  | c :: cs => (∀ d ∈ cs, d.root ≠ c.name) ∧ Apart cs

end Verif.Bind

/-!
# Model of the dependency graph

Sources (below `crates/vertigo/src/computed/`): `graph_id.rs`,
`dependencies/graph_one_to_many.rs`, `dependencies/graph_connections.rs`.
-/
namespace Verif.Reactive

/-- graph_id.rs:3-8; the derived `Ord` is the order of declaration. -/
inductive Kind where
  | value
  | computed
  | client
  deriving Repr, DecidableEq

def Kind.rank : Kind → Nat
  | .value => 0
  | .computed => 1
  | .client => 2

/-- graph_id.rs:10-11. -/
structure GraphId where
  kind : Kind
  num : Nat
  deriving Repr, DecidableEq

/-- The derived `Ord` of `GraphId`: kind first, then the number. -/
def GraphId.lt (a b : GraphId) : Prop :=
  a.kind.rank < b.kind.rank ∨ (a.kind.rank = b.kind.rank ∧ a.num < b.num)

instance : DecidableRel GraphId.lt := fun a b => by unfold GraphId.lt; infer_instance

/-! ## `BTreeSet<GraphId>` as an ascending list -/

/-- `BTreeSet::insert`. -/
def sIns (x : GraphId) : List GraphId → List GraphId
  | [] => [x]
  | y :: l => if x = y then y :: l else if x.lt y then x :: y :: l else y :: sIns x l

/-- `BTreeSet::remove`. -/
def sDel (x : GraphId) (l : List GraphId) : List GraphId := l.filter (fun y => y ≠ x)

/-- `iter.collect::<BTreeSet<_>>()` (context.rs:20-23, graph_connections.rs:76-79). -/
def sOfList (l : List GraphId) : List GraphId := l.foldl (fun s x => sIns x s) []

/-- `BTreeSet::extend` (transaction_state.rs:104). -/
def sExtend (s l : List GraphId) : List GraphId := l.foldl (fun s x => sIns x s) s

/-- `a.difference(&b)`: in the order of `a`. -/
def sDiff (a b : List GraphId) : List GraphId := a.filter (fun x => x ∉ b)

/-! ## `GraphOneToMany` (graph_one_to_many.rs:37-81)

A `BTreeMap<GraphId, BTreeSet<GraphId>>`.  The model keeps the entries in an
association list in insertion order: the code never iterates over the map. -/

abbrev Rel := List (GraphId × List GraphId)

/-- graph_one_to_many.rs:66-69 (`get_relation`); a missing entry gives an empty
iterator. -/
def Rel.get : Rel → GraphId → List GraphId
  | [], _ => []
  | (k, s) :: m, x => if k = x then s else Rel.get m x

/-- graph_one_to_many.rs:48-50 (`entry(left).or_default().insert(right)`). -/
def Rel.add : Rel → GraphId → GraphId → Rel
  | [], x, y => [(x, sIns y [])]
  | (k, s) :: m, x, y => if k = x then (k, sIns y s) :: m else (k, s) :: Rel.add m x y

/-- graph_one_to_many.rs:52-64 (`remove`): the entry goes when its set becomes
empty. -/
def Rel.remove : Rel → GraphId → GraphId → Rel
  | [], _, _ => []
  | (k, s) :: m, x, y =>
      if k = x then
        if (sDel y s).isEmpty then m else (k, sDel y s) :: m
      else (k, s) :: Rel.remove m x y

/-- Number of stored pairs. -/
def Rel.size : Rel → Nat
  | [] => 0
  | (_, s) :: m => s.length + Rel.size m

/-! ## `GraphConnections` (graph_connections.rs) -/

/-- graph_connections.rs:5-8. -/
inductive Cmd where
  | add (parent client : GraphId)
  | remove (parent client : GraphId)
  deriving Repr, DecidableEq

/-- graph_connections.rs:11-16. -/
def Cmd.parent : Cmd → GraphId
  | .add p _ => p
  | .remove p _ => p

/-- graph_connections.rs:19-22. -/
structure Conn where
  pc : Rel
  cp : Rel
  deriving Repr, DecidableEq

def Conn.empty : Conn := ⟨[], []⟩

/-- graph_connections.rs:32-58 (`exec_command`). -/
def Conn.exec (g : Conn) : Cmd → Conn × List Cmd
  | .add p c => (⟨g.pc.add p c, g.cp.add c p⟩, [])
  | .remove p c =>
      let g : Conn := ⟨g.pc.remove p c, g.cp.remove c p⟩
      if (g.pc.get p).isEmpty then
        (g, (g.cp.get p).map fun n => .remove n p)
      else (g, [])

/-- graph_connections.rs:60-68 (`exec_command_list`). -/
def Conn.execList (g : Conn) : List Cmd → Conn × List Cmd
  | [] => (g, [])
  | c :: cs =>
      let (g1, new1) := g.exec c
      let (g2, new2) := g1.execList cs
      (g2, new1 ++ new2)

/-- graph_connections.rs:71-99 (`get_update_commands`). -/
def Conn.updateCommands (g : Conn) (client : GraphId) (newParents : List GraphId) : List Cmd :=
  let prev := sOfList (g.cp.get client)
  ((sDiff newParents prev).map fun p => .add p client) ++
    ((sDiff prev newParents).map fun p => .remove p client)

/-- The loop graph_connections.rs:125-135.  `fuel` bounds the number of rounds of
the model; `loopFuel` is proved to be enough. -/
def Conn.loop (g : Conn) : Nat → List GraphId → List Cmd → Option (Conn × List GraphId)
  | 0, _, _ => none
  | fuel + 1, nodes, cmds =>
      let nodes := sExtend nodes (cmds.map Cmd.parent)
      let (g, cmds) := g.execList cmds
      if cmds.isEmpty then some (g, nodes) else g.loop fuel nodes cmds

/-- A number of rounds that is always enough (`Conn.setParents_some`). -/
def Conn.loopFuel (g : Conn) (newParents : List GraphId) : Nat :=
  2 * (g.cp.size + newParents.length) + 4

/-- graph_connections.rs:101-113 (`get_info_about_active`), in id order. -/
def Conn.activeInfo (g : Conn) (nodes : List GraphId) : List (GraphId × Bool) :=
  nodes.map fun x => (x, !(g.pc.get x).isEmpty)

/-- graph_connections.rs:115-136 (`set_parent_for_client`). `none` would mean that
the model ran out of rounds. -/
def Conn.setParents (g : Conn) (client : GraphId) (newParents : List GraphId) :
    Option (Conn × List (GraphId × Bool)) :=
  match g.loop (g.loopFuel newParents) [client] (g.updateCommands client newParents) with
  | none => none
  | some (g, nodes) => some (g, g.activeInfo nodes)

/-- The inner `for` of graph_connections.rs:147-152. -/
def depsStep : List GraphId → List GraphId → List GraphId → List GraphId × List GraphId
  | [], result, stack => (result, stack)
  | x :: xs, result, stack =>
      if x ∈ result then depsStep xs result stack
      else depsStep xs (sIns x result) (x :: stack)

/-- The loop graph_connections.rs:142-153; the head of `stack` is the end of the
Rust vector. -/
def Conn.depsLoop (g : Conn) : Nat → List GraphId → List GraphId → Option (List GraphId)
  | 0, _, _ => none
  | _ + 1, result, [] => some result
  | fuel + 1, result, next :: stack =>
      let (result, stack) := depsStep (g.pc.get next) result stack
      g.depsLoop fuel result stack

/-- graph_connections.rs:138-154 (`get_all_deps`). -/
def Conn.allDeps (g : Conn) (id : GraphId) : Option (List GraphId) :=
  g.depsLoop (g.pc.size + 2) [] [id]

end Verif.Reactive

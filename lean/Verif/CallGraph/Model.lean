/-!
# Graphs of calls

Models `src/hstd/ext/log_graph_tracker.cpp`: the processor which makes a graph
of the calls of functions and scopes.
-/

namespace Verif.CallGraph

/-- `node_info`: whether it is a scope or a cluster, and the nodes in the
cluster. -/
structure Node where
  isScope : Bool
  isCluster : Bool
  subnodes : List String
deriving DecidableEq

/-- `call_info`: the description of a jump and the number of calls. -/
structure Edge where
  desc : String
  count : Nat
deriving DecidableEq

/-- `graphviz_processor`.  Edges are found by the two names: in the program by
the text `from -> to`, which is the same unless a name has ` -> ` in it.  The top
of the stack is first.  `failed` is set when `nodes.at` throws. -/
structure State where
  nodes : String → Option Node
  edges : String → String → Option Edge
  stack : List String
  pending : String
  failed : Bool

/-- `track_started` (`log_graph_tracker.cpp:130-135`). -/
def State.init : State := ⟨fun _ => none, fun _ _ => none, [], "", false⟩

/-- `nodes.insert_or_assign`. -/
def setNode (f : String → Option Node) (n : String) (v : Node) : String → Option Node :=
  fun m => if m = n then some v else f m

/-- `add_edge` (`log_graph_tracker.cpp:206-220`). -/
def addEdge (s : State) (a b : String) : State :=
  let e : Edge := match s.edges a b with
    | some e => if e.desc = s.pending then { e with count := e.count + 1 } else ⟨s.pending, 1⟩
    | none => ⟨s.pending, 1⟩
  { s with
    edges := fun x y => if x = a ∧ y = b then some e else s.edges x y
    pending := "" }

/-- `nodes.at(parent)`: the node is in the cluster of its parent
(`log_graph_tracker.cpp:99-100`). -/
def addSub (s : State) (p n : String) : State :=
  match s.nodes p with
  | some i =>
    { s with nodes := setNode s.nodes p ⟨i.isScope, true, i.subnodes ++ [n]⟩ }
  | none => { s with failed := true }

/-- `track_function_start` (`log_graph_tracker.cpp:93-104`); `get_parent`
(`:197-204`) is what was on top of the stack before. -/
def startFn (s : State) (n : String) : State :=
  let t := match s.stack with
    | p :: _ => if p ≠ n then addSub (addEdge s p n) p n else s
    | [] => s
  { t with stack := n :: s.stack, nodes := setNode t.nodes n ⟨false, false, []⟩ }

/-- `track_scope_enter` (`log_graph_tracker.cpp:112-124`). -/
def enterScope (s : State) (n : String) : State :=
  let t := match s.stack with
    | p :: _ => addEdge s p n
    | [] => s
  { t with stack := n :: s.stack, nodes := setNode t.nodes n ⟨true, false, []⟩ }

/-- `track_function_end`, `track_scope_exit` (`log_graph_tracker.cpp:106-109`,
`126-128`). -/
def leave (s : State) : State := { s with stack := s.stack.drop 1 }

/-- A program which is traced: calls of functions and scopes with what is in
them, jumps, and what follows.  Functions and scopes are left by `finally_std`
(`log_graph_tracker.cpp:79-89`), so one which throws is a program with less after
it. -/
inductive Prog where
  | done
  | fn (name : String) (inner rest : Prog)
  | scope (name : String) (inner rest : Prog)
  | jump (desc : String) (rest : Prog)

/-- The events of a program.  `track_named_jump` is
`log_graph_tracker.cpp:137-139`. -/
def run : State → Prog → State
  | s, .done => s
  | s, .fn n inner rest => run (leave (run (startFn s n) inner)) rest
  | s, .scope n inner rest => run (leave (run (enterScope s n) inner)) rest
  | s, .jump d rest => run { s with pending := d } rest

end Verif.CallGraph

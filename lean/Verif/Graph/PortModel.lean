import Verif.Graph.EdgeModel

/-! # Ports – graph_port.hpp, graph_port.cpp -/

namespace Verif.Graph

abbrev Pt := Nat

inductive PErr
  /-- `port_structure_error` -/
  | structure
  deriving DecidableEq, Repr

/-- `TrivialPortCollection` – graph_port.hpp:35-103, 197-222: the two containers with their entries
in the order of insertion (which is the order within the range of one key), and the number of
stored port objects, from which new ids are made – graph_common.hpp:81-93. -/
structure Ports where
  ports : List (V × Pt)
  conns : List (Pt × E × Bool)
  stored : Nat

def Ports.empty : Ports := ⟨[], [], 0⟩

/-- `getVertexForPort` through `getPortIterator` – graph_port.hpp:162, graph_port.cpp:60-71. -/
def Ports.vertexOf (p : Ports) (i : Pt) : Except PErr V :=
  match p.ports.find? (fun x => decide (x.2 = i)) with
  | none => .error .structure
  | some x => .ok x.1

/-- `IPortCollection::addPort` – graph_port.cpp:73-81. -/
def Ports.register (p : Ports) (v : V) (i : Pt) : Except PErr Ports :=
  match p.vertexOf i with
  | .ok _ => .error .structure
  | .error _ => .ok { p with ports := p.ports ++ [(v, i)] }

/-- `IPortCollection::connectPort` – graph_port.cpp:92-118. -/
def Ports.connect (p : Ports) (v : V) (e : E) (start : Bool) (i : Pt) : Except PErr Ports :=
  match p.vertexOf i with
  | .error er => .error er
  | .ok v' =>
    if v' ≠ v then .error .structure
    else if (i, e, start) ∈ p.conns then .error .structure
    else .ok { p with conns := p.conns ++ [(i, e, start)] }

/-- `TrivialPortCollection::addPort(vertex)` – graph_port.cpp:194-203. -/
def Ports.add (p : Ports) (v : V) : Ports × Except PErr Pt :=
  let p1 := { p with stored := p.stored + 1 }
  match p1.register v p.stored with
  | .error er => (p1, .error er)
  | .ok p2 => (p2, .ok p.stored)

/-- `TrivialPortCollection::addPort(vertex, edge, is_start)` – graph_port.cpp:181-192, 83-90. -/
def Ports.addFor (p : Ports) (v : V) (e : E) (start : Bool) : Ports × Except PErr Pt :=
  match p.add v with
  | (p1, .error er) => (p1, .error er)
  | (p1, .ok i) =>
    match p1.connect v e start i with
    | .error er => (p1, .error er)
    | .ok p2 => (p2, .ok i)

/-- `addEdgeToPort(pid, edge, is_start)` – graph_port.hpp:142-145. -/
def Ports.addEdge (p : Ports) (i : Pt) (e : E) (start : Bool) : Except PErr Ports :=
  match p.vertexOf i with
  | .error er => .error er
  | .ok v => p.connect v e start i

/-- `delPort` – graph_port.hpp:190-194. -/
def Ports.delete (p : Ports) (i : Pt) : Except PErr Ports :=
  match p.vertexOf i with
  | .error er => .error er
  | .ok _ => .ok { p with
      conns := p.conns.filter (fun c => decide (c.1 ≠ i))
      ports := p.ports.filter (fun x => decide (x.2 ≠ i)) }

/-- The loop of `getPortForConnection` – graph_port.cpp:3-20 and `hasPortConnection` –
graph_port.cpp:152-163: `none` when it runs to the end. -/
def Ports.search (p : Ports) (v : V) (start : Bool) : List (Pt × E × Bool) → Except PErr (Option Pt)
  | [] => .ok none
  | c :: cs =>
    if c.2.2 ≠ start then Ports.search p v start cs
    else
      match p.vertexOf c.1 with
      | .error er => .error er
      | .ok v' => if v' = v then .ok (some c.1) else Ports.search p v start cs

/-- The range of one edge in the second container. -/
def Ports.ofEdge (p : Ports) (e : E) : List (Pt × E × Bool) := p.conns.filter (fun c => decide (c.2.1 = e))

/-- The range of one port in the second container. -/
def Ports.ofPort (p : Ports) (i : Pt) : List (Pt × E × Bool) := p.conns.filter (fun c => decide (c.1 = i))

/-- `getPortForConnection` – graph_port.cpp:3-20. -/
def Ports.forConnection (p : Ports) (v : V) (e : E) (start : Bool) : Except PErr Pt :=
  match p.search v start (p.ofEdge e) with
  | .error er => .error er
  | .ok none => .error .structure
  | .ok (some i) => .ok i

/-- `hasPortConnection` – graph_port.cpp:152-163. -/
def Ports.hasConnection (p : Ports) (v : V) (e : E) (start : Bool) : Except PErr Bool :=
  match p.search v start (p.ofEdge e) with
  | .error er => .error er
  | .ok r => .ok r.isSome

/-- `getPortsForEdge` – graph_port.cpp:22-39; `none` for the nil id. -/
def Ports.forEdge (p : Ports) (e : E) : Option Pt × Option Pt :=
  (p.ofEdge e).foldl (fun r c => if c.2.2 then (some c.1, r.2) else (r.1, some c.1)) (none, none)

/-- `getPortsForVertex` – graph_port.cpp:41-48. -/
def Ports.forVertex (p : Ports) (v : V) : List Pt := (p.ports.filter (fun x => decide (x.1 = v))).map (·.2)

/-- `getEdgeForPort` – graph_port.cpp:50-58. -/
def Ports.edgesFor (p : Ports) (i : Pt) : Except PErr (List E) :=
  match p.vertexOf i with
  | .error er => .error er
  | .ok _ => .ok ((p.ofPort i).map (·.2.1))

/-- `isSourcePort` – graph_port.cpp:132-150. -/
def Ports.isSource (p : Ports) (i : Pt) : Except PErr Bool :=
  match p.vertexOf i with
  | .error er => .error er
  | .ok _ =>
    match p.ofPort i with
    | [] => .error .structure
    | c :: cs => if cs.all (fun d => d.2.2 == c.2.2) then .ok c.2.2 else .error .structure

end Verif.Graph

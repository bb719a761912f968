import Verif.Graph.HierModel

/-! # Graphs – graph_base.hpp, graph_base.cpp -/

namespace Verif.Graph

/-- `IGraph` – graph_base.hpp:66-77, without ports and attribute trackers; collections and
hierarchies in the order in which the maps are walked. -/
structure Graph where
  verts : List V
  stable : AMap Stable V
  colls : List Coll
  hiers : List Hier

inductive GErr
  /-- `graph_error` -/
  | graph
  /-- `insert_unqiue` – Map.hpp:24-31 -/
  | key
  | coll (e : Err)
  | hier (e : HErr)
  deriving DecidableEq, Repr

/-- `IGraph::trackVertex` – graph_base.cpp:201-209.  `name` gives the stable ids of the vertex
objects; the vertex stays when its stable id is taken. -/
def Graph.track (name : V → Stable) (g : Graph) (v : V) : Graph × Option GErr :=
  if v ∈ g.verts then (g, some .graph)
  else
    let g1 := { g with verts := incl g.verts v }
    if (get g.stable (name v)).isSome then (g1, some .key)
    else ({ g1 with stable := set g1.stable (name v) v }, none)

/-- A loop that changes objects one after another until one call throws. -/
def until' {α ε : Type} (f : α → Except ε α) : List α → List α × Option ε
  | [] => ([], none)
  | x :: xs =>
    match f x with
    | .error e => (x :: xs, some e)
    | .ok y => ((y :: (until' f xs).1), (until' f xs).2)

/-- The orders in which the sets of the removals are walked. -/
structure Walk where
  hier : Hier → V → List V
  coll : Coll → V → List E
  fuel : Nat

/-- `hierarchy->untrackVertex(id)`. -/
def dropH (w : Walk) (v : V) (h : Hier) : Except HErr Hier :=
  match h.untrack w.fuel v (w.hier h v) with
  | .error e => .error e
  | .ok r => .ok r.1

/-- `collection->untrackVertex(id)`. -/
def dropC (w : Walk) (v : V) (c : Coll) : Except Err Coll := untrackVertex c v (w.coll c v)

/-- A loop over the hierarchies of a graph. -/
def Graph.dropHiers (w : Walk) (v : V) (g : Graph) : Graph × Option GErr :=
  ({ g with hiers := (until' (dropH w v) g.hiers).1 }, (until' (dropH w v) g.hiers).2.map .hier)

/-- A loop over the collections of a graph. -/
def Graph.dropColls (w : Walk) (v : V) (g : Graph) : Graph × Option GErr :=
  ({ g with colls := (until' (dropC w v) g.colls).1 }, (until' (dropC w v) g.colls).2.map .coll)

/-- The second statement runs only if the first did not throw. -/
def andThen (r : Graph × Option GErr) (f : Graph → Graph × Option GErr) : Graph × Option GErr :=
  match r.2 with
  | some e => (r.1, some e)
  | none => f r.1

/-- `IGraph::untrackVertex` – graph_base.cpp:211-234; the providers are the collections followed by
the hierarchies – graph_base.cpp:105-112. -/
def Graph.untrack (w : Walk) (g : Graph) (v : V) : Graph × Option GErr :=
  if v ∉ g.verts then (g, some .graph)
  else
    andThen (g.dropHiers w v) fun g =>
    andThen (g.dropColls w v) fun g =>
    andThen (g.dropColls w v) fun g =>
    andThen (g.dropHiers w v) fun g =>
    ({ g with verts := excl g.verts v }, none)

/-- `IGraph::getVertexIDByStableId` – graph_base.cpp:122-130; `none` when it throws. -/
def Graph.byStable (g : Graph) (n : Stable) : Option V := if n = [] then none else get g.stable n

/-- `IGraph::isTrackingVertex` – graph_base.hpp:197. -/
def Graph.isTracking (g : Graph) (v : V) : Bool := decide (v ∈ g.verts)

end Verif.Graph

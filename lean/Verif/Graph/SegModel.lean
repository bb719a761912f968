import Verif.Graph.HierModel
import Verif.Graph.PortModel
import Mathlib.Data.List.Sort

/-! # Segmented edges – `AutoSegmentingCollection`, graph_hierarchy.hpp:255-280, graph_hierarchy.cpp:448-497 -/

namespace Verif.Graph

inductive SErr
  /-- from `getHierarchyCrossings` -/
  | hier (e : HErr)
  /-- from the collection of segments -/
  | edge (e : Err)
  /-- from the collection of ports -/
  | port (e : PErr)
  /-- `add_unique` of a bimap – bimap_wrap.hpp:102-107 -/
  | runtime
  /-- `LOGIC_ASSERTION_CHECK` -/
  | assertion

/-- `AutoSegmentingCollection` – graph_hierarchy.hpp:255-264, with the two collections it fills.
Simplified: these two are used by it alone; `segments_to_edges` and `segments_to_ports` are maps
from the left side. -/
structure Seg where
  edges : Coll
  ports : Ports
  owner : AMap E E
  index : AMap E Nat
  links : AMap (E × E) Pt

def Seg.empty : Seg := ⟨.empty, .empty, [], [], []⟩

/-- `segments_to_edges.get_left(edge)` – bimap_wrap.hpp; in one order. -/
def Seg.left (g : Seg) (o : E) : List E := (g.owner.filter (fun x => decide (x.2 = o))).map (·.1)

/-- `getSegments` – graph_hierarchy.cpp:448-455.  `ord` is the order in which the bimap lists its
entries.  Simplified: an index that is missing counts as 0 (the code would throw; every segment has
one, `split_ok`). -/
def Seg.segments (ord : List E → List E) (g : Seg) (o : E) : List E :=
  (ord (g.left o)).insertionSort (fun a b => (get g.index a).getD 0 ≤ (get g.index b).getD 0)

/-- `getOriginalEdge` – graph_hierarchy.hpp:280-282. -/
def Seg.original (g : Seg) (e : E) : Option E := get g.owner e

/-- The first loop of `addEdge` – graph_hierarchy.cpp:464-469, over the windows of the path.
`name a b` is the default stable id `"{}-{}"` – graph_edge.hpp:265. -/
def Seg.split (name : V → V → Stable) (o : E) : Nat → Seg → List V → Seg × Option SErr
  | idx, g, a :: b :: vs =>
    match Graph.addEdge g.edges a b (name a b) with
    | (c, .error er) => ({ g with edges := c }, some (.edge er))
    | (c, .ok e) =>
      match get g.owner e with
      | some _ => ({ g with edges := c }, some .runtime)
      | none => Seg.split name o (idx + 1) { g with edges := c, owner := set g.owner e o, index := set g.index e idx } (b :: vs)
  | _, g, _ => (g, none)

/-- The second loop of `addEdge` – graph_hierarchy.cpp:471-486, over the windows of the segments. -/
def Seg.join : Seg → List E → Seg × Option SErr
  | g, e1 :: e2 :: es =>
    match getEnds g.edges e1 with
    | .error er => (g, some (.edge er))
    | .ok x =>
      match getEnds g.edges e2 with
      | .error er => (g, some (.edge er))
      | .ok y =>
        if x.2 ≠ y.1 then (g, some .assertion)
        else
          match g.ports.add x.2 with
          | (p, .error er) => ({ g with ports := p }, some (.port er))
          | (p, .ok i) =>
            match p.addEdge i e1 true with
            | .error er => ({ g with ports := p }, some (.port er))
            | .ok p1 =>
              match p1.addEdge i e2 false with
              | .error er => ({ g with ports := p1 }, some (.port er))
              | .ok p2 =>
                match get g.links (e1, e2) with
                | some _ => ({ g with ports := p2 }, some .runtime)
                | none => Seg.join { g with ports := p2, links := set g.links (e1, e2) i } (e2 :: es)
  | g, _ => (g, none)

/-- `addEdge` – graph_hierarchy.cpp:457-487 for an edge `o` from `s` to `t`; the state is also
given when it throws. -/
def Seg.addEdge (name : V → V → Stable) (ord : List E → List E) (h : Hier) (fuel : Nat) (g : Seg) (o : E) (s t : V) : Seg × Option SErr :=
  match h.crossings fuel s t with
  | .error er => (g, some (.hier er))
  | .ok cr =>
    match Seg.split name o 0 g (s :: cr ++ [t]) with
    | (g1, some er) => (g1, some er)
    | (g1, none) => Seg.join g1 (g1.segments ord o)

/-- The neighbours in a list: `rv::sliding(2)`. -/
def windows {α : Type} (l : List α) : List (α × α) := l.zip l.tail

/-- `getSegmentationPorts` – graph_hierarchy.cpp:489-497; `none` where `at_right` throws. -/
def Seg.segPorts (ord : List E → List E) (g : Seg) (o : E) : List (Option Pt) :=
  (windows (g.segments ord o)).map (get g.links)

end Verif.Graph

import Verif.Graph.HierModel
import Verif.Graph.PortModel
import Mathlib.Data.List.Dedup

/-!
# Graphs in protobuf messages – graph_base.cpp, graph_vertex.cpp, graph_edge.cpp, graph_hierarchy.cpp

Simplifications, for the whole file:
* A message is its fields; protobuf's own encoding is left out.  A map of a message is the list of its entries: the
  keys are the stable ids of different vertices, which are different.
* The vertices, edges and hierarchies are those of `TrivialGraphBase`, `TrivialEdgeCollection` and
  `TrivialHierarchy`.  An attribute is a value that is written and read as it is.
* The factory makes empty collections and hierarchies and vertices and edges with the stable ids of the message; the
  ids of the new edge collections are given.
-/

namespace Verif.Graph

variable {A : Type}

/-- `IVertex` – graph_base.proto:14-19, and a vertex object – graph_vertex.hpp:29-54. -/
structure SVert (A : Type) where
  name : Stable
  attrs : List A
deriving DecidableEq, Repr

/-- `IEdge` – graph_base.proto:22-29. -/
structure SEdge (A : Type) where
  name : Stable
  source : Stable
  target : Stable
  attrs : List A
deriving DecidableEq, Repr

/-- `IVertexHierarchy` – graph_base.proto:49-58; the edges of the message are neither written nor read. -/
structure SHier where
  roots : List Stable
  parents : AMap Stable Stable
  vertexSet : List Stable
  nested : AMap Stable (List Stable)
deriving DecidableEq, Repr

/-- `IGraphProto` – graph_base.proto:76-82. -/
structure Doc (A : Type) where
  colls : List (List (SEdge A))
  hiers : List SHier
  verts : List (SVert A)
  ports : List Ports

/-- `TrivialEdgeCollection` – graph_edge.hpp:249-295: its id, the edges, and the attributes of the edge objects. -/
structure EColl (A : Type) where
  id : Nat
  coll : Coll
  attrs : AMap E (List A)

/-- `TrivialGraphBase` – graph_base.hpp:66-77, 432-455: `vertexIDs`, `vertexStore`, `stableIdMap`, and the
collections. -/
structure Net (A : Type) where
  verts : List V
  objs : AMap V (SVert A)
  stable : AMap Stable V
  colls : List (EColl A)
  hiers : List Hier
  ports : List Ports

/-- `EdgeID::FromMaskedIdx` – graph_common.hpp:81-86, 202: the id of the collection is in the upper 16 of 64 bits. -/
def masked (mask i : Nat) : E := mask * 2 ^ 48 + i

/-- `getMask` – `edgeCategoryFromEdge`, graph_edge.cpp:176-178. -/
def maskOf (e : E) : Nat := e / 2 ^ 48

/-- A loop that stops at the first error. -/
def each {α β : Type} (f : α → Except Err β) : List α → Except Err (List β)
  | [] => .ok []
  | x :: xs => (f x).bind fun y => (each f xs).bind fun ys => .ok (y :: ys)

/-- `getEdgeCollection` – graph_base.hpp:269-271, with `getCollectionID` – graph_base.cpp:472-484: the collection is
found by the mask of the edge. -/
def Net.collOf (g : Net A) (e : E) : Except Err (EColl A) :=
  match g.colls.find? (fun c => decide (c.id = maskOf e)) with
  | none => .error .assertion
  | some c => .ok c

/-- `IGraph::getSource`, `IGraph::getTarget` – graph_base.cpp:265-271. -/
def Net.ends (g : Net A) (e : E) : Except Err (V × V) := (g.collOf e).bind fun c => getEnds c.coll e

/-- `IGraph::getStableId` – graph_base.hpp:423-425. -/
def Net.nameOf (g : Net A) (v : V) : Except Err Stable :=
  match get g.objs v with
  | none => .error .assertion
  | some o => .ok o.name

/-- `getVertexIDByStableId` – graph_base.cpp:122-130. -/
def Net.lookup (g : Net A) (n : Stable) : Except Err V :=
  if n = [] then .error .assertion
  else
    match get g.stable n with
    | none => .error .graph
    | some v => .ok v

/-- `addVertex` – graph_base.cpp:497-501, with `trackVertex` – 201-209. -/
def Net.addVertex (g : Net A) (o : SVert A) : Except Err (Net A) :=
  if (get g.objs g.objs.length).isSome then .error .assertion
  else if g.objs.length ∈ g.verts then .error .graph
  else if (get g.stable o.name).isSome then .error .key
  else .ok { g with
    verts := incl g.verts g.objs.length
    objs := set g.objs g.objs.length o
    stable := set g.stable o.name g.objs.length }

/-- `TrivialEdgeCollection::addEdge` – graph_edge.hpp:257-266: the id of the collection goes into the id of the edge. -/
def EColl.addEdge (c : EColl A) (s t : V) (n : Stable) (attrs : List A) : Except Err (EColl A) :=
  let e := masked c.id c.coll.store.length
  (storeEdge c.coll e n).bind fun c1 => (trackEdge c1 e s t).bind fun c2 =>
    .ok { c with coll := c2, attrs := set c.attrs e attrs }

/-! ## Writing -/

/-- `IEdge::writeSerial` – graph_edge.cpp:195-202: the attributes are not written. -/
def writeEdge (g : Net A) (c : EColl A) (e : E) : Except Err (SEdge A) :=
  match get c.coll.store e with
  | none => .error .assertion
  | some n => (g.ends e).bind fun x => (g.nameOf x.1).bind fun s => (g.nameOf x.2).bind fun t => .ok ⟨n, s, t, []⟩

/-- `IEdgeCollection::writeSerial` – graph_edge.cpp:84-92; `getEdges` gives a set. -/
def writeColl (g : Net A) (c : EColl A) : Except Err (List (SEdge A)) := each (writeEdge g c) (getEdges c.coll).dedup

/-- `IVertexHierarchy::writeSerial` – graph_hierarchy.cpp:234-253. -/
def writeHier (g : Net A) (h : Hier) : Except Err SHier :=
  (each g.nameOf h.roots.dedup).bind fun roots =>
  (each (fun x : V × V => (g.nameOf x.1).bind fun a => (g.nameOf x.2).bind fun b => .ok (a, b)) (entries h.parent).dedup).bind fun parents =>
  (each (fun x : V × List V => (g.nameOf x.1).bind fun a => (each g.nameOf x.2.dedup).bind fun b => .ok (a, b)) (entries h.nested).dedup).bind fun nested =>
  .ok ⟨roots, parents, [], nested⟩

/-- `IVertex::writeSerial` – graph_vertex.cpp:4-10. -/
def writeVert (g : Net A) (v : V) : Except Err (SVert A) :=
  match get g.objs v with
  | none => .error .assertion
  | some o => .ok o

/-- The order in which the vertices are written – graph_base.cpp:320-321. -/
def Net.order (g : Net A) : List V := g.verts.dedup.mergeSort (fun a b => decide (a ≤ b))

/-- `IGraph::writeSerial` – graph_base.cpp:311-324: ports are not written. -/
def Net.write (g : Net A) : Except Err (Doc A) :=
  (each (writeColl g) g.colls).bind fun colls =>
  (each (writeHier g) g.hiers).bind fun hiers =>
  (each (writeVert g) g.order).bind fun verts =>
  .ok ⟨colls, hiers, verts, []⟩

/-! ## Reading -/

/-- One edge in `TrivialEdgeCollection::readSerial` – graph_edge.cpp:212-228: `edgeStore.add` is called without the
id of the collection. -/
def readEdge (g : Net A) (c : EColl A) (e : SEdge A) : Except Err (EColl A) :=
  let i := nextId c.coll
  (storeEdge c.coll i e.name).bind fun c1 => (g.lookup e.source).bind fun s => (g.lookup e.target).bind fun t =>
    (trackEdge c1 i s t).bind fun c2 => .ok { c with coll := c2, attrs := set c.attrs i e.attrs }

/-- `TrivialEdgeCollection::readSerial` – graph_edge.cpp:206-229. -/
def readColl (g : Net A) : EColl A → List (SEdge A) → Except Err (EColl A)
  | c, [] => .ok c
  | c, e :: es => (readEdge g c e).bind fun c => readColl g c es

/-- The inner loop – graph_hierarchy.cpp:266-281. -/
def readSubs (g : Net A) (p : V) : Hier → List Stable → Except Err Hier
  | h, [] => .ok h
  | h, n :: ns =>
    (g.lookup n).bind fun s =>
      if (get h.parent s).isSome then .error .key
      else readSubs g p { h with
        nested := set h.nested p (incl ((get h.nested p).getD []) s)
        parent := set h.parent s p
        ids := incl h.ids s } ns

/-- The outer loop – graph_hierarchy.cpp:262-282. -/
def readNested (g : Net A) : Hier → AMap Stable (List Stable) → Except Err Hier
  | h, [] => .ok h
  | h, x :: xs =>
    (g.lookup x.1).bind fun p =>
      (readSubs g p { h with nested := set h.nested p ((get h.nested p).getD []), ids := incl h.ids p } x.2).bind fun h => readNested g h xs

/-- The loop over the parents – graph_hierarchy.cpp:329-345. -/
def checkParents (g : Net A) (h : Hier) : AMap Stable Stable → Except Err Unit
  | [] => .ok ()
  | x :: xs => (g.lookup x.1).bind fun s => (g.lookup x.2).bind fun _ => if (get h.parent s).isSome then checkParents g h xs else .error .graph

/-- The loops over `vertex_set` and `root_vertex_ids` – graph_hierarchy.cpp:292-326; building the text of the
exception is left out. -/
def checkAll (g : Net A) (bad : V → Bool) : List Stable → Except Err Unit
  | [] => .ok ()
  | n :: ns => (g.lookup n).bind fun v => if bad v then .error .graph else checkAll g bad ns

/-- `IVertexHierarchy::readSerial` – graph_hierarchy.cpp:255-347.  The vertices that have a parent are the keys of
`parentMap`. -/
def readHier (g : Net A) (s : SHier) : Except Err Hier :=
  (readNested g .empty s.nested).bind fun h =>
    let h := { h with roots := h.ids.filter (fun v => !(get h.parent v).isSome) }
    (checkAll g (fun v => !(get h.nested v).isSome) s.vertexSet).bind fun _ =>
    (checkAll g (fun v => !(get h.nested v).isSome || (get h.parent v).isSome) s.roots).bind fun _ =>
    (checkParents g h s.parents).bind fun _ =>
    .ok h

/-- The loop over the vertices – graph_base.cpp:361-365. -/
def readVerts : Net A → List (SVert A) → Except Err (Net A)
  | g, [] => .ok g
  | g, o :: os => (g.addVertex o).bind fun g => readVerts g os

/-- `IGraph::readSerial` – graph_base.cpp:328-381, into an empty graph.  `ids` are the ids that the factory gives to
the new collections.  They have to differ: `addCollection` (36-54) forgets a collection when another of its id comes,
which is an error here.  Hierarchies of one id are refused (`addHierarchy` – 60-77); here their ids differ. -/
def Net.read (ids : List Nat) (d : Doc A) : Except Err (Net A) :=
  if ¬ ids.Nodup then .error .assertion
  else
    let g : Net A := ⟨[], [], [], [], [], []⟩
    (readVerts g d.verts).bind fun g =>
    (each (fun x : Nat × List (SEdge A) => readColl g ⟨x.1, .empty, []⟩ x.2) (ids.zip d.colls)).bind fun colls =>
    (each (readHier g) d.hiers).bind fun hiers =>
    .ok { g with colls := colls, hiers := hiers, ports := d.ports }

end Verif.Graph

import Verif.Graph.Map

/-! # Edge collections – graph_edge.hpp, graph_edge.cpp -/

namespace Verif.Graph

/-- `VertexID` – graph_common.hpp:201; only compared. -/
abbrev V := Nat
/-- `EdgeID` – graph_common.hpp:202-220; only compared.  The mask that names the collection is the
same for all edges of one collection and left out. -/
abbrev E := Nat
/-- The stable id of an object, as its characters. -/
abbrev Stable := List Nat

inductive Err
  /-- `LOGIC_ASSERTION_CHECK` -/
  | assertion
  /-- `UnorderedMap::at` – Map.hpp:88-105 -/
  | range
  /-- `key_error` of maps and bimaps -/
  | key
  /-- `graph_error` and its descendants -/
  | graph
  deriving DecidableEq, Repr

/-- `IEdgeCollection` – graph_edge.hpp:152-157 with the `stableIdMap` of `IEdgeProvider` (67) and
the edge objects of `TrivialEdgeCollection` (251), of which only the stable id is kept. -/
structure Coll where
  incidence : AMap V (AMap V (List E))
  incoming : AMap V (List V)
  ends : AMap E (V × V)
  stable : AMap Stable E
  store : AMap E Stable

def Coll.empty : Coll := ⟨[], [], [], [], []⟩

/-- `edgeStore.add_with_id` – graph_common.hpp:96-103. -/
def storeEdge (c : Coll) (e : E) (n : Stable) : Except Err Coll :=
  match get c.store e with
  | some _ => .error .assertion
  | none => .ok { c with store := set c.store e n }

/-- `incidence.at(source).at(target).push_back(id)` after making the entries –
graph_edge.cpp:117-126. -/
def addIncidence (m : AMap V (AMap V (List E))) (s t : V) (e : E) : AMap V (AMap V (List E)) :=
  let row := (get m s).getD []
  set m s (set row t ((get row t).getD [] ++ [e]))

/-- `IEdgeCollection::trackEdge` – graph_edge.cpp:98-135, with `hasEdgeStableId` –
graph_edge.hpp:81-84. -/
def trackEdge (c : Coll) (e : E) (s t : V) : Except Err Coll :=
  match get c.store e with
  | none => .error .assertion
  | some n =>
    if n = [] then .error .assertion
    else if (get c.stable n).isSome then .error .assertion
    else .ok { c with
      stable := set c.stable n e
      incidence := addIncidence c.incidence s t e
      incoming := set c.incoming t ((get c.incoming t).getD [] ++ [s])
      ends := set c.ends e (s, t) }

/-- The removal from the incidence matrix – graph_edge.cpp:142-149. -/
def dropIncidence (m : AMap V (AMap V (List E))) (s t : V) (e : E) : AMap V (AMap V (List E)) :=
  match get m s with
  | none => m
  | some row =>
    match get row t with
    | none => m
    | some es =>
      let es' := excl es e
      if es'.isEmpty then
        let row' := del row t
        if row'.isEmpty then del m s else set m s row'
      else set m s (set row t es')

/-- The removal from the list of sources – graph_edge.cpp:151-155; `std::erase` removes all
occurrences. -/
def dropIncoming (m : AMap V (List V)) (s t : V) : AMap V (List V) :=
  match get m t with
  | none => m
  | some ss =>
    let ss' := excl ss s
    if ss'.isEmpty then del m t else set m t ss'

/-- `IEdgeCollection::untrackEdge` – graph_edge.cpp:138-156. -/
def untrackEdge (c : Coll) (e : E) : Except Err Coll :=
  match get c.ends e with
  | none => .error .range
  | some (s, t) => .ok { c with
      incidence := dropIncidence c.incidence s t e
      incoming := dropIncoming c.incoming s t }

/-- `IEdgeCollection::getOutgoing` – graph_edge.cpp:21-29. -/
def getOutgoing (c : Coll) (v : V) : List E := (entries ((get c.incidence v).getD [])).flatMap (·.2)

/-- `IEdgeCollection::getIncoming` – graph_edge.cpp:31-43. -/
def getIncoming (c : Coll) (v : V) : List E :=
  ((get c.incoming v).getD []).flatMap (fun s => (get ((get c.incidence s).getD []) v).getD [])

/-- `IEdgeCollection::getEdges` – graph_edge.cpp:184-192. -/
def getEdges (c : Coll) : List E := (entries c.incidence).flatMap (fun x => (entries x.2).flatMap (·.2))

/-- `IEdgeCollection::trackVertex` – graph_edge.cpp:45-54. -/
def trackVertex (c : Coll) (v : V) : Coll := { c with
  incidence := if (get c.incidence v).isSome then c.incidence else set c.incidence v []
  incoming := if (get c.incoming v).isSome then c.incoming else set c.incoming v [] }

/-- The loop over the edges to remove – graph_edge.cpp:75. -/
def untrackAll (c : Coll) : List E → Except Err Coll
  | [] => .ok c
  | e :: es =>
    match untrackEdge c e with
    | .error er => .error er
    | .ok c' => untrackAll c' es

/-- The edges to remove with a vertex – graph_edge.cpp:57-73. -/
def toRemove (c : Coll) (v : V) : List E := getOutgoing c v ++ getIncoming c v

/-- `IEdgeCollection::untrackVertex` – graph_edge.cpp:56-80.  `es` lists the set of edges to remove
in the order in which it is walked. -/
def untrackVertex (c : Coll) (v : V) (es : List E) : Except Err Coll :=
  match untrackAll c es with
  | .error er => .error er
  | .ok c' => .ok { c' with incidence := del c'.incidence v, incoming := del c'.incoming v }

/-- `isTrackingEdge` – graph_edge.hpp:170-182. -/
def isTrackingEdge (c : Coll) (e : E) : Except Err Bool :=
  match get c.ends e with
  | none => .ok false
  | some (s, t) =>
    match get c.incidence s with
    | none => .error .range
    | some row =>
      match get row t with
      | none => .error .range
      | some es => if e ∈ es then .ok true else .error .assertion

/-- `hasEdge(source, target)` – graph_edge.hpp:185-187. -/
def hasEdge (c : Coll) (s t : V) : Bool :=
  match get c.incidence s with
  | none => false
  | some row => (get row t).isSome

/-- `getSource`, `getTarget` – graph_edge.hpp:202-208. -/
def getEnds (c : Coll) (e : E) : Except Err (V × V) :=
  match get c.ends e with
  | none => .error .range
  | some x => .ok x

/-- All targets (`f = (·.2)`) or sources of a list of edges. -/
def mapEnds (c : Coll) (f : V × V → V) : List E → Except Err (List V)
  | [] => .ok []
  | e :: es =>
    match getEnds c e with
    | .error er => .error er
    | .ok x =>
      match mapEnds c f es with
      | .error er => .error er
      | .ok vs => .ok (f x :: vs)

/-- `getOutNodes` – graph_edge.cpp:162-167. -/
def getOutNodes (c : Coll) (v : V) : Except Err (List V) := mapEnds c (·.2) (getOutgoing c v)

/-- `getInNodes` – graph_edge.cpp:168-173; it asks for the targets of the incoming edges. -/
def getInNodes (c : Coll) (v : V) : Except Err (List V) := mapEnds c (·.2) (getIncoming c v)

/-- `getEdgeIDByStableId` – graph_edge.hpp:86-89. -/
def edgeByStable (c : Coll) (n : Stable) : Except Err E :=
  if n = [] then .error .assertion
  else
    match get c.stable n with
    | none => .error .range
    | some e => .ok e

/-- `getNextId` – graph_common.hpp:81-86: the number of stored edges. -/
def nextId (c : Coll) : E := c.store.length

/-- `TrivialEdgeCollection::addEdge` – graph_edge.hpp:257-266 and `TrivialEdgeCollection::readSerial`
– graph_edge.cpp:205-229.  The edge object stays when the edge cannot be tracked. -/
def addEdge (c : Coll) (s t : V) (n : Stable) : Coll × Except Err E :=
  match storeEdge c (nextId c) n with
  | .error er => (c, .error er)
  | .ok c1 =>
    match trackEdge c1 (nextId c) s t with
    | .error er => (c1, .error er)
    | .ok c2 => (c2, .ok (nextId c))

/-- `getFullyIncludedEdges` and `getPartiallyIncludedEdges` – graph_edge.hpp:210-241 for a test on
the ends. -/
def filterEdges (c : Coll) (f : V → V → Bool) : List E → Except Err (List E)
  | [] => .ok []
  | e :: es =>
    match getEnds c e with
    | .error er => .error er
    | .ok x =>
      match filterEdges c f es with
      | .error er => .error er
      | .ok r => .ok (if f x.1 x.2 then e :: r else r)

end Verif.Graph

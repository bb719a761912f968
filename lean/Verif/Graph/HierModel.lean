import Verif.Graph.EdgeModel

/-! # Vertex hierarchies – graph_hierarchy.hpp, graph_hierarchy.cpp -/

namespace Verif.Graph

/-- `IVertexHierarchy` – graph_hierarchy.hpp:22-35, with the ids of the edge objects of
`TrivialHierarchy` (214-229) or `IdOnlyHierarchy` (231-250).  The bimap from pairs to edges is
listed from the left. -/
structure Hier where
  nested : AMap V (List V)
  parent : AMap V V
  roots : List V
  ids : List V
  edges : AMap (V × V) E
  objs : List E

def Hier.empty : Hier := ⟨[], [], [], [], [], []⟩

inductive HErr
  /-- `graph_error` -/
  | graph
  /-- `LOGIC_ASSERTION_CHECK` -/
  | assertion
  /-- `add_unique` of a bimap – bimap_wrap.hpp:102-107 -/
  | runtime
  /-- `UnorderedMap::at` or `bimap.at` -/
  | range
  /-- unbounded recursion or an endless loop -/
  | diverges
  deriving DecidableEq, Repr

/-- `IVertexHierarchy::trackVertex` – graph_hierarchy.cpp:126-134. -/
def Hier.track (h : Hier) (v : V) : Except HErr Hier :=
  if v ∈ h.ids then .error .graph else .ok { h with ids := incl h.ids v, roots := incl h.roots v }

/-- `IVertexHierarchy::trackSubVertexRelation` – graph_hierarchy.cpp:136-170.  The last step may
throw after the maps have been changed. -/
def Hier.nest (h : Hier) (e : E) (p s : V) : Hier × Option HErr :=
  if p ∉ h.ids then (h, some .graph)
  else if s ∉ h.ids then (h, some .graph)
  else if e ∉ h.objs then (h, some .assertion)
  else if (get h.parent s).isSome then (h, some .graph)
  else
    let h1 := { h with
      parent := set h.parent s p
      nested := set h.nested p (incl ((get h.nested p).getD []) s)
      roots := excl h.roots s }
    if (get h.edges (p, s)).isSome ∨ e ∈ h.edges.map (·.2) then (h1, some .runtime)
    else ({ h1 with edges := set h1.edges (p, s) e }, none)

/-- `TrivialHierarchy::trackSubVertexRelation` – graph_hierarchy.cpp:501-513,
`IdOnlyHierarchy::trackSubVertexRelation` – graph_hierarchy.hpp:242-249.  `hash` is
`getNestingEdgeID` – graph_hierarchy.cpp:173-185, an arbitrary function of the two ids. -/
def Hier.nestSub (hash : V → V → E) (h : Hier) (p s : V) : Hier × Option HErr :=
  if p ∉ h.ids then (h, some .graph)
  else if s ∉ h.ids then (h, some .graph)
  else Hier.nest { h with objs := incl h.objs (hash p s) } (hash p s) p s

/-- Removal of a sub-vertex from the map of nested vertices – graph_hierarchy.cpp:34-37, 204-207. -/
def dropNested (m : AMap V (List V)) (p s : V) : AMap V (List V) :=
  match get m p with
  | none => m
  | some ss =>
    let ss' := excl ss s
    if ss'.isEmpty then del m p else set m p ss'

/-- `IVertexHierarchy::untrackSubVertexRelation` – graph_hierarchy.cpp:188-209. -/
def Hier.unnest (h : Hier) (p s : V) : Except HErr Hier :=
  if p ∉ h.ids then .error .graph
  else if s ∉ h.ids then .error .graph
  else if get h.parent s ≠ some p then .error .graph
  else .ok { h with
    parent := del h.parent s
    nested := dropNested h.nested p s
    roots := incl h.roots s }

/-- `collect` in `untrackVertex` – graph_hierarchy.cpp:20-25; without fuel the recursion does not
end. -/
def Hier.collect (h : Hier) : Nat → List V → V → Option (List V)
  | 0, _, _ => none
  | n + 1, acc, v => ((get h.nested v).getD []).foldlM (Hier.collect h n) (incl acc v)

/-- The first part of the loop body – graph_hierarchy.cpp:30-38. -/
def Hier.detach (h : Hier) (v : V) : Hier :=
  match get h.parent v with
  | none => h
  | some p => { h with parent := del h.parent v, nested := dropNested h.nested p v }

/-- The second part – graph_hierarchy.cpp:40-47. -/
def Hier.release (h : Hier) (v : V) : Hier :=
  match get h.nested v with
  | none => h
  | some subs =>
    { h with
      parent := subs.foldl (fun m s => del m s) h.parent
      roots := subs.foldl incl h.roots
      nested := del h.nested v }

/-- The loop body – graph_hierarchy.cpp:29-51. -/
def Hier.removeOne (h : Hier) (v : V) : Hier :=
  let h2 := (h.detach v).release v
  { h2 with roots := excl h2.roots v, ids := excl h2.ids v }

/-- `IVertexHierarchy::untrackVertex` – graph_hierarchy.cpp:14-54.  `order` lists the collected
vertices in the order in which the set is walked.  The result names the vertices; the set of
removed edges stays empty. -/
def Hier.untrack (h : Hier) (fuel : Nat) (v : V) (order : List V) : Except HErr (Hier × List V) :=
  if v ∉ h.ids then .error .graph
  else
    match h.collect fuel [] v with
    | none => .error .diverges
    | some vs => .ok (order.foldl Hier.removeOne h, vs)

/-- `getParentVertex` – graph_hierarchy.cpp:230-233. -/
def Hier.getParent (h : Hier) (v : V) : Option V := get h.parent v

/-- `getSubVertices` – graph_hierarchy.cpp:222-228. -/
def Hier.getSubs (h : Hier) (v : V) : List V := (get h.nested v).getD []

/-- `getRootVertices` – graph_hierarchy.cpp:216-220. -/
def Hier.getRoots (h : Hier) : List V := h.roots

/-- `getAllVertices` – graph_hierarchy.cpp:210-214. -/
def Hier.getAll (h : Hier) : List V := h.ids

/-- `getParentChain` – graph_hierarchy.cpp:393-401. -/
def Hier.chain (h : Hier) : Nat → V → Option (List V)
  | 0, _ => none
  | n + 1, v =>
    match get h.parent v with
    | none => some []
    | some p => (Hier.chain h n p).map (p :: ·)

/-- `getParentChainUntil` – graph_hierarchy.cpp:403-414: the test against `finish` stands in the
place of the loop's update expression, where its value is dropped. -/
def Hier.chainUntil (h : Hier) (fuel : Nat) (start _finish : V) : Option (List V) := h.chain fuel start

/-- The rounds of `getCommonAncestor` – graph_hierarchy.cpp:351-366. -/
def Hier.common (h : Hier) (fuel : Nat) : List V → List V → Option (Option V)
  | com, [] => some com.head?
  | com, v :: vs =>
    match h.chain fuel v with
    | none => none
    | some c =>
      let next := com.filter (fun a => decide (a ∈ c ++ [v]))
      if next.isEmpty then some none else Hier.common h fuel next vs

/-- `getCommonAncestor` – graph_hierarchy.cpp:343-369, for the ids in the order in which the set is
walked.  The outer `none` stands for an endless loop. -/
def Hier.commonAncestor (h : Hier) (fuel : Nat) : List V → Option (Option V)
  | [] => some none
  | v :: vs =>
    match h.chain fuel v with
    | none => none
    | some c => h.common fuel (c ++ [v]) vs

/-- `aux` of `getMaxNestingLevel` – graph_hierarchy.cpp:373-384. -/
def Hier.level (h : Hier) : Nat → V → Option Nat
  | 0, _ => none
  | n + 1, v => ((h.getSubs v).foldlM (fun r s => (Hier.level h n s).map (max r)) 0).map (· + 1)

/-- `getMaxNestingLevel` – graph_hierarchy.cpp:372-391.  For a vertex without sub-vertices `aux`
returns 1, as the general formula does. -/
def Hier.maxLevel (h : Hier) (fuel : Nat) : Option Nat := h.roots.foldlM (fun r v => (h.level fuel v).map (max r)) 0

/-- `getEdges` – graph_hierarchy.cpp:417-421. -/
def Hier.getEdges (h : Hier) : List E := h.edges.map (·.2)

/-- The edges of some pairs, throwing for a pair without edge. -/
def edgesOf (m : AMap (V × V) E) : List (V × V) → Except HErr (List E)
  | [] => .ok []
  | x :: xs =>
    match get m x with
    | none => .error .range
    | some e =>
      match edgesOf m xs with
      | .error er => .error er
      | .ok es => .ok (e :: es)

/-- `getOutgoing` – graph_hierarchy.cpp:423-429. -/
def Hier.outgoing (h : Hier) (v : V) : Except HErr (List E) := edgesOf h.edges ((h.getSubs v).map (fun s => (v, s)))

/-- `getIncoming` – graph_hierarchy.cpp:431-437. -/
def Hier.incoming (h : Hier) (v : V) : Except HErr (List E) :=
  match get h.parent v with
  | none => .ok []
  | some p => edgesOf h.edges [(p, v)]

/-- `hasEdge(source, target)` – graph_hierarchy.hpp:52-54. -/
def Hier.hasEdge (h : Hier) (s t : V) : Bool := (get h.edges (s, t)).isSome

/-- The loop of `findLCA` – graph_hierarchy.cpp:60-70. -/
def Hier.lca (h : Hier) : Nat → List V → V → V → Option V
  | 0, _, _, _ => none
  | n + 1, ps, u, v =>
    let ps := ps ++ [u]
    let u := (get h.parent u).getD u
    if v ∈ ps then some v
    else
      match get h.parent v with
      | none => some u
      | some w => Hier.lca h n ps u w

/-- A climb to `top` – graph_hierarchy.cpp:91-94, 97-100, 104-107, 112-115: the vertices met
without the first one; `parentMap.at` throws at a root. -/
def Hier.climb (h : Hier) (top : V) : Nat → V → Except HErr (List V)
  | 0, _ => .error .diverges
  | n + 1, v =>
    if v = top then .ok []
    else
      match get h.parent v with
      | none => .error .range
      | some p =>
        match Hier.climb h top n p with
        | .error er => .error er
        | .ok l => .ok (v :: l)

/-- `getHierarchyCrossings` – graph_hierarchy.cpp:57-123.  The climbs list the first vertex too; it
is dropped here by comparing with the start, as the code does. -/
def Hier.crossings (h : Hier) (fuel : Nat) (source target : V) : Except HErr (List V) :=
  let a := get h.parent source
  let b := get h.parent target
  if a = none ∧ b = none then .ok []
  else if a.isSome ∧ b.isSome ∧ a = b then .ok []
  else
    match h.lca fuel [] source target with
    | none => .error .diverges
    | some l =>
      if l = source then
        match h.climb l fuel target with
        | .error er => .error er
        | .ok xs => .ok (xs.filter (fun x => decide (x ≠ target)))
      else if l = target then
        match h.climb l fuel source with
        | .error er => .error er
        | .ok xs => .ok (xs.filter (fun x => decide (x ≠ source)))
      else
        match h.climb l fuel source with
        | .error er => .error er
        | .ok up =>
          match h.climb l fuel target with
          | .error er => .error er
          | .ok down =>
            .ok (up.filter (fun x => decide (x ≠ source)) ++ (down.filter (fun x => decide (x ≠ target))).reverse)

end Verif.Graph

/-!
# Model of the mind map graph – src/haxorg/imm/ImmOrgGraph.cpp:63-224, 347-682, ImmOrgGraph.hpp:120-330

The document is fixed; what the graph asks of it is in `Env`.  A vertex is identified with its
node: a node has at most one vertex because adding it again throws (`trackVertex`).  Sets of
vertices are lists in the order of insertion.  Messages are left out.
-/

namespace Verif.MapGraph

/-- `ImmUniqId` – ImmOrg.hpp:210-245: the node and its path from a root. -/
structure Uniq where
  id : Nat
  root : Nat
  path : List Nat
deriving DecidableEq, Repr

/-- `itemwise_less_than` – hstd/stdlib/Vec.hpp:26-40 -/
def itemwiseLess (less : Nat → Nat → Bool) : List Nat → List Nat → Bool
  | [], [] => false
  | [], _ :: _ => true
  | _ :: _, [] => false
  | a :: as, b :: bs => less a b || itemwiseLess less as bs

/-- `ImmUniqId::operator<` – ImmOrg.hpp:244, with `ImmPath::operator<` – ImmOrg.hpp:204-207 -/
def Uniq.less (less : Nat → Nat → Bool) (u v : Uniq) : Bool :=
  decide (u.id < v.id) && (decide (u.root < v.root) && itemwiseLess less u.path v.path)

/-- `MapLink` – ImmOrgGraph.hpp:24-47 (descriptions left out) -/
inductive Lnk where
  | radio (target : Uniq)
  | link (link : Uniq)
deriving DecidableEq, Repr

/-- Failed assertions and exceptions. -/
inductive Err where
  | assertion | throws | duplicate
deriving DecidableEq, Repr

/-- What the graph asks of the document. -/
structure Env where
  /-- `getInitialNodeProp` – ImmOrgGraph.cpp:292-344: the links below a node. -/
  init : Uniq → Except Err (List Uniq)
  /-- The targets of the radio groups of a node – 514-540. -/
  radio : Uniq → Except Err (List Uniq)
  /-- `getResolveTarget` for a link – 369-467: the positions of the node it refers to. -/
  targets : Uniq → Except Err (List Uniq)
  /-- `ImmPathStep::operator<` – ImmOrg.hpp:122-125 -/
  stepLess : Nat → Nat → Bool

/-- `MapLinkResolveResult` – ImmOrgGraph.hpp.  The link is missing for the results of
`collect_radio_targets`, which leave it default constructed. -/
structure Res where
  link : Option Lnk
  target : Uniq
  source : Uniq
deriving DecidableEq, Repr

/-- `MapGraphState` with `MapGraph` – ImmOrgGraph.hpp:237-330, 424- -/
structure State where
  nodes : List Uniq
  attr : Uniq → List Lnk
  unresolved : List Uniq
  edges : List (Uniq × Uniq)

/-- `getResolveTarget` – ImmOrgGraph.cpp:347-471: the targets -/
def resolve (e : Env) : Lnk → Except Err (List Uniq)
  | .radio t => .ok [t]
  | .link k => e.targets k

/-- `collect_radio_targets` – ImmOrgGraph.cpp:484-543: the resolved ones and the new unresolved
links. -/
def collectRadio (nodes : List Uniq) (n : Uniq) : List Uniq → List Res × List Lnk
  | [] => ([], [])
  | t :: ts =>
    let r := collectRadio nodes n ts
    if t ∈ nodes then (⟨none, t, n⟩ :: r.1, r.2) else (r.1, .radio t :: r.2)

/-- The inner loop of `attempt_attribute_resolve` – 557-567 -/
def attemptOne (nodes : List Uniq) (n : Uniq) (l : Lnk) : List Uniq → List Res × List Lnk
  | [] => ([], [])
  | t :: ts =>
    let r := attemptOne nodes n l ts
    if t ∈ nodes then (⟨some l, t, n⟩ :: r.1, r.2) else (r.1, l :: r.2)

/-- `attempt_attribute_resolve` – ImmOrgGraph.cpp:545-569 -/
def attempt (e : Env) (nodes : List Uniq) (n : Uniq) : List Lnk → Except Err (List Res × List Lnk)
  | [] => .ok ([], [])
  | l :: ls =>
    match resolve e l with
    | .error er => .error er
    | .ok ts =>
      match attempt e nodes n ls with
      | .error er => .error er
      | .ok r =>
        let a : List Res × List Lnk := if ts.isEmpty then ([], [l]) else attemptOne nodes n l ts
        .ok (a.1 ++ r.1, a.2 ++ r.2)

/-- The loop over the links of one node in `process_global_pending_unresolved` – 585-605 -/
def pendingOne (e : Env) (nodes : List Uniq) (s : Uniq) : List Lnk → Except Err (List Res)
  | [] => .ok []
  | l :: ls =>
    match resolve e l with
    | .error er => .error er
    | .ok ts =>
      match pendingOne e nodes s ls with
      | .error er => .error er
      | .ok r => .ok ((ts.filter (fun t => decide (t ∈ nodes))).map (fun t => ⟨some l, t, s⟩) ++ r)

/-- `process_global_pending_unresolved` – ImmOrgGraph.cpp:571-608 -/
def pending (e : Env) (nodes : List Uniq) (attr : Uniq → List Lnk) (n : Uniq) : List Uniq → Except Err (List Res)
  | [] => .ok []
  | s :: ss =>
    if s = n then .error .assertion
    else
      match pendingOne e nodes s (attr s) with
      | .error er => .error er
      | .ok a =>
        match pending e nodes attr n ss with
        | .error er => .error er
        | .ok r => .ok (a ++ r)

/-- `std::pair::operator<` on target and source -/
def pairLess (less : Uniq → Uniq → Bool) (a b : Res) : Bool :=
  less a.target b.target || (!less b.target a.target && less a.source b.source)

/-- `fill_resolved_nodes` – ImmOrgGraph.cpp:610-631.  The set `seen` finds a pair when it has one
that is neither less nor greater.  (For an order that is no strict weak order a search tree of
more than one element may do otherwise.) -/
def fill (less : Uniq → Uniq → Bool) : List Res → List Res → List Res
  | _, [] => []
  | seen, r :: rs =>
    if seen.any (fun s => !pairLess less s r && !pairLess less r s) then fill less seen rs
    else r :: fill less (seen ++ [r]) rs

/-- The comparison in `removeUnresolvedNodeProps` – ImmOrgGraph.cpp:75-89 -/
def sameLink (old : Lnk) (op : Res) : Bool := decide (op.link = some old)

/-- `removeUnresolvedNodeProps` – ImmOrgGraph.cpp:63-95: the links that stay -/
def keepLinks (resolved : List Res) (ls : List Lnk) : List Lnk :=
  ls.filter (fun old => !resolved.any (sameLink old))

/-- `removeUnresolvedNodeProps` on the attributes of the unresolved nodes and the new one -/
def removeProps (resolved : List Res) (targets : List Uniq) (attr : Uniq → List Lnk) : Uniq → List Lnk :=
  fun u => if u ∈ targets then keepLinks resolved (attr u) else attr u

/-- `updateUnresolvedNodeTracking` – ImmOrgGraph.cpp:97-139 -/
def tracking (resolved : List Res) (attr : Uniq → List Lnk) (n : Uniq) (unresolved : List Uniq) : Except Err (List Uniq) :=
  let drop (us : List Uniq) : List Uniq := if resolved.isEmpty then us else us.filter (fun u => !(attr u).isEmpty)
  if (attr n).isEmpty then .ok (drop (unresolved.filter (fun u => decide (u ≠ n))))
  else if n ∈ unresolved then .error .assertion
  else .ok (drop (unresolved ++ [n]))

/-- `MapGraphState::addNode` – ImmOrgGraph.cpp:192-224, `MapGraph::addNode` –
ImmOrgGraph.hpp:330-338, `getResolvedNodeInsert` – 635-682.  The stable id of a vertex is the
printed id of its node, so that a second node with the same id throws (graph_base.cpp:201-209). -/
def addNode (e : Env) (s : State) (n : Uniq) : Except Err State :=
  match e.init n with
  | .error er => .error er
  | .ok links =>
    if n.id ∈ s.nodes.map (·.id) then .error .duplicate
    else
      let nodes := s.nodes ++ [n]
      if n ∈ s.unresolved then .error .assertion
      else
        match e.radio n with
        | .error er => .error er
        | .ok rts =>
          let c := collectRadio nodes n rts
          match attempt e nodes n (links.map .link ++ c.2) with
          | .error er => .error er
          | .ok a =>
            let attr : Uniq → List Lnk := fun u => if u = n then a.2 else s.attr u
            match pending e nodes attr n s.unresolved with
            | .error er => .error er
            | .ok p =>
              let resolved := fill (Uniq.less e.stepLess) [] (c.1 ++ a.1 ++ p)
              let attr' := removeProps resolved (s.unresolved ++ [n]) attr
              match tracking resolved attr' n s.unresolved with
              | .error er => .error er
              | .ok un => .ok ⟨nodes, attr', un, s.edges ++ resolved.map (fun r => (r.source, r.target))⟩

/-- A new graph. -/
def State.empty : State := ⟨[], fun _ => [], [], []⟩

/-- Adding nodes one after the other. -/
def addNodes (e : Env) (s : State) : List Uniq → Except Err State
  | [] => .ok s
  | n :: ns =>
    match addNode e s n with
    | .error er => .error er
    | .ok s' => addNodes e s' ns

end Verif.MapGraph

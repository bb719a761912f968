/-!
# Model of the flat parse tree `NodeGroup`

* `src/haxorg/lexbase/Node.hpp`
* `src/haxorg/lexbase/NodeStore.hpp`
* `src/haxorg/lexbase/Node.cpp`

Simplifications: a node id is its numeric value (`0` is nil, value `i + 1` refers
to index `i`; `dod::Id`, dod_base.hpp:76-223) with an all-zero mask and no
64-bit saturation; `int` extents do not overflow.
-/

namespace Verif.NodeGroup

/-- Failure outcomes. `assertion`: `LOGIC_ASSERTION_CHECK` failed. `range`:
`hstd::range_error` (nil id, `Vec::at`, missing subnode).  `diverges`: loop still
running when the fuel is used up. -/
inductive Err where
  | assertion
  | range
  | diverges
deriving DecidableEq, Repr

/-- `Node::value` – Node.hpp:52: `std::variant<int, TokenId, M>`. -/
inductive Val (M : Type) where
  | ext (n : Int)
  | tok (t : Nat)
  | mono (m : M)
deriving DecidableEq, Repr

/-- `Node` – Node.hpp:49-56. -/
structure Node (K M : Type) where
  kind : K
  value : Val M
deriving DecidableEq, Repr

variable {K M : Type}

/-- `Node::isTerminal` – Node.hpp:62. -/
def Node.isTerminal (n : Node K M) : Bool :=
  match n.value with
  | .tok _ => true
  | _ => false

/-- `Node::isNonTerminal` – Node.hpp:64. -/
def Node.isNonTerminal (n : Node K M) : Bool :=
  match n.value with
  | .ext _ => true
  | _ => false

/-- `Node::getExtent` – Node.hpp:84-90. -/
def Node.getExtent (n : Node K M) : Int :=
  match n.value with
  | .ext e => e
  | _ => 0

/-- `Node::extend` – Node.hpp:66-70. -/
def Node.extend (n : Node K M) (extent : Int) : Except Err (Node K M) :=
  if n.isNonTerminal then
    if 0 ≤ extent then .ok { n with value := .ext extent } else .error .assertion
  else .error .assertion

/-- `NodeGroup` – NodeStore.hpp:10-35: the node store and the stack of open
trees (`pending`, innermost first).  The token group pointer is not needed here. -/
structure Group (K M : Type) where
  nodes : List (Node K M) := []
  pending : List Nat := []
deriving Repr

/-- `Id::getIndex` – dod_base.hpp:173-179. -/
def getIndex (id : Nat) : Except Err Nat :=
  match id with
  | 0 => .error .range
  | i + 1 => .ok i

/-- `NodeGroup::at` / `Store::at` – NodeStore.hpp:83-84, dod_base.hpp:447-450. -/
def Group.at (g : Group K M) (id : Nat) : Except Err (Node K M) := do
  let i ← getIndex id
  match g.nodes[i]? with
  | some n => .ok n
  | none => .error .range

/-- `Store::add` (returns the id of the new node) – dod_base.hpp:407-414, as used
by `NodeGroup::token` – NodeStore.hpp:40-42. -/
def Group.token (g : Group K M) (n : Node K M) : Group K M × Nat :=
  ({ g with nodes := g.nodes ++ [n] }, g.nodes.length + 1)

/-- `NodeGroup::startTree` – NodeStore.hpp:59-63. -/
def Group.startTree (g : Group K M) (n : Node K M) : Group K M × Nat :=
  ({ nodes := g.nodes ++ [n], pending := (g.nodes.length + 1) :: g.pending },
    g.nodes.length + 1)

/-- `NodeGroup::endTree` – Node.cpp:9-14.  `nodes.back()` is the id of the last
node, i.e. the number of nodes (dod_base.hpp:427); `distance` is a saturating
subtraction (dod_base.hpp:329-331). -/
def Group.endTree (g : Group K M) (offset : Int := 0) : Except Err (Group K M × Nat) :=
  match g.pending with
  | [] => .error .assertion
  | start :: rest => do
    let n ← g.at start
    let n' ← n.extend (((g.nodes.length - start : Nat) : Int) + offset)
    .ok ({ nodes := g.nodes.set (start - 1) n', pending := rest }, start)

/-- `NodeGroup::failTree` – Node.cpp:17-23. -/
def Group.failTree (g : Group K M) (replacement : Node K M) : Except Err (Group K M × Nat) :=
  match g.pending with
  | [] => .error .assertion
  | start :: rest => do
    let _ ← g.at start
    .ok ({ nodes := g.nodes.set (start - 1) replacement, pending := rest }, start)

/-- `NodeGroup::removeTail` – Node.cpp:26-28 (`begin() + index` past the end is
undefined behaviour, reported as `assertion`). -/
def Group.removeTail (g : Group K M) (id : Nat) : Except Err (Group K M) := do
  let i ← getIndex id
  if i ≤ g.nodes.length then .ok { g with nodes := g.nodes.take i } else .error .assertion

/-- `NodeGroup::begin` – Node.cpp:31-40 (the iterator is represented by its id;
`end(last)` of Node.cpp:43-47 is `last + 1`). -/
def Group.beginAt (g : Group K M) (start : Nat) : Except Err Nat := do
  let i ← getIndex start
  if i < g.nodes.length then .ok start else .ok (g.nodes.length + 1)

/-- `NodeGroup::subnodesOf` – Node.cpp:51-65. -/
def Group.subnodesOf (g : Group K M) (id : Nat) : Except Err (Option (Nat × Nat)) := do
  let n ← g.at id
  if n.isTerminal then .ok none
  else
    let b ← g.beginAt (id + 1)
    .ok (some (b, (id + n.getExtent.toNat) + 1))

/-- `NodeGroup::allSubnodesOf` – Node.cpp:68-75 (inclusive slice). -/
def Group.allSubnodesOf (g : Group K M) (id : Nat) : Except Err (Option (Nat × Nat)) := do
  let n ← g.at id
  if 0 < n.getExtent then .ok (some (id + 1, id + n.getExtent.toNat)) else .ok none

/-- `iterator::operator++` – NodeStore.hpp:123-129. -/
def Group.next (g : Group K M) (id : Nat) : Except Err Nat :=
  match g.at id with
  | .ok n => .ok (id + n.getExtent.toNat + 1)
  | .error _ => .error .assertion

/-- `NodeGroup::parent` – Node.cpp:78-94.  Note that the loop body changes
`parent` only when `extent` has a value. -/
def Group.parentLoop (g : Group K M) (node : Nat) : Nat → Nat → Except Err Nat
  | 0, _ => .error .diverges
  | _ + 1, 0 => .ok 0
  | fuel + 1, p + 1 => do
    match ← g.allSubnodesOf (p + 1) with
    | some (first, last) =>
      if first ≤ node ∧ node ≤ last then .ok (p + 1) else g.parentLoop node fuel p
    | none => g.parentLoop node fuel (p + 1)

/-- `NodeGroup::parent` with a bound on the number of loop iterations. -/
def Group.parent (g : Group K M) (fuel : Nat) (node : Nat) : Except Err Nat :=
  g.parentLoop node fuel (node - 1)

/-- The loop of `NodeGroup::size` – Node.cpp:97-107. -/
def Group.sizeLoop (g : Group K M) (last : Nat) : Nat → Nat → Nat → Except Err Nat
  | 0, _, _ => .error .diverges
  | fuel + 1, it, result =>
    if it ≠ last then do g.sizeLoop last fuel (← g.next it) (result + 1) else .ok result

/-- `NodeGroup::size(node)` – Node.cpp:97-107. -/
def Group.size (g : Group K M) (fuel : Nat) (id : Nat) : Except Err Nat := do
  match ← g.subnodesOf id with
  | some (b, e) => g.sizeLoop e fuel b 0
  | none => .ok 0

/-- The loop of `NodeGroup::subnode` – Node.cpp:112-125; `*begin` checks that
the id is in range (NodeStore.hpp:110-121). -/
def Group.subnodeLoop (g : Group K M) (last : Nat) (index : Int) :
    Nat → Nat → Nat → Except Err Nat
  | 0, _, _ => .error .diverges
  | fuel + 1, it, i =>
    if it ≠ last then
      if (i : Int) = index then
        match g.at it with
        | .ok _ => .ok it
        | .error _ => .error .assertion
      else do g.subnodeLoop last index fuel (← g.next it) (i + 1)
    else .error .range

/-- `NodeGroup::subnode` – Node.cpp:110-131. -/
def Group.subnode (g : Group K M) (fuel : Nat) (id : Nat) (index : Int) : Except Err Nat := do
  match ← g.subnodesOf id with
  | some (b, e) => g.subnodeLoop e index fuel b 0
  | none => .error .range

/-- One call of the builder interface as the parser issues it
(OrgParserUtils.cpp:78-177): a token or mono leaf, `startTree(kind)` with extent
zero, `endTree()`, or `failTree(replacement leaf)`. -/
inductive Op (K M : Type) where
  | token (k : K) (t : Nat)
  | mono (k : K) (m : M)
  | start (k : K)
  | finish
  | fail (k : K) (m : M)
deriving Repr

/-- Execute one builder call. -/
def Group.step (g : Group K M) : Op K M → Except Err (Group K M)
  | .token k t => .ok (g.token ⟨k, .tok t⟩).1
  | .mono k m => .ok (g.token ⟨k, .mono m⟩).1
  | .start k => .ok (g.startTree ⟨k, .ext 0⟩).1
  | .finish => do let r ← g.endTree; .ok r.1
  | .fail k m => do let r ← g.failTree ⟨k, .mono m⟩; .ok r.1

/-- Execute a history of builder calls. -/
def Group.run (g : Group K M) : List (Op K M) → Except Err (Group K M)
  | [] => .ok g
  | op :: ops => do (← g.step op).run ops

end Verif.NodeGroup

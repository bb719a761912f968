import Verif.AstDiff.EagerModel

/-!
# What a list of edits means

The reading of `DiaEdit` given in its documentation (src/hstd/ext/astdiff/astdiff_eager.hpp:13-65): an insertion puts the
whole destination subtree at its index, a deletion removes the whole source subtree, a move puts the source node at the
destination index, an update replaces the value of the node but not its subnodes.  Source indices are positions in
the source tree and destination indices positions in the destination tree.  Nothing here mentions how the edits are found.
-/

namespace Verif.AstDiff

/-- A tree without the numbers of its nodes -/
inductive Shape where
  | node (kind val : Nat) (subs : List Shape)

mutual
def T.shape : T → Shape
  | .node _ k v subs => .node k v (shapes subs)
def shapes : List T → List Shape
  | [] => []
  | t :: ts => t.shape :: shapes ts
end

mutual
/-- All nodes of a tree -/
def T.all : T → List T
  | .node i k v subs => .node i k v subs :: alls subs
def alls : List T → List T
  | [] => []
  | t :: ts => t.all ++ alls ts
end

/-- The source node an edit is about -/
def Edit.src? : Edit → Option Nat
  | .insert _ _ => none
  | .delete s _ => some s
  | .move s _ _ _ => some s
  | .update s _ _ _ => some s

/-- The first edit about a source node -/
def fate (E : List Edit) (c : Nat) : Option Edit := E.find? (fun e => e.src? == some c)

/-- The index at which a destination node is inserted -/
def inserted (E : List Edit) (d : Nat) : Option Nat :=
  E.findSome? (fun e => match e with
    | .insert d' j => if d' = d then some j else none
    | _ => none)

/-- The list with each element at its index; `none` when an index is missing or doubled. -/
def place {α : Type} (l : List (Nat × α)) : Option (List α) := (List.range l.length).mapM (fun j => l.lookup j)

/-- Is the node given a new value? -/
def isUpdated (E : List Edit) (s : Nat) : Bool :=
  match fate E s with
  | some (.update _ _ _ _) => true
  | _ => false

mutual
/-- The tree after the edits, where `p` is the destination node that the source node became.  `none` means that the
edits make no sense for this tree. -/
def rebuild (E : List Edit) : T → T → Option Shape
  | .node i k v subs, p => do
    let kept ← rebuildSubs E subs 0 p
    let new := p.subs.filterMap (fun d => (inserted E d.id).map (fun j => (j, d.shape)))
    let r ← place (kept ++ new)
    some (if isUpdated E i then .node p.kind p.val r else .node k v r)
/-- The subnodes that stay, with their new indices -/
def rebuildSubs (E : List Edit) : List T → Nat → T → Option (List (Nat × Shape))
  | [], _, _ => some []
  | c :: cs, i, p => do
    let rest ← rebuildSubs E cs (i + 1) p
    match fate E c.id with
    | some (.delete _ _) => some rest
    | some (.move _ d _ j) => do
      let q ← p.subs.find? (fun x => x.id == d)
      let x ← rebuild E c q
      some ((j, x) :: rest)
    | some (.update _ d _ j) => do
      let q ← p.subs.find? (fun x => x.id == d)
      let x ← rebuild E c q
      some ((j, x) :: rest)
    | _ => do
      let q ← p.subs[i]?
      let x ← rebuild E c q
      some ((i, x) :: rest)
end

end Verif.AstDiff

import Verif.AstDiff.EagerSpec
import Verif.AstDiff.TreeModel

/-!
# Nodes by their number

The nodes of a tree are numbered in the order in which they are met: the root, then the nodes of its first subnode, and so
on.  Nothing here mentions the diff.
-/

namespace Verif.AstDiff

/-- The numbers of the subnodes of node `x`: the first one follows `x`, and each next one comes after all nodes of the one before. -/
def kidsFrom : List T → Nat → List Nat
  | [], _ => []
  | t :: ts, x => x :: kidsFrom ts (x + t.all.length)

/-- The numbers of the subnodes of node `x` of a tree -/
def kids (t : T) (x : Nat) : List Nat :=
  match t.all[x]? with
  | some u => kidsFrom u.subs (x + 1)
  | none => []

/-- The usual options: nodes of the same kind may be matched, values are compared. -/
def usual : Options := { allowed := fun a b => a.kind == b.kind, valuesEqual := fun a b => a.val == b.val }

/-- Is a node with this mark reported as moved? -/
def Change.moved : Change → Bool
  | .move => true
  | .updateMove => true
  | _ => false

/-- Is a node with this mark reported as having a new value? -/
def Change.updated : Change → Bool
  | .update => true
  | .updateMove => true
  | _ => false

end Verif.AstDiff

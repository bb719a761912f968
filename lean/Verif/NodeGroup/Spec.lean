import Verif.NodeGroup.Model

/-!
# Specification vocabulary for the flat parse tree

An ordered forest, the tree-builder grammar, and the positions of roots and of
direct children in preorder.  Nothing here mentions extents or pending stacks.
-/

namespace Verif.NodeGroup.Spec
open Verif.NodeGroup

/-- Content of a leaf: a token or a mono payload. -/
inductive Leaf (M : Type) where
  | tok (t : Nat)
  | mono (m : M)
deriving DecidableEq, Repr

/-- An ordered forest (first tree, then the remaining trees). -/
inductive Forest (K M : Type) where
  | nil
  | leaf (k : K) (v : Leaf M) (rest : Forest K M)
  | tree (k : K) (children rest : Forest K M)
deriving DecidableEq, Repr

variable {K M : Type}

/-- Number of nodes of a forest. -/
def Forest.count : Forest K M → Nat
  | .nil => 0
  | .leaf _ _ r => 1 + r.count
  | .tree _ c r => 1 + c.count + r.count

/-- Concatenation of forests. -/
def Forest.append : Forest K M → Forest K M → Forest K M
  | .nil, g => g
  | .leaf k v r, g => .leaf k v (r.append g)
  | .tree k c r, g => .tree k c (r.append g)

/-- Preorder listing: kind, payload if it is a leaf, number of descendants if it
is an inner node. -/
def Forest.flat : Forest K M → List (Node K M)
  | .nil => []
  | .leaf k (.tok t) r => ⟨k, .tok t⟩ :: r.flat
  | .leaf k (.mono m) r => ⟨k, .mono m⟩ :: r.flat
  | .tree k c r => ⟨k, .ext c.count⟩ :: c.flat ++ r.flat

/-- Preorder positions of the roots, when the forest is laid out from `b` on. -/
def Forest.roots (b : Nat) : Forest K M → List Nat
  | .nil => []
  | .leaf _ _ r => b :: r.roots (b + 1)
  | .tree _ c r => b :: r.roots (b + 1 + c.count)

/-- Preorder positions of the direct children of the node at position `p`. -/
def Forest.childrenOf (b : Nat) : Forest K M → Nat → List Nat
  | .nil, _ => []
  | .leaf _ _ r, p => r.childrenOf (b + 1) p
  | .tree _ c r, p =>
    if p = b then c.roots (b + 1)
    else if p < b + 1 + c.count then c.childrenOf (b + 1) p
    else r.childrenOf (b + 1 + c.count) p

/-- The well-bracketed histories of builder calls and the forest each describes.
A failed tree becomes a leaf and its former children become its following
siblings. -/
inductive Builds : List (Op K M) → Forest K M → Prop where
  | nil : Builds [] .nil
  | token {ops f} (k : K) (t : Nat) :
      Builds ops f → Builds (.token k t :: ops) (.leaf k (.tok t) f)
  | mono {ops f} (k : K) (m : M) :
      Builds ops f → Builds (.mono k m :: ops) (.leaf k (.mono m) f)
  | tree {inner ops c f} (k : K) :
      Builds inner c → Builds ops f →
      Builds (.start k :: (inner ++ .finish :: ops)) (.tree k c f)
  | fail {inner ops c f} (k k' : K) (m : M) :
      Builds inner c → Builds ops f →
      Builds (.start k :: (inner ++ .fail k' m :: ops)) (.leaf k' (.mono m) (c.append f))

/-- A history never closes more trees than it opened, and leaves none open:
bracket counting, starting from `d` open trees. -/
def balanced : Nat → List (Op K M) → Bool
  | d, [] => d == 0
  | d, .token _ _ :: ops => balanced d ops
  | d, .mono _ _ :: ops => balanced d ops
  | d, .start _ :: ops => balanced (d + 1) ops
  | d, .finish :: ops => d != 0 && balanced (d - 1) ops
  | d, .fail _ _ :: ops => d != 0 && balanced (d - 1) ops

end Verif.NodeGroup.Spec

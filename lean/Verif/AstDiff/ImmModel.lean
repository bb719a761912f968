import Verif.AstDiff.TreeModel

/-!
# Model of the edits between two immutable trees

`ImmNodeDiff` (src/haxorg/sem/SemAstDiff.cpp, SemAstDiff.hpp).  The unique id of a node (`ImmUniqId`) is the number of the tree
node, the id in the store (`ImmUniqId::id`) its value.  Only the direct subnodes are compared: for `DirectSubnodes = false` the
constructor of `ImmNodeStore` raises an exception.
-/

namespace Verif.AstDiff

/-- `getOptions` (src/haxorg/sem/SemAstDiff.cpp:225-241) -/
def immOptions : Options where
  allowed := fun _ _ => true
  valuesEqual := fun a b => a.val == b.val

/-- `AstEdit` (src/haxorg/sem/SemAstDiff.hpp:137-163) -/
inductive ImmEdit where
  | delete (id : Nat)
  | keep (id : Nat)
  | insert (id : Nat)
  | replace (src dst : Nat)
deriving DecidableEq, Repr

/-- `getMapped` (src/hstd/ext/astdiff/astdiff.hpp:547-551); `ofSrc` says that the tree given is the source -/
def getMapped (m : Mapping) (ofSrc : Bool) (i : Nat) : Option Nat := if ofSrc then m.dst i else m.src i

/-- `getStoreId`, which is `Nodes.at` (src/hstd/ext/astdiff/astdiff.hpp:225-233): `none` when it throws -/
def storeNode (t : SynTree) (i : Nat) : Option Node := t.nodes[i]?

/-- the body of the first loop of `getEdits` (src/haxorg/sem/SemAstDiff.cpp:122-152) for one node of the destination -/
def dstEdit (m : Mapping) (S D : SynTree) (keeps : Bool) (y : Nat) : Option (List ImmEdit) :=
  match storeNode D y with
  | none => none
  | some b =>
    match getMapped m true y with
    | some x =>
      match storeNode S x with
      | none => none
      | some a => some (if a.val = b.val then (if keeps then [.keep b.id] else []) else [.replace a.id b.id])
    | none => some [.insert b.id]

/-- the body of the second loop of `getEdits` (src/haxorg/sem/SemAstDiff.cpp:154-164) for one node of the source -/
def srcEdit (m : Mapping) (S : SynTree) (x : Nat) : Option (List ImmEdit) :=
  match storeNode S x with
  | none => none
  | some a =>
    match getMapped m false x with
    | some _ => some []
    | none => some [.delete a.id]

/-- `getEdits` (src/haxorg/sem/SemAstDiff.cpp:118-167); `none` when an index is out of range -/
def immEdits (m : Mapping) (S D : SynTree) (keeps : Bool) : Option (List ImmEdit) :=
  match (List.range D.size).mapM (dstEdit m S D keeps), (List.range S.size).mapM (srcEdit m S) with
  | some a, some b => some (a.flatten ++ b.flatten)
  | _, _ => none

/-- `setDiffTrees` with the default options and `getEdits` (src/haxorg/sem/SemAstDiff.cpp:118-181) -/
def immDiff (s d : T) (keeps : Bool) (fuel : Nat) : Option (Mapping × Option (List ImmEdit)) :=
  match computeMapping immOptions (fromNode s) (fromNode d) fuel with
  | none => none
  | some m => some (m, immEdits m (fromNode s) (fromNode d) keeps)

end Verif.AstDiff

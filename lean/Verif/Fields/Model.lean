/-!
# Model of the named fields of nodes – src/haxorg/lexbase/AstSpec.hpp

Simplifications, for the whole file:
* A node is the list of its subnodes (`NodeGroup::subnode`, `NodeGroup::size`: see `Verif/NodeGroup`).
* Only the ranges of one kind of nodes are considered: a specification gives each kind its own.
* An exception is `none`.  Numbers are unbounded.
-/

namespace Verif.Fields

/-- `AstRange`, by its kind – AstSpec.hpp:21-28, 62-112 -/
inductive Range where
  | point (idx : Int)
  | inversePoint (idx : Int)
  | direct (first last : Int)
  | inverse (first last : Int)
  | mixed (first last : Int)
deriving DecidableEq

/-- `toSlice` – AstSpec.hpp:115-132 -/
def Range.toSlice (r : Range) (maxLen : Int) : Option (Int × Int) :=
  let range := match r with
    | .point idx => (idx, idx)
    | .inversePoint idx => (maxLen - idx, maxLen - idx)
    | .direct first last => (first, last)
    | .inverse first last => (maxLen - first, maxLen - last)
    | .mixed first last => (first, maxLen - last)
  if range.1 ≤ range.2 ∧ range.2 ≤ maxLen then some range else none

/-- `contains` – AstSpec.hpp:134-137 -/
def Range.contains (r : Range) (idx maxLen : Int) : Bool :=
  match r.toSlice maxLen with
  | some s => s.1 ≤ idx && idx ≤ s.2
  | none => false

/-- `node.at(idx)` – NodeAdapter.hpp:44-46, Node.cpp:110-131 -/
def at? {α : Type} (nodes : List α) (idx : Int) : Option α := if idx < 0 then none else nodes[idx.toNat]?

variable {Name : Type} [DecidableEq Name]

/-- `nodeRanges.at(kind).at(name)`: of ranges with the same name the last one – AstSpec.hpp:429-442 -/
def rangeOf (fields : List (Name × Range)) (name : Name) : Option Range := (fields.reverse.find? fun f => f.1 = name).map Prod.snd

/-- `getSingleSubnode` – AstSpec.hpp:643-654, 690-692 -/
def single {α : Type} (fields : List (Name × Range)) (nodes : List α) (name : Name) : Option α := do
  let range ← rangeOf fields name
  let slice ← range.toSlice nodes.length
  at? nodes slice.1

/-- The values of a slice – Slice.hpp:86-128 -/
def sliceValues (s : Int × Int) : List Int := (List.range (s.2 - s.1 + 1).toNat).map fun k : Nat => s.1 + (k : Int)

/-- `getMultipleSubnode` – AstSpec.hpp:694-707 -/
def multiple {α : Type} (fields : List (Name × Range)) (nodes : List α) (name : Name) : Option (List α) := do
  let range ← rangeOf fields name
  let slice ← range.toSlice nodes.length
  (sliceValues slice).mapM (at? nodes)

/-- `fieldName` – AstSpec.hpp:709-726 -/
def fieldName (fields : List (Name × Range)) (size : Nat) (idx : Int) : Option Name := (fields.find? fun f => f.2.contains idx size).map Prod.fst

end Verif.Fields

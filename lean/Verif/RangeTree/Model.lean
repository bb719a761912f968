import Mathlib.Data.Finset.Basic
import Mathlib.Data.Finset.Image
import Mathlib.Data.Finset.Union

/-!
# Model of `RangeTree` and `annotateSequence`

* `src/hstd/stdlib/RangeTree.hpp`
* `src/hstd/stdlib/RangeSegmentation.{hpp,cpp}`
* `src/hstd/stdlib/Slice.hpp` (only `Slice::contains` and `slice()`)

`T = int` (the only explicit instantiation, RangeTree.hpp:200); machine `int` is
modelled by `Int` (no overflow; the only arithmetic on values is `i - 1`, `++i`).
-/

namespace Verif.RangeTree

/-- `Slice<int>` – Slice.hpp:12-35 (`first`, `last`, inclusive). -/
structure Slice where
  first : Int
  last : Int
deriving DecidableEq, Repr

/-- `Slice::contains` – Slice.hpp:34. -/
def Slice.contains (s : Slice) (v : Int) : Bool := decide (s.first ≤ v) && decide (v ≤ s.last)

/-- `RangeTreeRange` – RangeTree.hpp:17-26. -/
structure Range where
  range : Slice
  index : Nat
deriving DecidableEq, Repr

/-- `RangeTreeRange::contains` – RangeTree.hpp:22. -/
def Range.contains (r : Range) (p : Int) : Bool := r.range.contains p

/-- `RangeTree::Node` with nullable `left`/`right` – RangeTree.hpp:33-38
(`nil` is the null `UPtr<Node>`). -/
inductive Tree where
  | nil
  | node (center : Int) (overlapping : List Range) (left right : Tree)
deriving Repr

/-- `Node::getAllNodes` – RangeTree.hpp:40-57.  A node is represented by its
`overlapping` vector, the only part used by callers. -/
def Tree.getAllNodes : Tree → Int → List (List Range)
  | .nil, _ => []
  | .node center overlapping left right, point =>
    (if overlapping.any (fun r => r.contains point) then [overlapping] else [])
      ++ (if point < center then left.getAllNodes point else [])
      ++ (if center < point then right.getAllNodes point else [])

/-- Failure outcomes.  `ub`: undefined behaviour (precondition of `std::sort`
violated).  `diverges`: the recursion has not finished within the given fuel.
`rangeError`: `hstd::range_error` thrown by `slice()`/`Vec::at`. -/
inductive Err where
  | ub
  | diverges
  | rangeError
deriving DecidableEq, Repr

/-- The endpoints collected in RangeTree.hpp:72-76 and sorted on line 77
(`std::sort` of `int`s with `<`: the unique sorted permutation). -/
def sortedPoints (ranges : List Range) : List Int :=
  (ranges.flatMap fun r => [r.range.first, r.range.last]).mergeSort (fun a b => decide (a ≤ b))

/-- `RangeTree::buildRec` – RangeTree.hpp:69-99.  The C++ recursion has no
structural bound, so the model carries fuel = maximal recursion depth. -/
def buildRec : Nat → List Range → Except Err Tree
  | 0, _ => .error .diverges
  | _ + 1, [] => .ok .nil
  | n + 1, r :: rs =>
    let ranges := r :: rs
    let points := sortedPoints ranges
    match points[points.length / 2]? with
    | none => .error .rangeError
    | some center =>
      let leftRanges := ranges.filter fun x => decide (x.range.last < center)
      let rightRanges := ranges.filter fun x =>
        !decide (x.range.last < center) && decide (center < x.range.first)
      let overlapping := ranges.filter fun x =>
        !decide (x.range.last < center) && !decide (center < x.range.first)
      match buildRec n leftRanges with
      | .error e => .error e
      | .ok left =>
        match buildRec n rightRanges with
        | .error e => .error e
        | .ok right => .ok (.node center overlapping left right)

/-- The comparator of `RangeTree::build` – RangeTree.hpp:113-122. -/
def rangeLess (lhs rhs : Range) : Bool :=
  if lhs.range.first ≠ rhs.range.first then decide (lhs.range.first < rhs.range.first)
  else if lhs.range.last ≠ rhs.range.last then decide (rhs.range.last < lhs.range.last)
  else true

/-- `rv::enumerate | transform` – RangeTree.hpp:103-111. -/
def enumerate (slices : List Slice) : List Range :=
  slices.zipIdx.map fun p => { range := p.1, index := p.2 }

/-- What is assumed of `std::sort`: it returns some permutation of its input. -/
structure SortOracle where
  sort : List Range → List Range
  perm : ∀ l, (sort l).Perm l

/-- `std::sort` requires the comparator to be a strict weak order on the
elements.  `rangeLess a b` and `rangeLess b a` both hold when two distinct
elements have the same range, which is undefined behaviour. -/
def sortPrecondition (l : List Range) : Prop :=
  l.Pairwise fun a b => ¬ (rangeLess a b = true ∧ rangeLess b a = true)

instance (l : List Range) : Decidable (sortPrecondition l) := by
  unfold sortPrecondition; infer_instance

/-- `RangeTree(slices)` – RangeTree.hpp:60-66 and `build` – RangeTree.hpp:102-125. -/
def make (o : SortOracle) (fuel : Nat) (slices : List Slice) : Except Err Tree :=
  match slices with
  | [] => .ok (.node 0 [] .nil .nil)
  | _ =>
    let ranges := enumerate slices
    if sortPrecondition ranges then buildRec fuel (o.sort ranges) else .error .ub

/-- `RangeTree::getRanges` – RangeTree.hpp:132-141. -/
def Tree.getRanges (t : Tree) (point : Int) : List Range :=
  (t.getAllNodes point).flatMap fun overlapping => overlapping.filter fun r => r.contains point

/-! ## `annotateSequence` -/

/-- `SequenceSegment` – RangeSegmentation.hpp:16-31. -/
structure Segment where
  kind : Int
  first : Int
  last : Int
deriving DecidableEq, Repr

/-- `SequenceSegmentGroup` – RangeSegmentation.hpp:34-41. -/
structure Group where
  kind : Int
  segments : List Segment
deriving DecidableEq, Repr

/-- One annotation tag: group kind and segment kinds – RangeSegmentation.hpp:44-70. -/
abbrev Tag := Int × List Int

/-- `SequenceAnnotation` – RangeSegmentation.hpp:73-88.  The tags are produced by
iterating an unordered set, so their order is unspecified: a `Finset`. -/
structure Annotation where
  first : Int
  last : Int
  annotations : Finset Tag
deriving DecidableEq

/-- `slice(first, last)` – Slice.hpp:136-157. -/
def mkSlice (first last : Int) : Except Err Slice :=
  if first ≤ last then .ok ⟨first, last⟩ else .error .rangeError

/-- Construction of the trees – RangeSegmentation.cpp:19-28. -/
def buildTrees (o : SortOracle) (fuel : Nat) : List Group → Except Err (List (Tree × Group))
  | [] => .ok []
  | g :: gs => do
    let slices ← g.segments.mapM fun s => mkSlice s.first s.last
    let t ← make o fuel slices
    let rest ← buildTrees o fuel gs
    return (t, g) :: rest

/-- `getPointGroups` – RangeSegmentation.cpp:33-47. -/
def getPointGroups (trees : List (Tree × Group)) (point : Int) : Except Err (Finset Tag) :=
  match trees with
  | [] => .ok ∅
  | (t, g) :: rest => do
    let ranges := t.getRanges point
    let others ← getPointGroups rest point
    if ranges.isEmpty then return others
    else
      let kinds ← ranges.mapM fun r =>
        match g.segments[r.index]? with
        | some s => Except.ok s.kind
        | none => .error Err.rangeError
      return insert (g.kind, kinds.mergeSort (fun a b => decide (a ≤ b))) others

/-- Loop state of RangeSegmentation.cpp:49-52. -/
structure LoopState where
  prevKind : Finset Tag
  lastStart : Int
  result : List Annotation

/-- Loop body – RangeSegmentation.cpp:66-81. -/
def loopStep (trees : List (Tree × Group)) (st : LoopState) (i : Int) : Except Err LoopState := do
  let thisKind ← getPointGroups trees i
  if thisKind ≠ st.prevKind then
    let result := if st.prevKind ≠ ∅
      then st.result ++ [⟨st.lastStart, i - 1, st.prevKind⟩] else st.result
    return { prevKind := thisKind, lastStart := i, result := result }
  else return st

/-- The values taken by `i` in `for (int i = first; i <= last; ++i)`. -/
def loopIndices (first last : Int) : List Int :=
  (List.range (last - first + 1).toNat).map fun (k : Nat) => first + (k : Int)

/-- `annotateSequence` – RangeSegmentation.cpp:7-93. -/
def annotateSequence (o : SortOracle) (fuel : Nat) (groups : List Group) (first last : Int) :
    Except Err (List Annotation) := do
  let trees ← buildTrees o fuel groups
  let prevKind ← getPointGroups trees first
  let st ← (loopIndices first last).foldlM (loopStep trees) ⟨prevKind, first, []⟩
  if st.lastStart < last ∧ st.prevKind ≠ ∅ then
    return st.result ++ [⟨st.lastStart, last, st.prevKind⟩]
  else return st.result

/-- `SequenceAnnotation::isAnnotatedWith` – RangeSegmentation.cpp:95-103. -/
def Annotation.isAnnotatedWith (a : Annotation) (groupKind segmentKind : Int) : Prop :=
  ∃ t ∈ a.annotations, t.1 = groupKind ∧ segmentKind ∈ t.2

end Verif.RangeTree

import Verif.AstDiff.EagerModel
import Mathlib.Data.List.Sort

/-!
# Model of the tree diff

`SyntaxTree` and `ASTDiff` (src/hstd/ext/astdiff/astdiff.hpp, astdiff.cpp).  Trees are those of EagerModel.lean.
Node indices are natural numbers, the invalid index -1 is `none`.  The vectors of a `Mapping` are functions: they are
resized to the number of nodes of both trees, so no index is out of range (`Verif.AstDiff.mapping_range`).
Costs and distances, which are small whole numbers in `double`s, are natural numbers;
`std::numeric_limits<double>::max()` is a number larger than all of them.  The similarity of two nodes is a fraction.
-/

namespace Verif.AstDiff

/-- `Node` (src/hstd/ext/astdiff/astdiff.hpp:121-143) without the fields that are set later (`LeftMostDescendant`, `Shift`,
`Change`); `ASTNode` is given by number, kind and value. -/
structure Node where
  parent : Option Nat
  rmd : Nat
  depth : Nat
  height : Nat
  subs : List Nat
  id : Nat
  kind : Nat
  val : Nat
deriving DecidableEq, Repr

/-- what `getNode` gives outside of the vector, where `at` throws -/
def Node.none : Node := ⟨.none, 0, 0, 0, [], 0, 0, 0⟩

/-- the fields of `PreorderVisitor` and of the tree it fills (src/hstd/ext/astdiff/astdiff.cpp:8-16); `id` is the number of
nodes so far -/
structure VS where
  nodes : List Node
  leaves : List Nat
  parent : Option Nat
  depth : Nat

/-- `PreTraverse` (src/hstd/ext/astdiff/astdiff.cpp:18-35) -/
def preTraverse (i k v : Nat) (st : VS) : VS :=
  let my := st.nodes.length
  let nodes := st.nodes ++ [⟨st.parent, 0, st.depth, 0, [], i, k, v⟩]
  let nodes := match st.parent with
    | some p => nodes.modify p (fun n => { n with subs := n.subs ++ [my] })
    | none => nodes
  { nodes := nodes, leaves := st.leaves, parent := some my, depth := st.depth + 1 }

/-- `PostTraverse` (src/hstd/ext/astdiff/astdiff.cpp:37-53); `my` and `prev` are the saved state -/
def postTraverse (my : Nat) (prev : Option Nat) (st : VS) : VS :=
  let n := st.nodes[my]?.getD Node.none
  let h := n.subs.foldl (fun h c => max h (1 + (st.nodes[c]?.getD Node.none).height)) 1
  { nodes := st.nodes.modify my (fun n => { n with rmd := st.nodes.length - 1, height := h })
    leaves := if n.subs.isEmpty then st.leaves ++ [my] else st.leaves
    parent := prev
    depth := st.depth - 1 }

mutual
/-- `Traverse` (src/hstd/ext/astdiff/astdiff.cpp:55-61) -/
def traverse : T → VS → VS
  | .node i k v subs, st => postTraverse st.nodes.length st.parent (traverseSubs subs (preTraverse i k v st))
/-- the loop of `Traverse` (src/hstd/ext/astdiff/astdiff.cpp:57-59) -/
def traverseSubs : List T → VS → VS
  | [], st => st
  | t :: ts, st => traverseSubs ts (traverse t st)
end

/-- `Nodes.at` (src/hstd/ext/astdiff/astdiff.hpp:225) -/
def getNode (nodes : List Node) (i : Nat) : Node := nodes[i]?.getD Node.none

/-- update of one place of a vector -/
def upd {α : Type} (f : Nat → α) (i : Nat) (x : α) : Nat → α := fun j => if j = i then x else f j

/-- the `while` of `setLeftMostDescendants` (src/hstd/ext/astdiff/astdiff.hpp:348-352), at most `n` turns up the tree -/
def lmdUp (nodes : List Node) (leaf : Nat) : Nat → Nat → (Nat → Option Nat) → (Nat → Option Nat)
  | 0, _, f => f
  | n + 1, cur, f =>
    match (getNode nodes cur).parent with
    | none => f
    | some p => if (getNode nodes p).subs.head? = some cur then lmdUp nodes leaf n p (upd f p (some leaf)) else f

/-- `setLeftMostDescendants` (src/hstd/ext/astdiff/astdiff.hpp:344-354) -/
def setLmd (nodes : List Node) (leaves : List Nat) : Nat → Option Nat :=
  leaves.foldl (fun f leaf => lmdUp nodes leaf nodes.length leaf (upd f leaf (some leaf))) (fun _ => none)

/-- `getSubtreePostorder` (src/hstd/ext/astdiff/astdiff.cpp:77-86) -/
def postorder (nodes : List Node) : Nat → Nat → List Nat
  | 0, _ => []
  | n + 1, i => (getNode nodes i).subs.flatMap (postorder nodes n) ++ [i]

/-- the loop of `getSubtreeBfs` (src/hstd/ext/astdiff/astdiff.cpp:65-75): the nodes that were not expanded yet -/
def bfsLoop (nodes : List Node) : Nat → List Nat → List Nat
  | 0, _ => []
  | _, [] => []
  | n + 1, i :: queue => i :: bfsLoop nodes n (queue ++ (getNode nodes i).subs)

/-- `SyntaxTree` (src/hstd/ext/astdiff/astdiff.hpp:197-356); `post` are the `PostorderIds`: the position of a node in the
traversal of `initTree`, which is that of `getSubtreePostorder`. -/
structure SynTree where
  nodes : List Node
  leaves : List Nat
  lmd : Nat → Option Nat
  post : Nat → Nat
  bfs : List Nat

/-- `FromNode` with `initTree` (src/hstd/ext/astdiff/astdiff.cpp:404-408, astdiff.hpp:331-342) -/
def fromNode (t : T) : SynTree :=
  let st := traverse t ⟨[], [], none, 0⟩
  { nodes := st.nodes, leaves := st.leaves, lmd := setLmd st.nodes st.leaves
    post := fun i => (postorder st.nodes st.nodes.length 0).idxOf i
    bfs := bfsLoop st.nodes st.nodes.length [0] }

namespace SynTree
/-- `getSize` (src/hstd/ext/astdiff/astdiff.hpp:216) -/
def size (t : SynTree) : Nat := t.nodes.length
/-- `getNode` (src/hstd/ext/astdiff/astdiff.hpp:225) -/
def node (t : SynTree) (i : Nat) : Node := getNode t.nodes i
/-- `getNumberOfDescendants` (src/hstd/ext/astdiff/astdiff.hpp:255-257) -/
def descendants (t : SynTree) (i : Nat) : Nat := (t.node i).rmd - i + 1
/-- `isInSubtree` (src/hstd/ext/astdiff/astdiff.hpp:260-262) -/
def inSubtree (t : SynTree) (i root : Nat) : Bool := root ≤ i && i ≤ (t.node root).rmd
end SynTree

/-- `Mapping` (src/hstd/ext/astdiff/astdiff.hpp:41-65) -/
structure Mapping where
  dst : Nat → Option Nat
  src : Nat → Option Nat

/-- an empty mapping -/
def Mapping.empty : Mapping := ⟨fun _ => none, fun _ => none⟩
/-- `link` (src/hstd/ext/astdiff/astdiff.hpp:52-55) -/
def Mapping.link (m : Mapping) (s d : Nat) : Mapping := ⟨upd m.dst s (some d), upd m.src d (some s)⟩

/-- `ComparisonOptions` (src/hstd/ext/astdiff/astdiff.hpp:83-115); `MinSimilarity` is the fraction `minSim.1 / minSim.2` -/
structure Options where
  minHeight : Int := 2
  minSim : Nat × Nat := (1, 2)
  maxSize : Int := 100
  stopAfterTopDown : Bool := false
  deletionCost : Nat := 1
  insertionCost : Nat := 1
  greedy : Bool := false
  allowed : Node → Node → Bool
  valuesEqual : Node → Node → Bool
  updateCost : Node → Node → Nat := fun _ _ => 1

section
variable (o : Options) (S D : SynTree)

/-- `isMatchingPossible` (src/hstd/ext/astdiff/astdiff.hpp:559-561) -/
def possible (a b : Nat) : Bool := o.allowed (S.node a) (D.node b)

/-- `identical` (src/hstd/ext/astdiff/astdiff.cpp:286-297) -/
def identical : Nat → Nat → Nat → Bool
  | 0, _, _ => false
  | n + 1, a, b =>
    (S.node a).subs.length == (D.node b).subs.length && possible o S D a b && o.valuesEqual (S.node a) (D.node b) &&
      ((S.node a).subs.zip (D.node b).subs).all (fun p => identical n p.1 p.2)

/-- `PriorityList::peekMax` (src/hstd/ext/astdiff/astdiff.hpp:770-773) -/
def peekMax (t : SynTree) (l : List Nat) : Nat := l.foldl (fun h i => max h (t.node i).height) 0

/-- `PriorityList::pop` (src/hstd/ext/astdiff/astdiff.hpp:756-767): the nodes of the largest height in the order of their
indices, and the rest.  The order inside of the queue cannot be observed. -/
def popMax (t : SynTree) (l : List Nat) : List Nat × List Nat :=
  if peekMax t l = 0 then ([], l)
  else ((l.filter (fun i => (t.node i).height = peekMax t l)).insertionSort (· ≤ ·),
    l.filter (fun i => (t.node i).height ≠ peekMax t l))

/-- `PriorityList::open` for all nodes of a list (src/hstd/ext/astdiff/astdiff.hpp:776-778) -/
def openAll (t : SynTree) (rest l : List Nat) : List Nat := rest ++ l.flatMap (fun i => (t.node i).subs)

/-- linking two subtrees of the same shape (src/hstd/ext/astdiff/astdiff.cpp:177-179) -/
def linkAll (a b : Nat) : Nat → Mapping → Mapping
  | 0, m => m
  | n + 1, m => (linkAll a b n m).link (a + n) (b + n)

/-- the pair of loops over two forests of the same height (src/hstd/ext/astdiff/astdiff.cpp:172-182) -/
def matchForests (h1 h2 : List Nat) (m : Mapping) : Mapping :=
  h1.foldl (fun m a => h2.foldl (fun m b =>
    if identical o S D S.size a b && (m.dst a).isNone && (m.src b).isNone then linkAll a b (S.descendants a) m else m) m) m

/-- the loop of `matchTopDown` (src/hstd/ext/astdiff/astdiff.cpp:157-200), at most `n` turns; `none` when they do not
suffice -/
def topDownLoop : Nat → List Nat → List Nat → Mapping → Option Mapping
  | 0, _, _, _ => none
  | n + 1, l1, l2, m =>
    let max1 := peekMax S l1
    let max2 := peekMax D l2
    if ((min max1 max2 : Nat) : Int) > o.minHeight then
      if max1 > max2 then topDownLoop n (openAll S (popMax S l1).2 (popMax S l1).1) l2 m
      else if max2 > max1 then topDownLoop n l1 (openAll D (popMax D l2).2 (popMax D l2).1) m
      else
        let h1 := (popMax S l1).1
        let h2 := (popMax D l2).1
        let m' := matchForests o S D h1 h2 m
        topDownLoop n (openAll S (popMax S l1).2 (h1.filter (fun a => (m'.dst a).isNone)))
          (openAll D (popMax D l2).2 (h2.filter (fun b => (m'.src b).isNone))) m'
    else some m

/-- `matchTopDown` (src/hstd/ext/astdiff/astdiff.cpp:151-201) -/
def matchTopDown (n : Nat) : Option Mapping := topDownLoop o S D n [0] [0] Mapping.empty

/-- `CommonDescendants` in `getJaccardSimilarity` (src/hstd/ext/astdiff/astdiff.cpp:254-260) -/
def common (m : Mapping) (a b : Nat) : Nat :=
  (List.range ((S.node a).rmd - a)).countP (fun i =>
    match m.dst (a + 1 + i) with
    | some x => D.inSubtree x b
    | none => false)

/-- `getJaccardSimilarity` (src/hstd/ext/astdiff/astdiff.cpp:253-269) as a fraction -/
def similarity (m : Mapping) (a b : Nat) : Nat × Nat :=
  let c := common S D m a b
  let den := (S.descendants a - 1) + (D.descendants b - 1) - c
  if den = 0 then (0, 1) else (c, den)

/-- one turn of the loop of `findCandidate` (src/hstd/ext/astdiff/astdiff.cpp:241-249) -/
def candidateStep (m : Mapping) (a : Nat) (st : Option Nat × (Nat × Nat)) (b : Nat) : Option Nat × (Nat × Nat) :=
  if !possible o S D a b then st
  else if (m.src b).isSome then st
  else
    let s := similarity S D m a b
    if o.minSim.1 * s.2 ≤ s.1 * o.minSim.2 && s.1 * st.2.2 > st.2.1 * s.2 then (some b, s) else st

/-- `findCandidate` (src/hstd/ext/astdiff/astdiff.cpp:238-251) -/
def findCandidate (m : Mapping) (a : Nat) : Option Nat :=
  ((List.range D.size).foldl (candidateStep o S D m a) (none, (0, 1))).1

/-! ### The algorithm of Zhang and Shasha -/

/-- `Subtree` (src/hstd/ext/astdiff/astdiff.hpp:606-676): the nodes in postorder, the leftmost descendants and the key
roots; nodes are counted from one. -/
structure Sub where
  rootIds : List Nat
  lmds : List Nat
  keyRoots : List Nat

/-- `computeKeyRoots` (src/hstd/ext/astdiff/astdiff.hpp:663-675): from the last node to the first, those whose leftmost
descendant was not seen before; filled from the end. -/
def keyRootsLoop (lmds : List Nat) : Nat → List Nat → List Nat → List Nat
  | 0, _, acc => acc
  | i + 1, seen, acc =>
    let l := (lmds[i]?.getD 0)
    if seen.contains l then keyRootsLoop lmds i seen acc else keyRootsLoop lmds i (l :: seen) ((i + 1) :: acc)

/-- the constructor of `Subtree` (src/hstd/ext/astdiff/astdiff.hpp:618-622, 645-661) -/
def Sub.make (t : SynTree) (root : Nat) : Sub :=
  let ids := postorder t.nodes t.size root
  let off := t.post (ids.headD 0)
  let lmds := ids.map (fun i => t.post ((t.lmd i).getD 0) - off)
  { rootIds := ids, lmds := lmds, keyRoots := keyRootsLoop lmds ids.length [] [] }

/-- `getSize` (src/hstd/ext/astdiff/astdiff.hpp:624) -/
def Sub.size (s : Sub) : Nat := s.rootIds.length
/-- `getIdInRoot` (src/hstd/ext/astdiff/astdiff.hpp:626-629) -/
def Sub.idInRoot (s : Sub) (i : Nat) : Nat := s.rootIds[i - 1]?.getD 0
/-- `getLeftMostDescendant` (src/hstd/ext/astdiff/astdiff.hpp:633-636) -/
def Sub.lmd (s : Sub) (i : Nat) : Nat := s.lmds[i - 1]?.getD 0

/-- `ForestDist` and `TreeDist` (src/hstd/ext/astdiff/astdiff.hpp:686) -/
structure Tab where
  fd : Nat → Nat → Nat
  td : Nat → Nat → Nat

/-- assignment to one place of a table -/
def set2 (f : Nat → Nat → Nat) (i j v : Nat) : Nat → Nat → Nat := fun a b => if a = i ∧ b = j then v else f a b

/-- `std::numeric_limits<double>::max()` -/
def doubleMax : Nat := 2 ^ 1024 - 2 ^ 971

variable (S1 S2 : Sub)

/-- `ZhangShashaMatcher::getUpdateCost` (src/hstd/ext/astdiff/astdiff.hpp:716-726) -/
def zsUpdate (i j : Nat) : Nat :=
  let a := S1.idInRoot i
  let b := S2.idInRoot j
  if !possible o S D a b then doubleMax
  else if o.valuesEqual (S.node a) (D.node b) then 0
  else o.updateCost (S.node a) (D.node b)

/-- the body of the inner loop of `computeForestDist` (src/hstd/ext/astdiff/astdiff.cpp:379-395) -/
def fdCell (l1 l2 d1 d2 : Nat) (t : Tab) : Tab :=
  let fd := set2 t.fd l1 d2 (t.fd l1 (d2 - 1) + o.insertionCost)
  let dl1 := S1.lmd d1
  let dl2 := S2.lmd d2
  if dl1 = l1 ∧ dl2 = l2 then
    let v := min (fd (d1 - 1) d2 + o.deletionCost)
      (min (fd d1 (d2 - 1) + o.insertionCost) (fd (d1 - 1) (d2 - 1) + zsUpdate o S D S1 S2 d1 d2))
    { fd := set2 fd d1 d2 v, td := set2 t.td d1 d2 v }
  else
    let v := min (fd (d1 - 1) d2 + o.deletionCost) (min (fd d1 (d2 - 1) + o.insertionCost) (fd dl1 dl2 + t.td d1 d2))
    { fd := set2 fd d1 d2 v, td := t.td }

/-- the inner loop of `computeForestDist` (src/hstd/ext/astdiff/astdiff.cpp:379-396): the first `n` columns -/
def fdRow (l1 l2 d1 : Nat) : Nat → Tab → Tab
  | 0, t => t
  | n + 1, t => fdCell o S D S1 S2 l1 l2 d1 (l2 + n + 1) (fdRow l1 l2 d1 n t)

/-- the outer loop of `computeForestDist` (src/hstd/ext/astdiff/astdiff.cpp:377-397): the first `n` rows of `w` columns -/
def fdRows (l1 l2 w : Nat) : Nat → Tab → Tab
  | 0, t => t
  | n + 1, t =>
    let t := fdRows l1 l2 w n t
    let d1 := l1 + n + 1
    fdRow o S D S1 S2 l1 l2 d1 w { t with fd := set2 t.fd d1 l2 (t.fd (d1 - 1) l2 + o.deletionCost) }

/-- `computeForestDist` (src/hstd/ext/astdiff/astdiff.cpp:372-402) -/
def forestDist (i1 i2 : Nat) (t : Tab) : Tab :=
  let l1 := S1.lmd i1
  let l2 := S2.lmd i2
  fdRows o S D S1 S2 l1 l2 (i2 - l2) (i1 - l1) { t with fd := set2 t.fd l1 l2 0 }

/-- `computeTreeDist` (src/hstd/ext/astdiff/astdiff.hpp:728-732) -/
def treeDist (t : Tab) : Tab :=
  S1.keyRoots.foldl (fun t i => S2.keyRoots.foldl (fun t j => forestDist o S D S1 S2 i j t) t) t

/-- the inner loop of `getMatchingNodes` (src/hstd/ext/astdiff/astdiff.cpp:320-367): the matches and the pairs of subtrees
found on the way back from `(row, col)`.  `none`: more than `n` turns, or a failed assertion of
`getLeftMostDescendant`. -/
def back (fd : Nat → Nat → Nat) (lastRow lastCol firstRow firstCol : Nat) :
    Nat → Nat → Nat → Option (List (Nat × Nat) × List (Nat × Nat))
  | 0, _, _ => none
  | n + 1, row, col =>
    if row > firstRow ∨ col > firstCol then
      if row > firstRow ∧ fd (row - 1) col + 1 = fd row col then back fd lastRow lastCol firstRow firstCol n (row - 1) col
      else if col > firstCol ∧ fd row (col - 1) + 1 = fd row col then
        back fd lastRow lastCol firstRow firstCol n row (col - 1)
      else if row = 0 ∨ col = 0 then none
      else if S1.lmd row = S1.lmd lastRow ∧ S2.lmd col = S2.lmd lastCol then
        match back fd lastRow lastCol firstRow firstCol n (row - 1) (col - 1) with
        | some (ms, ps) => some ((S1.idInRoot row, S2.idInRoot col) :: ms, ps)
        | none => none
      else
        match back fd lastRow lastCol firstRow firstCol n (S1.lmd row) (S2.lmd col) with
        | some (ms, ps) => some (ms, (row, col) :: ps)
        | none => none
    else some ([], [])

/-- the outer loop of `getMatchingNodes` (src/hstd/ext/astdiff/astdiff.cpp:309-368); the stack has its top at the head -/
def matchPairs (inner : Nat) : Nat → Bool → List (Nat × Nat) → Tab → Option (List (Nat × Nat))
  | 0, _, _, _ => none
  | _ + 1, _, [], _ => some []
  | n + 1, first, (row, col) :: stack, t =>
    let t := if first then t else forestDist o S D S1 S2 row col t
    match back S1 S2 t.fd row col (S1.lmd row) (S2.lmd col) inner row col with
    | none => none
    | some (ms, ps) =>
      match matchPairs inner n false (ps.reverse ++ stack) t with
      | none => none
      | some rest => some (ms ++ rest)

/-- `getMatchingNodes` (src/hstd/ext/astdiff/astdiff.cpp:299-370) -/
def matchingNodes (fuel : Nat) : Option (List (Nat × Nat)) :=
  matchPairs o S D S1 S2 fuel fuel true [(S1.size, S2.size)] (treeDist o S D S1 S2 ⟨fun _ _ => 0, fun _ _ => 0⟩)

end

section
variable (o : Options) (S D : SynTree)

/-- `addOptimalMapping` (src/hstd/ext/astdiff/astdiff.cpp:271-284) -/
def addOptimal (fuel : Nat) (m : Mapping) (a b : Nat) : Option Mapping :=
  if ((max (S.descendants a) (D.descendants b) : Nat) : Int) > o.maxSize then some m
  else
    match matchingNodes o S D (Sub.make S a) (Sub.make D b) fuel with
    | none => none
    | some ps => some (ps.foldl (fun m p => if (m.dst p.1).isNone && (m.src p.2).isNone then m.link p.1 p.2 else m) m)

/-- the loop of `matchBottomUp` (src/hstd/ext/astdiff/astdiff.cpp:207-235) -/
def bottomUpLoop (fuel : Nat) : List Nat → Mapping → Option Mapping
  | [], m => some m
  | a :: rest, m =>
    if a = 0 ∧ (m.dst 0).isNone ∧ (m.src 0).isNone then
      if possible o S D 0 0 then addOptimal o S D fuel (m.link 0 0) 0 0 else some m
    else if (m.dst a).isSome ∨ ¬ (S.node a).subs.any (fun c => (m.dst c).isSome) then bottomUpLoop fuel rest m
    else
      match findCandidate o S D m a with
      | none => bottomUpLoop fuel rest m
      | some b =>
        match addOptimal o S D fuel (m.link a b) a b with
        | none => none
        | some m => bottomUpLoop fuel rest m

/-- `matchBottomUp` (src/hstd/ext/astdiff/astdiff.cpp:203-236) -/
def matchBottomUp (fuel : Nat) (m : Mapping) : Option Mapping :=
  bottomUpLoop o S D fuel (postorder S.nodes S.size 0) m

/-- `computeMapping` (src/hstd/ext/astdiff/astdiff.hpp:528-541); `greedyMatchTopDown` defines a function and does not call
it, so its mapping is empty (src/hstd/ext/astdiff/astdiff.cpp:131-149).  `fuel` bounds each loop. -/
def computeMapping (fuel : Nat) : Option Mapping :=
  match if o.greedy then some Mapping.empty else matchTopDown o S D fuel with
  | none => none
  | some m => if o.stopAfterTopDown then some m else matchBottomUp o S D fuel m

/-! ### The changes -/

/-- `ChangeKind` (src/hstd/ext/astdiff/astdiff.hpp:67-76) -/
inductive Change where
  | none | delete | update | insert | move | updateMove
deriving DecidableEq, Repr

/-- `Change` and `Shift` of the nodes of both trees -/
structure Marks where
  chS : Nat → Change
  chD : Nat → Change
  shS : Nat → Int
  shD : Nat → Int

/-- the loop of `findPositionInParent` (src/hstd/ext/astdiff/astdiff.hpp:317-323) -/
def positionLoop (sh : Nat → Int) (x : Nat) : Int → Int → List Nat → Option Int
  | _, _, [] => none
  | pos, i, c :: cs => if c = x then some (pos + sh c + i) else positionLoop sh x (pos + sh c) (i + 1) cs

/-- `findPositionInParent` (src/hstd/ext/astdiff/astdiff.hpp:312-327), `none` for the failed assertion; not shifted when
`sh` is zero -/
def position (t : SynTree) (sh : Nat → Int) (x : Nat) : Option Int :=
  match (t.node x).parent with
  | none => some 0
  | some p => positionLoop sh x 0 0 (t.node p).subs

/-- `haveSameParents` (src/hstd/ext/astdiff/astdiff.hpp:564-569) -/
def sameParents (m : Mapping) (a b : Nat) : Bool :=
  match (S.node a).parent, (D.node b).parent with
  | none, none => true
  | some p, some q => m.dst p == some q
  | _, _ => false

/-- the test for a moved node, used twice in `computeChangeKinds` (src/hstd/ext/astdiff/astdiff.cpp:105-107, 118-120) -/
def isMoved (m : Mapping) (k : Marks) (a b : Nat) : Bool :=
  !sameParents S D m a b || position S k.shS a != position D k.shD b

/-- the first two loops of `computeChangeKinds` (src/hstd/ext/astdiff/astdiff.cpp:90-101) -/
def markUnmatched (m : Mapping) : Marks where
  chS := fun i => if i < S.size ∧ (m.dst i).isNone then .delete else .none
  chD := fun i => if i < D.size ∧ (m.src i).isNone then .insert else .none
  shS := fun i => if i < S.size ∧ (m.dst i).isNone then -1 else 0
  shD := fun i => if i < D.size ∧ (m.src i).isNone then -1 else 0

/-- the third loop of `computeChangeKinds` (src/hstd/ext/astdiff/astdiff.cpp:102-111) -/
def shiftStep (m : Mapping) (k : Marks) (a : Nat) : Marks :=
  match m.dst a with
  | none => k
  | some b =>
    if isMoved S D m k a b then { k with shS := upd k.shS a (k.shS a - 1), shD := upd k.shD b (k.shD b - 1) } else k

/-- the fourth loop of `computeChangeKinds` (src/hstd/ext/astdiff/astdiff.cpp:112-128) -/
def changeStep (m : Mapping) (k : Marks) (b : Nat) : Marks :=
  match m.src b with
  | none => k
  | some a =>
    let k := if isMoved S D m k a b then { k with chS := upd k.chS a .move, chD := upd k.chD b .move } else k
    if !o.valuesEqual (S.node a) (D.node b) then
      let c := if k.chS a = .move then Change.updateMove else .update
      { k with chS := upd k.chS a c, chD := upd k.chD b c }
    else k

/-- `computeChangeKinds` (src/hstd/ext/astdiff/astdiff.cpp:89-129) -/
def changeKinds (m : Mapping) : Marks :=
  D.bfs.foldl (changeStep o S D m) (S.bfs.foldl (shiftStep S D m) (markUnmatched S D m))

end

/-- the result of the constructor of `ASTDiff` (src/hstd/ext/astdiff/astdiff.hpp:438-442) for two trees made by `FromNode` -/
def astDiff (o : Options) (s d : T) (fuel : Nat) : Option (Mapping × Marks) :=
  match computeMapping o (fromNode s) (fromNode d) fuel with
  | none => none
  | some m => some (m, changeKinds o (fromNode s) (fromNode d) m)

end Verif.AstDiff

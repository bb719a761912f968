/-!
# Model of the eager tree diff

`hstd::ext::diff::getEdits` (src/hstd/ext/astdiff/astdiff_eager.cpp).  The two `NodeStore`s
(src/hstd/ext/astdiff/common.hpp:47-79) are modelled by finite trees whose nodes carry the number the store
gives them, their kind and their value.  `areValuesEqual` is an arbitrary function of two node numbers; the logging
is left out.
-/

namespace Verif.AstDiff

/-- A node as a `NodeStore` shows it: `NodeStore::Id`, `getNodeKind`, the value compared by the caller, and
the subnodes in the order of `getSubnodeAt` (src/hstd/ext/astdiff/common.hpp:47-79) -/
inductive T where
  | node (id kind val : Nat) (subs : List T)

namespace T
/-- `NodeStore::Id` of the node (src/hstd/ext/astdiff/common.hpp:48-70) -/
def id : T → Nat | node i _ _ _ => i
/-- `getNodeKind` (src/hstd/ext/astdiff/common.hpp:75) -/
def kind : T → Nat | node _ k _ _ => k
/-- the value of the node, which only `areValuesEqual` looks at -/
def val : T → Nat | node _ _ v _ => v
/-- `getSubnodes` (src/hstd/ext/astdiff/astdiff_eager.cpp:39-47) -/
def subs : T → List T | node _ _ _ s => s
end T

/-- `DiaEdit` (src/hstd/ext/astdiff/astdiff_eager.hpp:15-81) -/
inductive Edit where
  | insert (dst dstIndex : Nat)
  | delete (src srcIndex : Nat)
  | move (src dst srcIndex dstIndex : Nat)
  | update (src dst srcIndex dstIndex : Nat)
deriving DecidableEq, Repr

/-- `MatchCandidate` (src/hstd/ext/astdiff/astdiff_eager.cpp:26-31) -/
structure Cand where
  srcIndex : Nat
  isExact : Bool
  isMove : Bool
deriving DecidableEq, Repr

/-- the three optional candidates of `findBestMatch` (src/hstd/ext/astdiff/astdiff_eager.cpp:94-96) -/
structure Best where
  exactMatch : Option Cand
  idMatch : Option Cand
  moveCand : Option Cand
deriving DecidableEq, Repr

section
variable (eq : Nat → Nat → Bool)

/-- `countUnprocessedMatching` (src/hstd/ext/astdiff/astdiff_eager.cpp:49-58) -/
def countUnprocessed (needle : Nat) (haystack : List T) (processed : List Nat) : Nat :=
  (haystack.filter (fun x => !processed.contains x.id && eq x.id needle)).length

/-- `findMatchingByKind` (src/hstd/ext/astdiff/astdiff_eager.cpp:60-72), from index `i` on -/
def byKind (dst : T) (processed : List Nat) : Nat → List T → Option Nat
  | _, [] => none
  | i, s :: rest => if !processed.contains s.id && s.kind == dst.kind then some i else byKind dst processed (i + 1) rest

/-- one turn of the loop of `findBestMatch` (src/hstd/ext/astdiff/astdiff_eager.cpp:98-133) -/
def bestStep (dst : T) (dstIndex : Nat) (processed : List Nat) (i : Nat) (s : T) (b : Best) : Best :=
  if processed.contains s.id || s.kind != dst.kind then b
  else if eq s.id dst.id then
    if i != dstIndex then
      match b.moveCand with
      | none => { b with moveCand := some ⟨i, true, true⟩ }
      | some c => if !c.isExact then { b with moveCand := some ⟨i, true, true⟩ } else b
    else { b with exactMatch := some ⟨i, true, false⟩ }
  else if b.exactMatch.isNone && b.idMatch.isNone then { b with idMatch := some ⟨i, false, i != dstIndex⟩ }
  else b

/-- the loop of `findBestMatch` (src/hstd/ext/astdiff/astdiff_eager.cpp:98-133), from index `i` on -/
def bestLoop (dst : T) (dstIndex : Nat) (processed : List Nat) : Nat → List T → Best → Best
  | _, [], b => b
  | i, s :: rest, b => bestLoop dst dstIndex processed (i + 1) rest (bestStep eq dst dstIndex processed i s b)

/-- `findBestMatch` (src/hstd/ext/astdiff/astdiff_eager.cpp:84-159) -/
def findBest (dst : T) (dstIndex : Nat) (srcs : List T) (processed : List Nat) : Option Cand :=
  let b := bestLoop eq dst dstIndex processed 0 srcs ⟨none, none, none⟩
  match b.moveCand with
  | some ⟨i, true, m⟩ => some ⟨i, true, m⟩
  | _ =>
    match b.exactMatch with
    | some c => some c
    | none =>
      match b.idMatch with
      | some c => some c
      | none =>
        match byKind dst processed 0 srcs with
        | some i => some ⟨i, false, i != dstIndex⟩
        | none => none

/-- the edit made for a matched pair in `processMatchedSubnodes` (src/hstd/ext/astdiff/astdiff_eager.cpp:171-207) -/
def pairEdit (s d : T) (i j : Nat) : List Edit :=
  if eq s.id d.id then
    if i != j then [.move s.id d.id i j] else []
  else [.update s.id d.id i j]

/-- `processedSrc`, `processedDst` and `results` while `diffSubnodes` runs -/
structure St where
  pS : List Nat
  pD : List Nat
  out : List Edit

/-- the loop over the destination subnodes of `diffSubnodes` with `recurseMatchCandidate` and
`processMatchedSubnodes` in place (src/hstd/ext/astdiff/astdiff_eager.cpp:161-254, 280-317); `recur` is the
call of `diffSubnodes` for a matched pair.  `srcSubnodes.at(i)` with `i` out of range (which throws) leaves the
state as it is: it cannot happen, see `findBest_range`. -/
def dstLoop (recur : T → T → List Edit) (srcs dsts : List T) : Nat → List T → St → St
  | _, [], st => st
  | j, d :: rest, st =>
    if st.pD.contains d.id then dstLoop recur srcs dsts (j + 1) rest st
    else
      let st' :=
        match findBest eq d j srcs st.pS with
        | none => { st with out := st.out ++ [.insert d.id j], pD := d.id :: st.pD }
        | some c =>
          if countUnprocessed eq d.id dsts st.pD > countUnprocessed eq d.id srcs st.pS then
            { st with out := st.out ++ [.insert d.id j], pD := d.id :: st.pD }
          else
            match srcs[c.srcIndex]? with
            | none => st
            | some s =>
              { pS := s.id :: st.pS, pD := d.id :: st.pD
                out := st.out ++ recur s d ++ pairEdit eq s d c.srcIndex j }
      dstLoop recur srcs dsts (j + 1) rest st'

/-- the loop over the source subnodes of `diffSubnodes` (src/hstd/ext/astdiff/astdiff_eager.cpp:319-329) -/
def deletes (processed : List Nat) : Nat → List T → List Edit
  | _, [] => []
  | i, s :: rest =>
    (if processed.contains s.id then [] else [.delete s.id i]) ++ deletes processed (i + 1) rest

/-- `diffSubnodes` (src/hstd/ext/astdiff/astdiff_eager.cpp:256-330); the first argument bounds the depth of the
recursion, which goes down in the source tree. -/
def diffSub : Nat → T → T → List Edit
  | 0, _, _ => []
  | n + 1, s, d =>
    if s.subs.isEmpty && d.subs.isEmpty then []
    else if s.kind != d.kind then []
    else
      let st := dstLoop eq (diffSub n) s.subs d.subs 0 d.subs ⟨[], [], []⟩
      st.out ++ deletes st.pS 0 s.subs

mutual
/-- the height of a tree, which bounds the recursion of `diffSub` -/
def T.height : T → Nat
  | .node _ _ _ subs => heights subs + 1
/-- the largest height in a list of trees -/
def heights : List T → Nat
  | [] => 0
  | t :: ts => max t.height (heights ts)
end

/-- `getEdits` with `EagerAstDiff::run` (src/hstd/ext/astdiff/astdiff_eager.cpp:332-367) -/
def getEdits (s d : T) : List Edit :=
  diffSub eq s.height s d ++ (if !eq s.id d.id then [.update s.id d.id 0 0] else [])

end

end Verif.AstDiff

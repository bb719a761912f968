import Verif.Eval.Model
import Verif.Imm.Spec

/-!
# What evaluating a document should do, on documents
-/

namespace Verif.Eval

open Verif.Imm

variable {D : Type}

/-- the children of a node with their places -/
def kidList : {b : Bool} → Tree D b → List (Step × Tree D true)
  | true, .node _ _ _ ks => kidList ks
  | false, .nil => []
  | false, .cons st t rest => (st, t) :: kidList rest

/-- the children as a part of a document -/
def ofKids : List (Step × Tree D true) → Tree D false
  | [] => .nil
  | k :: ks => .cons k.1 k.2 (ofKids ks)

/-- the children in one field -/
def results (f : Nat) (ks : Tree D false) : List (Tree D true) :=
  ((kidList ks).filter (fun k => decide (k.1.field = f))).map (·.2)

/-- the children with other ones in one field, which holds a vector -/
def withResults (f : Nat) (ks : Tree D false) (ts : List (Tree D true)) : Tree D false :=
  ofKids ((kidList ks).filter (fun k => decide (k.1.field < f)) ++ ts.mapIdx (fun i t => (⟨f, .idx i⟩, t)) ++
    (kidList ks).filter (fun k => decide (f < k.1.field)))

/-- the results of a block together with a new one -/
def combined {X : Type} (old : List X) (x : X) : Handling → List X
  | .append => old ++ [x]
  | .prepend => x :: old
  | .replace => [x]
  | .none => old
  | .silent => old
  | .discard => old

/-- a block with a new result -/
def placed (K : Kinds) (h : Handling) (out : Tree D true) : Tree D true → Tree D true
  | .node k d l ks => .node k d l (withResults (K.resField k) ks (combined (results (K.resField k) ks) out h))

/-- the positions of the blocks and calls, in the order of the document -/
def codePositions (K : Kinds) : {b : Bool} → List Step → Tree D b → List (List Step)
  | true, p, .node k _ _ ks => (if K.isCode k then [p] else []) ++ codePositions K p ks
  | false, _, .nil => []
  | false, p, .cons st t rest => codePositions K (p ++ [st]) t ++ codePositions K p rest

/-- the document with the given results in all blocks -/
def withAll (K : Kinds) (outs : List Step → Option (Handling × Tree D true)) :
    {b : Bool} → List Step → Tree D b → Tree D b
  | true, p, .node k d l ks =>
    match outs p with
    | some (h, out) => placed K h out (.node k d l (withAll K outs p ks))
    | none => .node k d l (withAll K outs p ks)
  | false, _, .nil => .nil
  | false, p, .cons st t rest => .cons st (withAll K outs (p ++ [st]) t) (withAll K outs p rest)

/-- what was evaluated, at which position -/
abbrev Log (D : Type) := List (List Step × Option (Handling × Tree D true))

/-- the positions and the outputs of a run -/
def posLog (out : List (Uniq × Option (Handling × Tree D true))) : Log D := out.map (fun e => (e.1.path, e.2))

/-- the output for a position -/
def outAt (log : Log D) (p : List Step) : Option (Handling × Tree D true) :=
  (log.find? (fun e => decide (e.1 = p))).bind (·.2)

/-- one position with a new part -/
def putAt (p : List Step) (t : Tree D true) (q : List Step) : Option (Tree D true) := if q = p then some t else none

/-- the first output that changes its block: the position and the changed block -/
def firstChange [DecidableEq D] (K : Kinds) (doc : Tree D true) : Log D → Option (List Step × Tree D true)
  | [] => none
  | (_, none) :: rest => firstChange K doc rest
  | (p, some (h, out)) :: rest =>
    match subtree? doc p with
    | none => firstChange K doc rest
    | some u =>
      if strip (placed K h out u) = strip u then firstChange K doc rest else some (p, placed K h out u)

/-- the document with at most one position changed -/
def withChange (doc : Tree D true) : Option (List Step × Tree D true) → Tree D true
  | none => doc
  | some (p, t) => substitute (putAt p t) [] doc

/-- the kinds of roots -/
def isRoot : Tree D true → Bool
  | .node k _ _ _ => decide (k = .Document ∨ k = .DocumentGroup)

end Verif.Eval

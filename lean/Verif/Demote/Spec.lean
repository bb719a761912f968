import Verif.Demote.Model
import Verif.Eval.Spec
import Mathlib.Data.List.Forall2

/-!
# What moving a subtree should do, on documents

A document is looked at as the list of its lines: headlines, and everything else as it is.  The nesting of the headlines
is determined by their levels.
-/

namespace Verif.Demote

open Verif.Imm
open Verif.Eval (kidList ofKids results withResults putAt)

variable {E : Type}

/-- a line of a document: a headline with its level, its other values and what it has besides of subnodes (title, ..),
or another node -/
inductive Line (E : Type) where
  | head (level : Int) (rest : E) (fields : List (Step × Tree (Data E) true))
  | body (t : Tree (Data E) true)

/-- one star more -/
def Line.demote : Line E → Line E
  | .head l r f => .head (l + 1) r f
  | .body t => .body t

/-- what a node has besides of subnodes -/
def fields (ks : Tree (Data E) false) : List (Step × Tree (Data E) true) :=
  (kidList ks).filter (fun k => decide (k.1.field ≠ 0))

/-- the lines of a part of a document at a position, each with its position -/
def lines : {b : Bool} → List Step → Tree (Data E) b → List (List Step × Line E)
  | true, p, .node k d l ks =>
    if k = .Subtree then (p, .head d.1 d.2 (fields ks)) :: lines p ks else [(p, .body (.node k d l ks))]
  | false, _, .nil => []
  | false, p, .cons st t rest => (if st.field = 0 then lines (p ++ [st]) t else []) ++ lines p rest

/-- the lines of a document -/
def docLines : Tree (Data E) true → List (List Step × Line E)
  | .node _ _ _ ks => lines [] ks

/-- the level of a subtree -/
def levelOf : Tree (Data E) true → Option Int
  | .node k d _ _ => if k = .Subtree then some d.1 else none

/-- The nesting agrees with the levels: what is below a headline has a higher level, and what comes after a headline
and is not below it is a headline with a level that is not higher. -/
def Nested : {b : Bool} → Option Int → Tree (Data E) b → Prop
  | true, _, .node k d _ ks => Nested (if k = .Subtree then some d.1 else none) ks
  | false, _, .nil => True
  | false, above, .cons st t rest =>
    (st.field = 0 →
      (∀ a l, above = some a → levelOf t = some l → a < l) ∧
      (∀ l, levelOf t = some l → ∀ u ∈ results 0 rest, ∃ l', levelOf u = some l' ∧ l' ≤ l) ∧
      Nested none t) ∧
    Nested above rest

/-- the document and all headlines below it are subtrees -/
def OnlyHeadlines : {b : Bool} → Tree (Data E) b → Prop
  | true, .node k _ _ ks => k = .Subtree ∧ OnlyHeadlines ks
  | false, .nil => True
  | false, .cons st t rest => (st.field = 0 → OnlyHeadlines t) ∧ OnlyHeadlines rest

/-- the document itself, without its outline -/
def docHead : Tree (Data E) true → Kind × Data E × List (Step × Tree (Data E) true)
  | .node k d _ ks => (k, d, fields ks)

/-- the level of the headline at a position -/
def levelAt (T : Tree (Data E) true) (p : List Step) : Option Int := (subtree? T p).bind levelOf

/-- The headlines that get one star more when the one at `p` is demoted – as described in
src/haxorg/imm/ImmOrgEdit.hpp:10-35: only that one, that one and all below it, or that one and those below it that
would have the level of the headline above them otherwise. -/
def Changes (T : Tree (Data E) true) (p : List Step) : Move → List Step → Prop
  | .physical, x => x = p
  | .force, x => p <+: x
  | .ensure, x => p <+: x ∧ ∀ q, p <+: q → q <+: x → q ≠ p →
      ∀ a b, levelAt T q.dropLast = some a → levelAt T q = some b → b = a + 1

/-- What demoting the headline at `p` should give: the lines of the document in the same order, with one star more for
some of them, nested as their levels say. -/
structure Demoted (move : Move) (T : Tree (Data E) true) (p : List Step) (T' : Tree (Data E) true) : Prop where
  doc : docHead (strip T') = docHead (strip T)
  nested : Nested none T'
  lines : List.Forall₂ (fun x y => (Changes T p move x.1 → y = x.2.demote) ∧ (¬ Changes T p move x.1 → y = x.2))
    (docLines (strip T)) ((docLines (strip T')).map (·.2))

end Verif.Demote

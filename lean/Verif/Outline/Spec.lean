import Verif.NodeGroup.Spec
import Verif.Outline.Model

/-!
# What the outline pass should do

A parsed document is a flat sequence of items: headlines and body material.
-/

namespace Verif.Outline.Spec
open Verif.NodeGroup Verif.NodeGroup.Spec

variable {M : Type}

/-- An item of the flat document. -/
inductive Item (M : Type) where
  /-- material that is not a headline -/
  | body (f : Forest Kind M)
  /-- a headline: its star token, and its other header fields -/
  | head (k : Kind) (stars : Nat) (fields : Forest Kind M)

/-- No node of the given kind occurs in the forest as an inner or leaf node. -/
def Without (k : Kind) : Forest Kind M → Prop
  | .nil => True
  | .leaf k' _ r => k' ≠ k ∧ Without k r
  | .tree k' c r => k' ≠ k ∧ Without k c ∧ Without k r

/-- No inner node is of the given kind. -/
def NoInner (k : Kind) : Forest Kind M → Prop
  | .nil => True
  | .leaf _ _ r => NoInner k r
  | .tree k' c r => k' ≠ k ∧ NoInner k c ∧ NoInner k r

/-- Shape of items produced by the parser: headers have the star token (with at
least one star) and seven more fields, headlines occur only as items, and inner
nodes are not of kind `Empty`. -/
def Item.Ok (textLen : Nat → Nat) : Item M → Prop
  | .body f => Without .subtree f ∧ NoInner .empty f
  | .head k stars fields =>
    k ≠ .subtree ∧ 0 < textLen stars ∧ (fields.roots 0).length = 7 ∧
      Without .subtree fields ∧ NoInner .empty fields

/-- A headline as a tree, with a given statement list content, followed by more
trees. -/
def headTree (k : Kind) (stars : Nat) (fields content rest : Forest Kind M) : Forest Kind M :=
  .tree .subtree (.leaf k (.tok stars) (fields.append (.tree .stmtList content .nil))) rest

/-- The document as the parser leaves it: all items in a row, every headline
with an empty statement list. -/
def flatDoc : List (Item M) → Forest Kind M
  | [] => .nil
  | .body f :: r => f.append (flatDoc r)
  | .head k s fields :: r => headTree k s fields .nil (flatDoc r)

/-- Does the item belong to the section of a headline of level `l`?  (Everything
does except a headline of the same or a smaller level.) -/
def inSection (textLen : Nat → Nat) (l : Nat) : Item M → Bool
  | .body _ => true
  | .head _ s _ => decide (l < textLen s)

theorem dropWhile_length_le {α : Type} (p : α → Bool) (l : List α) :
    (l.dropWhile p).length ≤ l.length := by
  induction l with
  | nil => simp
  | cons a l ih => simp only [List.dropWhile]; split <;> simp <;> omega

theorem takeWhile_length_le {α : Type} (p : α → Bool) (l : List α) :
    (l.takeWhile p).length ≤ l.length := by
  induction l with
  | nil => simp
  | cons a l ih => simp only [List.takeWhile]; split <;> simp; omega

/-- The outline: a headline's statement list holds the items up to the next
headline of the same or a smaller level, nested in the same way. -/
def outline (textLen : Nat → Nat) : List (Item M) → Forest Kind M
  | [] => .nil
  | .body f :: r => f.append (outline textLen r)
  | .head k s fields :: r =>
    headTree k s fields (outline textLen (r.takeWhile (inSection textLen (textLen s))))
      (outline textLen (r.dropWhile (inSection textLen (textLen s))))
termination_by items => items.length
decreasing_by
  · simp
  · have := takeWhile_length_le (inSection textLen (textLen s)) r; simp; omega
  · have := dropWhile_length_le (inSection textLen (textLen s)) r; simp; omega

/-- The parser's output: one statement list holding the document. -/
def document (f : Forest Kind M) : Forest Kind M := .tree .stmtList f .nil

end Verif.Outline.Spec

namespace Verif.Outline.Spec
open Verif.NodeGroup Verif.NodeGroup.Spec

variable {M : Type}

/-- The headlines of a forest in document order, each with the headline directly
enclosing it (both named by their star token); `anc` encloses the whole forest. -/
def headlines (anc : Option Nat) : Forest Kind M → List (Nat × Option Nat)
  | .nil => []
  | .leaf _ _ r => headlines anc r
  | .tree .subtree (.leaf _ (.tok s) c) r =>
    (s, anc) :: headlines (some s) c ++ headlines anc r
  | .tree _ c r => headlines anc c ++ headlines anc r

/-- The star tokens of the headlines of a flat document. -/
def stars : List (Item M) → List Nat
  | [] => []
  | .body _ :: r => stars r
  | .head _ s _ :: r => s :: stars r

/-- For every headline the closest preceding one with strictly fewer stars.
`prev` holds the preceding headlines, closest first. -/
def closestSmaller (textLen : Nat → Nat) (prev : List Nat) : List Nat → List (Nat × Option Nat)
  | [] => []
  | s :: r =>
    (s, prev.find? fun t => decide (textLen t < textLen s))
      :: closestSmaller textLen (s :: prev) r

/-- Kind and leaf payload of a node, forgetting extents. -/
def payload (n : Node Kind M) : Kind × Option (Val M) :=
  (n.kind, match n.value with
    | .ext _ => none
    | v => some v)

end Verif.Outline.Spec

import Verif.Lists.Model
import Verif.Grid.Spec

/-!
# Lists in a text, and what is expected of them

A list has items with a mark, maybe a box, and a line of words and links; below an item there may be a list
which is indented more than the item.
-/

namespace Verif.Lists
open Verif.Link (Item LinkedFrom)
open Verif.Sem (Checkbox)
open Verif.Drawer (Text)

/-- What an item starts with: `-`, `+`, or a number with a period or a parenthesis. -/
inductive Mark where
  | minus
  | plus
  | number (digits : Text) (paren : Bool)
deriving DecidableEq

def Mark.text : Mark → Text
  | .minus => ['-']
  | .plus => ['+']
  | .number ds p => ds ++ [if p then ')' else '.']

def Mark.Valid : Mark → Prop
  | .number ds _ => ds ≠ [] ∧ ∀ c ∈ ds, BaseLexer.isDigit c = true
  | _ => True

/-- `[ ]`, `[x]` or `[X]`, `[-]`. -/
inductive Box where
  | empty
  | done (capital : Bool)
  | partly
deriving DecidableEq

def Box.text : Box → Text
  | .empty => "[ ]".toList
  | .done capital => ['[', if capital then 'X' else 'x', ']']
  | .partly => "[-]".toList

/-- An item without what is below it. -/
structure Entry where
  mark : Mark
  /-- spaces after the mark, less one -/
  gap : Nat
  box : Option Box
  words : List Item
  /-- is there an empty line after it? -/
  loose : Bool
deriving DecidableEq

def boxText : Option Box → Text
  | none => []
  | some b => b.text ++ [' ']

def Entry.breaks (e : Entry) : Text := if e.loose then "\n\n".toList else ['\n']

def Entry.text (e : Entry) : Text := e.mark.text ++ (Grid.blanks (e.gap + 1) ++ (boxText e.box ++ (Link.render e.words ++ e.breaks)))

/-- The words of an item are on one line, and start and end with something that is not a space. -/
structure Entry.Valid (e : Entry) : Prop where
  mark : e.mark.Valid
  from_ : LinkedFrom false (e.words ++ [.piece (.brk 0)])
  line : Grid.OneLine e.words
  ne : e.words ≠ []
  first : ∀ i ∈ e.words.head?, i.isBlank = false
  last : ∀ i ∈ e.words.getLast?, i.isBlank = false

/-- The items of a list: an item, by how much (less one) the list below it is indented more than the item,
the list below it, and the items after it. -/
inductive Tree where
  | nil
  | cons (e : Entry) (deeper : Nat) (sub next : Tree)
deriving DecidableEq

/-- The text of a list that is indented by `i`. -/
def Tree.text (i : Nat) : Tree → Text
  | .nil => []
  | .cons e d sub next => Grid.blanks i ++ (e.text ++ (sub.text (i + (d + 1)) ++ next.text i))

def Tree.Valid : Tree → Prop
  | .nil => True
  | .cons e _ sub next => e.Valid ∧ sub.Valid ∧ next.Valid

/-- All the words. -/
def Tree.words : Tree → List Item
  | .nil => []
  | .cons e _ sub next => e.words ++ (sub.words ++ next.words)

/-! ## What is expected -/

def boxState : Option Box → Checkbox
  | none => .none
  | some .empty => .empty
  | some (.done _) => .done
  | some .partly => .partly

/-- The items; the body of an item is its words, the empty line after them, and the list below. -/
def Tree.nodes : Tree → Nodes
  | .nil => .nil
  | .cons e _ sub next =>
    let below := match sub with
      | .nil => Nodes.nil
      | .cons _ _ _ _ => .list sub.nodes .nil
    .item (some e.mark.text) (boxState e.box)
      (.para (e.words.map Item.part) (if e.loose then .newline "\n\n".toList below else below)) next.nodes

end Verif.Lists

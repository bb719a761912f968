import Verif.Grid.Model
import Verif.Link.Spec

/-!
# Tables in a text, and what is expected of them

A document of tables and of paragraphs of one line.  A table has rows `| a | b |` and rules `|---+---|`.
-/

namespace Verif.Grid
open Verif.Pipeline (Piece)
open Verif.Link (Item LinkedFrom Linked Part render)
open Verif.Drawer (Text)

/-- A cell: words and links, with spaces before and after them. -/
structure Cell where
  before : Nat
  items : List Item
  after : Nat
deriving DecidableEq

def blanks (n : Nat) : Text := List.replicate n ' '

def Cell.text (c : Cell) : Text := blanks c.before ++ (render c.items ++ blanks c.after)

/-- What follows the text of a cell: spaces, or a bar, which for the text before it is like a parenthesis. -/
def tail : Nat → Item
  | 0 => .piece (.glyph [')'])
  | n + 1 => .piece (.gap n)

/-- No line ends in it. -/
def OneLine (is : List Item) : Prop := ∀ n, Item.piece (.brk n) ∉ is

/-- The text of a cell starts and ends with something that is not a space. -/
structure Cell.Valid (c : Cell) : Prop where
  from_ : LinkedFrom false (c.items ++ [tail c.after])
  line : OneLine c.items
  first : ∀ i ∈ c.items.head?, i.isBlank = false
  last : ∀ i ∈ c.items.getLast?, i.isBlank = false
  empty : c.items = [] → c.after = 0

/-- A line of a table. -/
inductive Line where
  | row (indent : Nat) (cells : List Cell)
  /-- the numbers of dashes of the columns, less one -/
  | rule (first : Nat) (more : List Nat)
deriving DecidableEq

def dashes (n : Nat) : Text := List.replicate (n + 1) '-'

def Line.text : Line → Text
  | .row indent cells => blanks indent ++ '|' :: (cells.map fun c => c.text ++ ['|']).flatten
  | .rule first more => '|' :: dashes first ++ ((more.map fun n => '+' :: dashes n).flatten ++ ['|'])

/-- After the first bar of a row there is a space. -/
def Line.Valid : Line → Prop
  | .row _ cells => cells ≠ [] ∧ (∀ c ∈ cells, c.Valid) ∧ ∀ c ∈ cells.head?, c.before ≠ 0
  | .rule _ _ => True

def Line.isRow : Line → Bool
  | .row _ _ => true
  | _ => false

/-- A part of a document, with the numbers of empty lines after its lines. -/
inductive Chunk where
  | table (lines : List (Line × Nat))
  | para (items : List Item) (empty : Nat)
deriving DecidableEq

def breaks (n : Nat) : Text := List.replicate (n + 1) '\n'

def Chunk.text : Chunk → Text
  | .table lines => (lines.map fun l => l.1.text ++ breaks l.2).flatten
  | .para items n => render items ++ breaks n

def Chunk.Valid : Chunk → Prop
  | .table lines => (∀ l ∈ lines, l.1.Valid) ∧ ∃ l ∈ lines, l.1.isRow = true
  | .para items _ => Linked items ∧ OneLine items

/-- What may follow what: after a table a paragraph; after a paragraph and an empty line anything, and
without an empty line a table that starts with a row. -/
def Follows : Chunk → Chunk → Prop
  | .table _, .table _ => False
  | .table _, .para _ _ => True
  | .para _ n, .para _ _ => n ≠ 0
  | .para _ n, .table ls => n = 0 → ∀ l ∈ ls.head?, l.1.isRow = true

def DocValid : List Chunk → Prop
  | [] => True
  | c :: d => c.Valid ∧ (∀ x ∈ d.head?, Follows c x) ∧ DocValid d

def docText (d : List Chunk) : Text := (d.map Chunk.text).flatten

/-! ## What is expected -/

def Cell.parts (c : Cell) : List (List Part) := [c.items.map Item.part]

/-- A rule is not a row. -/
def Line.cells : Line → Option (List (List (List Part)))
  | .row _ cells => some (cells.map Cell.parts)
  | .rule _ _ => none

/-- A table; a paragraph and the empty lines after it. -/
def Chunk.nodes : Chunk → List Node
  | .table lines => [.table (lines.filterMap fun l => l.1.cells)]
  | .para items n => .para (items.map Item.part) :: (if n = 0 then [] else [.newline (breaks n)])

def docNodes (d : List Chunk) : List Node := (d.map Chunk.nodes).flatten

/-- The links of a document. -/
def Chunk.items : Chunk → List Item
  | .table lines => (lines.map fun l => match l.1 with | .row _ cells => (cells.map Cell.items).flatten | .rule _ _ => []).flatten
  | .para items _ => items

end Verif.Grid

import Verif.Sem.Model
import Verif.Layout.Spec

/-!
# How sem trees are written

Specification of the formatter: the lines of org text for a sem tree.  Nothing here mentions blocks,
layouts or costs.
-/

namespace Verif.Sem

/-- Notation around the text of a leaf. -/
def leafText : LK → List Char → List Char
  | .Escaped, t => '\\' :: t
  | .Placeholder, t => '<' :: t ++ ['>']
  | .AtMention, t => '@' :: t
  | _, t => t

/-- The character marking the text, for text markup. -/
def mark : BK → Option Char
  | .Bold => some '*'
  | .Italic => some '/'
  | .Strike => some '+'
  | .Underline => some '_'
  | .Monospace => some '~'
  | .Verbatim => some '='
  | _ => none

mutual

/-- The node as part of a line; a line break has no place there. -/
def flat : Sem → List Char
  | .leaf .Newline _ => []
  | .leaf k t => leafText k t
  | .tree k subs => (mark k).toList ++ flats subs ++ (mark k).toList
  | _ => []

def flats : List Sem → List Char
  | [] => []
  | s :: ss => flat s ++ flats ss

end

mutual

/-- The text of a node, with its line breaks. -/
def source : Sem → List Char
  | .leaf k t => leafText k t
  | .tree k subs => (mark k).toList ++ sources subs ++ (mark k).toList
  | _ => []

def sources : List Sem → List Char
  | [] => []
  | s :: ss => source s ++ sources ss

end

/-- The characters which are neither spaces nor line breaks. -/
def visible (t : List Char) : List Char := t.filter fun c => c ≠ ' ' && c ≠ '\n'

mutual

/-- The visible characters of all texts of a node, in the order of reading. -/
def inkOf : Sem → List Char
  | .leaf .Newline _ => []
  | .leaf _ t => visible t
  | .tree _ subs => inksOf subs
  | .item info header subs => (if info.described then inksOf header else []) ++ inksOf subs
  | .head _ title subs => inksOf title ++ inksOf subs

def inksOf : List Sem → List Char
  | [] => []
  | s :: ss => inkOf s ++ inksOf ss

end

/-- Is it a line break? -/
def Sem.isNewline : Sem → Bool
  | .leaf .Newline _ => true
  | _ => false

/-- The nodes between line breaks. -/
def chunks : List Sem → List (List Sem)
  | [] => [[]]
  | s :: r =>
    if s.isNewline then [] :: chunks r
    else
      match chunks r with
      | [] => [[s]]
      | l :: ls => (s :: l) :: ls

/-- No markup in the paragraphs goes over the end of a line. -/
def Unbroken (subs : List Sem) : Prop :=
  ∀ ss, .tree .Paragraph ss ∈ subs → ∀ s ∈ ss, s.isNewline = true ∨ '\n' ∉ source s

/-- The text without the line break at its end. -/
def dropNl (t : List Char) : List Char := if t.getLast? = some '\n' then t.dropLast else t

/-- The text does not start with a line break, and no line ends with a space. -/
structure Tidy (t : List Char) : Prop where
  start : t.head? ≠ some '\n'
  inside : ¬ [' ', '\n'] <:+: t
  last : t.getLast? ≠ some ' '

/-- The lines of a paragraph; there are no lines without nodes. -/
def parLines (subs : List Sem) : List (List Char) :=
  ((chunks subs).filter fun l => !l.isEmpty).map flats

/-- Texts with a separator between them. -/
def sepBy (sep : List Char) : List (List Char) → List Char
  | [] => []
  | [t] => t
  | t :: ts => t ++ sep ++ sepBy sep ts

/-- The tags at the end of a headline. -/
def tagsText (info : HeadInfo) : List (List Char) :=
  match (if info.archived then [archiveTag] else []) ++ info.tags with
  | [] => []
  | ts => [[':'] ++ sepBy [':'] ts ++ [':']]

/-- The first line of a headline, after the stars. -/
def headLine (info : HeadInfo) (title : List Sem) : List Char :=
  sepBy [' ']
    (info.todo.toList ++ (if info.comment then [commentWord] else []) ++
      (info.priority.toList.map fun p => "[#".toList ++ p ++ "]".toList) ++ [flats title] ++ tagsText info)

/-- A text before the first line, and the other lines moved to the right as much. -/
def hang (p : List Char) : List (List Char) → List (List Char)
  | [] => [p]
  | l :: r => (p ++ l) :: r.map (Layout.blanks p.length ++ ·)

mutual

/-- The lines of a node: for a line break, the empty lines after it.  If an item has a header, its first
node is written after `header ::`, and an empty line separates it from the others. -/
def lines : Sem → List (List Char)
  | .leaf .Newline t => List.replicate (t.length - 1) []
  | .tree .Paragraph subs => parLines subs
  | .leaf k t => [leafText k t]
  | .tree .List subs => linesAll subs
  | .tree k subs => [(mark k).toList ++ flats subs ++ (mark k).toList]
  | .item info header subs =>
    hang (bulletText info)
      (if info.described then
        match subs with
        | [] => []
        | s :: ss => hang (flats header ++ " :: ".toList) (lines s) ++ [] :: linesAll ss
      else linesAll subs)
  | .head info title subs =>
    (List.replicate info.level '*' ++ ' ' :: headLine info title) ::
      if subs.isEmpty then [] else [] :: linesAll subs

def linesAll : List Sem → List (List Char)
  | [] => []
  | s :: ss => lines s ++ linesAll ss

end

/-- The text of lines: without the spaces at the ends of the lines, with a line break between them. -/
def textOf (ls : List (List Char)) : List Char := Layout.joinLines (ls.map Layout.stripEnd)

mutual

/-- Text on one line, and single line breaks: words, punctuation, markup of such text. -/
def Inline : Sem → Prop
  | .leaf .Newline t => t = ['\n']
  | .leaf _ t => '\n' ∉ t
  | .tree k subs => mark k ≠ none ∧ AllInline subs
  | _ => False

def AllInline : List Sem → Prop
  | [] => True
  | s :: ss => Inline s ∧ AllInline ss

end

mutual

/-- Paragraphs, line breaks, other text, lists of items (an item with a header is not empty, and the
header is on one line), and headlines with a title (on one line). -/
def Outline : Sem → Prop
  | .leaf .Newline _ => True
  | .leaf _ t => '\n' ∉ t
  | .tree .Paragraph subs => AllInline subs
  | .tree .List subs => AllOutline subs
  | .tree k subs => mark k ≠ none ∧ AllInline subs
  | .item info header subs =>
    (info.described = true → header ≠ [] ∧ AllInline header ∧ (∀ s ∈ header, s.isNewline = false) ∧ subs ≠ []) ∧
    (∀ b ∈ info.bullet, '\n' ∉ b) ∧ AllOutline subs
  | .head info title subs =>
    (∀ t ∈ info.todo, '\n' ∉ t) ∧ (∀ t ∈ info.priority, '\n' ∉ t) ∧ (∀ t ∈ info.tags, '\n' ∉ t) ∧
    title ≠ [] ∧ AllInline title ∧ (∀ s ∈ title, s.isNewline = false) ∧ AllOutline subs

def AllOutline : List Sem → Prop
  | [] => True
  | s :: ss => Outline s ∧ AllOutline ss

end

mutual

/-- Number of characters of a node. -/
def size : Sem → Nat
  | .leaf _ t => t.length + 2
  | .tree _ subs => 2 + sizes subs
  | .item info header subs => (info.bullet.getD []).length + 11 + sizes header + sizes subs
  | .head info title subs =>
    info.level + (info.todo.getD []).length + (info.priority.getD []).length + (info.tags.map fun t => t.length + 1).sum +
      30 + sizes title + sizes subs

def sizes : List Sem → Nat
  | [] => 0
  | s :: ss => size s + sizes ss

end

end Verif.Sem

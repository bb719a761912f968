import Verif.Comments.Model

/-! # Comments of a source file, in words -/

namespace Verif.Comments

/-- The lines of a text: joined by line ends they are the text, and the last one may have a line end or not. -/
def IsLines (s : List Char) (ls : List (List Char)) : Prop :=
  (∀ l ∈ ls, '\n' ∉ l) ∧ (s = (ls.map (· ++ ['\n'])).flatten ∨
    ∃ init l, ls = init ++ [l] ∧ l ≠ [] ∧ s = (init.map (· ++ ['\n'])).flatten ++ l)

/-- The prefix is at the position. -/
def At (p line : List Char) (i : Nat) : Prop := i ≤ line.length ∧ p <+: line.drop i

/-- A prefix is at the position, and none earlier; of several at the position it is the first in the list. -/
def Mark (ps : List (List Char)) (line : List Char) (i : Nat) (p : List Char) : Prop :=
  (∀ q ∈ ps, ∀ j < i, ¬ At q line j) ∧ ∃ l r, ps = l ++ p :: r ∧ At p line i ∧ ∀ q ∈ l, ¬ At q line i

/-- The line has a comment. -/
def Commented (ps : List (List Char)) (line : List Char) : Prop := ∃ q ∈ ps, ∃ i, At q line i

/-- The lines from `a` up to `b` have comments, and the lines next to them do not. -/
structure Block (ps : List (List Char)) (ls : List (List Char)) (a b : Nat) : Prop where
  lt : a < b
  le : b ≤ ls.length
  all : ∀ i, a ≤ i → i < b → ∃ l, ls[i]? = some l ∧ Commented ps l
  before : ∀ i, i + 1 = a → ∃ l, ls[i]? = some l ∧ ¬ Commented ps l
  after : b < ls.length → ∃ l, ls[b]? = some l ∧ ¬ Commented ps l

/-- What stands after the mark of a line. -/
def Raw (ps : List (List Char)) (line text : List Char) : Prop := ∃ i p, Mark ps line i p ∧ text = line.drop (i + p.length)

/-- The second text is the first without the space at its start, if there is one. -/
def LessSpace (r t : List Char) : Prop := r = ' ' :: t ∨ (r = t ∧ ∀ u, t ≠ ' ' :: u)

/-- The lines from `a` up to `b`. -/
def part (ls : List (List Char)) (a b : Nat) : List (List Char) := (ls.take b).drop a

/-- The lines with line ends between them. -/
def glue : List (List Char) → List Char
  | [] => []
  | [l] => l
  | l :: ls => l ++ '\n' :: glue ls

/-- Nothing but blanks before a prefix. -/
def Starts (ps : List (List Char)) (line : List Char) : Prop := ∃ q ∈ ps, ∃ b r, line = b ++ q ++ r ∧ ∀ c ∈ b, c = ' ' ∨ c = '\t'

end Verif.Comments

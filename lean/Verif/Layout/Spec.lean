import Verif.Layout.Model

/-!
# What blocks look like

Specification of the layouter: the pictures a block can show, independent of costs, margins and
solutions.
-/

namespace Verif.Layout

/-- Lines of a picture, from top to bottom. -/
abbrev Box := List (List Char)

/-- `n` spaces. -/
def blanks (n : Nat) : List Char := List.replicate n ' '

/-- Number of characters in the last line. -/
def lastLen (b : Box) : Nat := (b.getLast?.getD []).length

/-- `b` is placed to the right of the last line of `a`: it starts where that line ends, and all its
lines are moved to the right by the same amount. -/
def beside : Box → Box → Box
  | [], b => b
  | [l], b =>
    match b with
    | [] => [l]
    | f :: r => (l ++ f) :: r.map (blanks l.length ++ ·)
  | l :: ls, b => l :: beside ls b

/-- A block may show nothing (`none`), which takes no place. -/
def besideO : Option Box → Option Box → Option Box
  | none, y => y
  | x, none => x
  | some a, some b => some (beside a b)

/-- One picture below the other. -/
def aboveO : Option Box → Option Box → Option Box
  | none, y => y
  | x, none => x
  | some a, some b => some (a ++ b)

/-- Pictures in a row, with a separator between them. -/
def row (sep : Option Box) : List (Option Box) → Option Box
  | [] => none
  | [x] => x
  | x :: xs => besideO x (besideO sep (row sep xs))

/-- Pictures in one or more rows, each of them starting with `pre`; a row followed by another one ends
with a separator. -/
inductive Wrapped (pre sep : Option Box) : List (Option Box) → Option Box → Prop where
  | one (xs : List (Option Box)) (h : xs ≠ []) : Wrapped pre sep xs (besideO pre (row sep xs))
  | more (xs ys : List (Option Box)) (y : Option Box) (h : xs ≠ []) (hy : Wrapped pre sep ys y) :
    Wrapped pre sep (xs ++ ys) (aboveO (besideO (besideO pre (row sep xs)) sep) y)

/-- Picture of a text. -/
def shownText (ps : List Piece) : Box := [chars ps]

mutual

/-- `Shows b x`: the block `b` can be shown as `x`. -/
def Shows : Block → Option Box → Prop
  | .text ps, x => x = some (shownText ps)
  | .line bs, x => ShowsRow bs x
  | .stack _ bs, x => ShowsColumn bs x
  | .choice bs, x => ShowsAny bs x
  | .wrap _ pre sep bs, x => ∃ xs, ShowsEach bs xs ∧
      Wrapped (pre.map fun p => shownText [p]) (some (shownText [sep])) xs x
  | .verb lines firstNl, x =>
    x = some (if firstNl then [] :: lines.map chars else lines.map chars)
  | .empty, x => x = none

/-- The elements side by side. -/
def ShowsRow : List Block → Option Box → Prop
  | [], x => x = none
  | b :: bs, x => ∃ y z, Shows b y ∧ ShowsRow bs z ∧ x = besideO y z

/-- The elements below each other. -/
def ShowsColumn : List Block → Option Box → Prop
  | [], x => x = none
  | b :: bs, x => ∃ y z, Shows b y ∧ ShowsColumn bs z ∧ x = aboveO y z

/-- One of the elements. -/
def ShowsAny : List Block → Option Box → Prop
  | [], _ => False
  | b :: bs, x => Shows b x ∨ ShowsAny bs x

/-- Each of the elements. -/
def ShowsEach : List Block → List (Option Box) → Prop
  | [], xs => xs = []
  | b :: bs, xs => ∃ y ys, Shows b y ∧ ShowsEach bs ys ∧ xs = y :: ys

end

/-- The text for a picture: its lines, without spaces at the ends of lines. -/
def printed : Option Box → List Char
  | none => []
  | some b => joinLines ((splitLines (joinLines b)).map stripEnd)

/-- The block always shows something. -/
def Solid (b : Block) : Prop := ∀ x, Shows b x → x ≠ none

mutual

/-- No verbatim blocks, no empty blocks, no alternatives and wrapped blocks without elements; the last
element of every stack and all the elements of wrapped blocks always show something. -/
def Plain : Block → Prop
  | .text _ => True
  | .line bs => AllPlain bs
  | .stack _ bs => AllPlain bs ∧ ∀ b, bs.getLast? = some b → Solid b
  | .choice bs => bs ≠ [] ∧ AllPlain bs
  | .wrap _ _ _ bs => bs ≠ [] ∧ AllPlain bs ∧ ∀ b ∈ bs, Solid b
  | .verb _ _ => False
  | .empty => False

def AllPlain : List Block → Prop
  | [] => True
  | b :: bs => Plain b ∧ AllPlain bs

end

mutual

/-- Blocks of texts, lines and stacks only. -/
def Fixed : Block → Prop
  | .text _ => True
  | .line bs => AllFixed bs
  | .stack _ bs => AllFixed bs
  | _ => False

def AllFixed : List Block → Prop
  | [] => True
  | b :: bs => Fixed b ∧ AllFixed bs

end

mutual

/-- The one picture of such a block. -/
def picture : Block → Option Box
  | .text ps => some (shownText ps)
  | .line bs => rowPicture bs
  | .stack _ bs => columnPicture bs
  | _ => none

/-- Side by side. -/
def rowPicture : List Block → Option Box
  | [] => none
  | b :: bs => besideO (picture b) (rowPicture bs)

/-- Below each other. -/
def columnPicture : List Block → Option Box
  | [] => none
  | b :: bs => aboveO (picture b) (columnPicture bs)

end

mutual

/-- Blocks of texts, lines and stacks, without negative costs of line breaks, in which every line with
elements shows something and every stack with elements ends with something that is shown. -/
def Filled : Block → Prop
  | .text _ => True
  | .line bs => AllFilled bs ∧ (bs ≠ [] → rowPicture bs ≠ none)
  | .stack mult bs => 0 ≤ mult ∧ AllFilled bs ∧ ∀ b, bs.getLast? = some b → picture b ≠ none
  | _ => False

def AllFilled : List Block → Prop
  | [] => True
  | b :: bs => Filled b ∧ AllFilled bs

end

mutual

/-- Number of characters in all the texts of a block of texts, lines and stacks. -/
def volume : Block → Nat
  | .text ps => (chars ps).length
  | .line bs => volumes bs
  | .stack _ bs => volumes bs
  | _ => 0

def volumes : List Block → Nat
  | [] => 0
  | b :: bs => volume b + volumes bs

end

end Verif.Layout

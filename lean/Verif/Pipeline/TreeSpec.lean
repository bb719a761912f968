import Verif.Pipeline.ProseSpec
import Verif.Parser.MarkupSpec

/-!
# Documents as trees

Paragraphs of words, punctuation and nested bold and italic text: how such a tree is written as an
org document, and which parse tree is expected for what was written.
-/

namespace Verif.Pipeline
open Verif.Token Verif.NodeGroup Verif.NodeGroup.Spec
open Verif.Parser (NK)

/-- A text with markup, as a list: each constructor has the rest of the text as its last field. -/
inductive Inl where
  | nil
  | piece (p : Piece) (rest : Inl)
  | bold (inner rest : Inl)
  | italic (inner rest : Inl)
deriving DecidableEq

/-- A document: paragraphs and breaks (`brk n`: the end of a line and `n` empty lines). -/
inductive Pars where
  | nil
  | brk (n : Nat) (rest : Pars)
  | par (text : Inl) (rest : Pars)
deriving DecidableEq

/-- Bold text is written between `*`, italic text between `/`. -/
def Inl.pieces : Inl → List Piece
  | .nil => []
  | .piece p r => p :: r.pieces
  | .bold i r => .star :: (i.pieces ++ .star :: r.pieces)
  | .italic i r => .slash :: (i.pieces ++ .slash :: r.pieces)

def Pars.pieces : Pars → List Piece
  | .nil => []
  | .brk n r => .brk n :: r.pieces
  | .par t r => t.pieces ++ r.pieces

/-- The kind of leaf for a piece. -/
def Piece.leafKind : Piece → NK
  | .word w => if ∀ c ∈ w, ('A' ≤ c ∧ c ≤ 'Z') ∨ c = '_' then .BigIdent else .Word
  | .number _ => .Word
  | .gap _ => .Space
  | .brk _ => .Newline
  | .colon => .Colon
  | _ => .Punctuation

/-- The expected nodes, with the pieces numbered from `i`. -/
def Inl.forest (i : Nat) : Inl → Forest NK Unit
  | .nil => .nil
  | .piece p r => .leaf p.leafKind (.tok i) (r.forest (i + 1))
  | .bold t r => .tree .Bold (t.forest (i + 1)) (r.forest (i + t.pieces.length + 2))
  | .italic t r => .tree .Italic (t.forest (i + 1)) (r.forest (i + t.pieces.length + 2))

def Pars.forest (i : Nat) : Pars → Forest NK Unit
  | .nil => .nil
  | .brk _ r => .leaf .Newline (.tok i) (r.forest (i + 1))
  | .par t r => .tree .Paragraph (t.forest i) (r.forest (i + t.pieces.length))

/-- Markup may start after these, and end before them: nothing, a space, a line break, punctuation,
other markup.  (A quote, a percent sign and an exclamation mark are not among them.) -/
def Airy : Option Piece → Prop
  | none => True
  | some (.word _) | some (.number _) => False
  | some (.glyph u) => u ≠ ['!'] ∧ u ≠ ['"'] ∧ u ≠ ['%']
  | some _ => True

/-- The markup of the text can be told from where it is: between `before` and `after`, directly
inside of markup `e`. -/
def Placed (before after : Option Piece) (e : Option NK) : Inl → Prop
  | .nil => True
  | .piece p r => p ≠ .star ∧ p ≠ .slash ∧ (∀ n, p ≠ .brk (n + 1)) ∧ Placed (some p) after e r
  | .bold t r => e ≠ some .Bold ∧ Airy before ∧ Airy (r.pieces.head?.or after) ∧
      Placed (some .star) (some .star) (some .Bold) t ∧ Placed (some .star) after e r
  | .italic t r => e ≠ some .Italic ∧ Airy before ∧ Airy (r.pieces.head?.or after) ∧
      Placed (some .slash) (some .slash) (some .Italic) t ∧ Placed (some .slash) after e r

/-- Paragraphs are not empty, start with neither a space nor a line break, and there is an empty
line after a paragraph. -/
def Pars.Fine : Pars → Prop
  | .nil => True
  | .brk _ r => r.Fine
  | .par t r => (∃ p ∈ t.pieces.head?, ∀ n, p ≠ .gap n ∧ p ≠ .brk n) ∧ Placed none r.pieces.head? none t ∧
      (r = .nil ∨ ∃ n r', r = .brk (n + 1) r') ∧ r.Fine

end Verif.Pipeline

import Verif.Recombine.Spec
import Verif.BaseLexer.Model

/-!
# Prose

Documents of words, numbers, punctuation, bold and italic markup and paragraphs, written as the
list of their pieces, and what is expected of them.
-/

namespace Verif.Pipeline
open Verif.Token Verif.BaseLexer

/-- A piece of a document. -/
inductive Piece where
  | word (w : List Char)
  | number (ds : List Char)
  /-- one space and `n` more -/
  | gap (n : Nat)
  /-- the end of a line and `n` empty lines -/
  | brk (n : Nat)
  | colon
  | star
  | slash
  /-- a punctuation character, or a character outside of ASCII in two or three bytes -/
  | glyph (u : List Char)
deriving DecidableEq

/-- How a piece is written. -/
def Piece.text : Piece → List Char
  | .word w => w
  | .number ds => ds
  | .gap n => List.replicate (n + 1) ' '
  | .brk n => List.replicate (n + 1) '\n'
  | .colon => [':']
  | .star => ['*']
  | .slash => ['/']
  | .glyph u => u

/-- The document. -/
def render (ps : List Piece) : List Char := (ps.map Piece.text).flatten

/-- Letters and digits, with single `-` or `_` between them. -/
def Stem : List Char → Prop
  | [] => True
  | [a] => isAlnum a = true
  | a :: b :: r => (isAlnum a = true ∨ ((a = '-' ∨ a = '_') ∧ isAlnum b = true)) ∧ Stem (b :: r)

/-- A word: it starts with a letter; it may have one apostrophe (`don't`).  The words starting
with `http` or `src` are notation. -/
def IsWord (w : List Char) : Prop :=
  (∃ c ∈ w.head?, isAlpha c = true) ∧
  (∃ stem rest, w = stem ++ rest ∧ Stem stem ∧ (rest = [] ∨ ∃ r, rest = '\'' :: r ∧ ∀ c ∈ r, isAlnum c = true)) ∧
  ¬ "http".toList <+: w.map toLower ∧ ¬ "src".toList <+: w.map toLower

/-- Punctuation and the kinds of its tokens. -/
def marksTable : List (Char × TK) :=
  [(',', .Comma), (';', .Semicolon), ('!', .Exclamation), ('(', .ParBegin), (')', .ParEnd), ('"', .DoubleQuote), ('%', .Percent),
   ('.', .Punctuation), ('?', .AnyPunct)]

/-- The kind of a glyph. -/
def glyphKind (u : List Char) : TK :=
  match u with
  | [c] => ((marksTable.find? (·.1 = c)).map (·.2)).getD .AnyPunct
  | _ => .AnyPunct

/-- One character: punctuation, or two or three bytes with the lead byte telling how many. -/
def IsGlyph (u : List Char) : Prop :=
  (∃ c, u = [c] ∧ c ∈ marksTable.map (·.1)) ∨
  (∃ a b, u = [a, b] ∧ 0xC0 ≤ a.toNat ∧ a.toNat < 0xE0 ∧ 0x80 ≤ b.toNat) ∨
  (∃ a b c, u = [a, b, c] ∧ 0xE0 ≤ a.toNat ∧ a.toNat < 0xF0 ∧ 0x80 ≤ b.toNat ∧ 0x80 ≤ c.toNat)

/-- The pieces are what their names say. -/
def Piece.Valid : Piece → Prop
  | .word w => IsWord w
  | .number ds => ds ≠ [] ∧ ∀ c ∈ ds, isDigit c = true
  | .glyph u => IsGlyph u
  | _ => True

/-- The piece starts with a letter or a digit. -/
def Piece.Alnum : Piece → Prop
  | .word _ | .number _ => True
  | _ => False

/-- Which piece may come next, at the start of a line (`bol`) or inside of a line.  What is excluded
is other notation: indented lines, numbered items, drawers (`:end:`), times (`12:30`,
`CLOSED:`), headlines. -/
def fits (bol : Bool) (p : Piece) (next : Option Piece) : Prop :=
  match p with
  | .word w => next ≠ none ∧ (∀ q ∈ next, ¬ q.Alnum) ∧
      (next = some .colon → w ∉ ["SCHEDULED".toList, "DEADLINE".toList, "CLOSED".toList] ∧ (bol = true → w.map toLower ≠ "clock".toList))
  | .number _ => bol = false ∧ (∀ q ∈ next, ¬ q.Alnum) ∧ next ≠ some .colon
  | .gap _ => bol = false ∧ ∀ n, next ≠ some (.gap n)
  | .brk _ => ∀ n, next ≠ some (.gap n) ∧ next ≠ some (.brk n)
  | .colon => bol = false ∧ next ≠ some .colon
  | .star => bol = true → next ≠ some .star ∧ ∀ n, next ≠ some (.gap n)
  | .slash => True
  | .glyph _ => True

/-- The piece ends a line. -/
def Piece.isBrk : Piece → Bool
  | .brk _ => true
  | _ => false

/-- A document of prose. -/
def ProseFrom (bol : Bool) : List Piece → Prop
  | [] => True
  | p :: ps => p.Valid ∧ fits bol p ps.head? ∧ ProseFrom p.isBrk ps

def Prose (ps : List Piece) : Prop := ProseFrom true ps

/-- The kind of the token of a piece. -/
def Piece.kind : Piece → TK
  | .word _ => .Word
  | .number _ => .Number
  | .gap _ => .Whitespace
  | .brk 0 => .Newline
  | .brk 1 => .MediumNewline
  | .brk _ => .LongNewline
  | .colon => .Colon
  | .star => .Asterisk
  | .slash => .ForwardSlash
  | .glyph u => glyphKind u

/-- The tokens of the lexer: one for each piece. -/
def lexed : Nat → List Piece → List Tok
  | _, [] => []
  | pos, p :: ps => ⟨p.kind, p.text, some pos⟩ :: lexed (pos + p.text.length) ps

end Verif.Pipeline

import Verif.Pipeline.TreeSpec

/-!
# Outlines

Documents of headlines with text below them, and how they are written.
-/

namespace Verif.Pipeline
open Verif.Token Verif.BaseLexer

/-- A part of a document with headlines: a piece of text, the stars of a headline (`n + 1` of
them), a priority (`[#A]`). -/
inductive Chunk where
  | txt (p : Piece)
  | stars (n : Nat)
  | prio (c : Char)
deriving DecidableEq

/-- How it is written. -/
def Chunk.text : Chunk → List Char
  | .txt p => p.text
  | .stars n => List.replicate (n + 1) '*'
  | .prio c => ['[', '#', c, ']']

/-- The document. -/
def written (cs : List Chunk) : List Char := (cs.map Chunk.text).flatten

def Chunk.Valid : Chunk → Prop
  | .txt p => p.Valid
  | .stars _ => True
  | .prio c => isAlpha c = true ∨ c = '_'

/-- Which part may come next, at the start of a line (`bol`) or inside of a line: stars start a line,
a priority is between spaces, and there is a space after both. -/
def joins (bol : Bool) (c : Chunk) (next : Option Chunk) : Prop :=
  match c, next with
  | .txt p, none => fits bol p none
  | .txt p, some (.txt q) => fits bol p (some q)
  | .txt p, some (.stars _) => p.isBrk = true
  | .txt p, some (.prio _) => bol = false ∧ ∃ n, p = .gap n
  | .stars _, next => bol = true ∧ ∃ n, next = some (.txt (.gap n))
  | .prio _, next => bol = false ∧ ∃ n, next = some (.txt (.gap n))

/-- It ends a line. -/
def Chunk.isBrk : Chunk → Bool
  | .txt p => p.isBrk
  | _ => false

/-- The parts can be told from one another. -/
def JoinedFrom (bol : Bool) : List Chunk → Prop
  | [] => True
  | c :: cs => c.Valid ∧ joins bol c cs.head? ∧ JoinedFrom c.isBrk cs

def Joined (cs : List Chunk) : Prop := JoinedFrom true cs

/-! ## Headlines -/

/-- What is between the stars and the title: nothing, a priority, or a keyword and a priority; with
the numbers of the spaces in excess of one after each. -/
inductive Mark where
  | none
  | priority (c : Char) (g : Nat)
  | keyword (w : List Char) (g : Nat) (c : Char) (g' : Nat)
deriving DecidableEq

def Mark.chunks : Mark → List Chunk
  | .none => []
  | .priority c g => [.prio c, .txt (.gap g)]
  | .keyword w g c g' => [.txt (.word w), .txt (.gap g), .prio c, .txt (.gap g')]

/-- Tags: `:a:b:`. -/
def tagPieces (ts : List (List Char)) : List Piece :=
  if ts = [] then [] else .colon :: ts.flatMap fun t => [.word t, .colon]

/-- A headline and the text up to the next one. -/
structure Entry where
  /-- the number of stars is one more -/
  level : Nat
  /-- the number of spaces after the stars is one more -/
  gap : Nat
  mark : Mark
  title : Inl
  tags : List (List Char)
  /-- the number of empty lines after the headline; `none`: the document ends with the headline -/
  stop : Option Nat
  body : Pars
deriving DecidableEq

/-- The end of the line. -/
def stopPieces : Option Nat → List Piece
  | none => []
  | some n => [.brk n]

/-- What comes after the title in the line. -/
def Entry.tail (e : Entry) : List Piece := tagPieces e.tags ++ stopPieces e.stop

def Entry.chunks (e : Entry) : List Chunk :=
  .stars e.level :: .txt (.gap e.gap) :: (e.mark.chunks ++ (e.title.pieces ++ e.tail ++ e.body.pieces).map .txt)

/-- A document: text, and entries. -/
structure Outline where
  pre : Pars
  entries : List Entry
deriving DecidableEq

def Outline.chunks (d : Outline) : List Chunk := d.pre.pieces.map .txt ++ d.entries.flatMap Entry.chunks

/-- A word in capital letters. -/
def Capital (w : List Char) : Prop := ∀ c ∈ w, ('A' ≤ c ∧ c ≤ 'Z') ∨ c = '_'

/-- A title is not empty, does not start with a space, and is in one line.  It has no end
that looks like tags: after each colon there is something that is neither a word nor a
colon. -/
def IsTitle (t : Inl) : Prop :=
  (∃ p ∈ t.pieces.head?, ∀ n, p ≠ .gap n) ∧ (∀ p ∈ t.pieces, p.isBrk = false) ∧
  ∀ a b, t.pieces = a ++ .colon :: b → ∃ p ∈ b, p ≠ .colon ∧ ∀ w, p ≠ .word w

/-- The entry is well-formed, before the entries `rest`. -/
def Entry.Fine (e : Entry) (rest : List Entry) : Prop :=
  (∀ w g c g', e.mark = .keyword w g c g' → Capital w) ∧ IsTitle e.title ∧ Placed (some (.gap 0)) e.tail.head? none e.title ∧
  e.body.Fine ∧ (e.stop = none → e.body = .nil ∧ rest = [])

def EntriesFine : List Entry → Prop
  | [] => True
  | e :: r => e.Fine r ∧ EntriesFine r

/-- A well-formed document. -/
def Outline.Fine (d : Outline) : Prop := d.pre.Fine ∧ EntriesFine d.entries

end Verif.Pipeline

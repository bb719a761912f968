import Verif.Link.Model
import Verif.Pipeline.ProseSpec
import Verif.Sem.OutlineSpec

/-!
# Links in a text, and what is expected of them

How a link is written, what it says, and the documents in which links are expected to be found: lines of
words, numbers, punctuation, links in brackets, web addresses and references to footnotes.
-/

namespace Verif.Link
open Verif.BaseLexer (toLower isAlnum)
open Verif.Pipeline (Piece fits)
open Verif.Drawer (Text)

/-- What is between the brackets of a link. -/
inductive Head where
  /-- `http:…` or `https:…` -/
  | web (secure : Bool) (rest : Text)
  /-- `file:…` -/
  | file (path : Text)
  /-- `attachment:…` -/
  | attachment (path : Text)
  /-- `id:…` -/
  | id (name : Text)
  /-- `#…` -/
  | custom (name : Text)
  /-- `*title/subtitle`, with more stars and with spaces after them -/
  | title (more gap : Nat) (path : List Text)
  /-- `./path` or `/path` -/
  | path (path : Text)
  /-- the name of a target -/
  | internal (name : Text)
  /-- `person:…` -/
  | person (name : List Piece)
  /-- `name:…` with any other protocol -/
  | user (name : Text) (rest : List Piece)
deriving DecidableEq

def webText (secure : Bool) (rest : Text) : Text := (if secure then "https" else "http").toList ++ ':' :: rest

/-- Words of a line, one after the other. -/
def rowText (ps : List Piece) : Text := (ps.map Piece.text).flatten

def Head.text : Head → Text
  | .web s r => webText s r
  | .file p => "file:".toList ++ p
  | .attachment p => "attachment:".toList ++ p
  | .id t => "id:".toList ++ t
  | .custom t => '#' :: t
  | .title more gap ts => List.replicate (more + 1) '*' ++ List.replicate gap ' ' ++ joinSlash ts
  | .path p => p
  | .internal t => t
  | .person ps => "person:".toList ++ rowText ps
  | .user name ps => name ++ ':' :: rowText ps

/-- What the link leads to. -/
def Head.target : Head → Target
  | .web s r => .raw (webText s r)
  | .file p => .file p
  | .attachment p => .attachment p
  | .id t => .id t
  | .custom t => .customId t
  | .title more _ ts => .title (more + 1) ts
  | .path p => .file p
  | .internal t => .internal t
  | .person ps => .person (rowText ps)
  | .user name ps => .user name (rowText ps)

/-- It is on one line, and has no closing bracket in it. -/
def Closed (t : Text) : Prop := ∀ c ∈ t, c ≠ ']' ∧ c ≠ '\n'

/-- A web address ends at a space. -/
def Address (t : Text) : Prop := Closed t ∧ ' ' ∉ t ∧ t.head? ≠ some ':'

/-- A character of a name. -/
def nameChar (c : Char) : Bool := isAlnum c || c = '_' || c = '-'

/-- Pieces inside of a line and before a bracket. -/
def RowFrom : List Piece → Prop
  | [] => True
  | p :: r => p.Valid ∧ p ≠ .star ∧ p ≠ .slash ∧ (∀ n, p ≠ .brk n) ∧ fits false p (some (r.head?.getD (.glyph [')']))) ∧ RowFrom r

/-- A protocol which org itself does not know: small letters and digits, and it does not start like a known
one. -/
def Protocol (name : Text) : Prop :=
  name ≠ [] ∧ (∀ c ∈ name, BaseLexer.isLower c || BaseLexer.isDigit c) ∧ name ≠ "person".toList ∧
    ∀ x ∈ ["http", "file", "attachment", "id"], ¬ x.toList <+: name

/-- What is between the brackets is what its name says. -/
def Head.Valid : Head → Prop
  | .web _ r => Address r
  | .file p | .attachment p => Closed p ∧ p.head? ≠ some ':'
  | .id t => Closed t ∧ t.head? ≠ some ':' ∧ t.head? ≠ some ' ' ∧ t.getLast? ≠ some ' '
  | .custom t => Closed t ∧ t.head? ≠ some ':' ∧ t ≠ []
  | .title _ _ ts => ts ≠ [] ∧ (∀ t ∈ ts, Closed t ∧ '/' ∉ t) ∧ (joinSlash ts).head? ≠ some '*' ∧ (joinSlash ts).head? ≠ some ' '
  | .path p => Closed p ∧ (p.head? = some '.' ∨ p.head? = some '/')
  | .internal t => Closed t ∧ ':' ∉ t ∧ ∃ c ∈ t.head?, nameChar c = true
  | .person ps => RowFrom ps
  | .user name ps => Protocol name ∧ RowFrom ps

/-- A description: words of a line, not ending with a space. -/
def DescValid (ps : List Piece) : Prop := RowFrom ps ∧ ps ≠ [] ∧ ∀ n, ps.getLast? ≠ some (.gap n)

/-- An item of a document. -/
inductive Item where
  | piece (p : Piece)
  /-- `[[head]]` or `[[head][description]]` -/
  | link (head : Head) (desc : Option (List Piece))
  /-- a web address without brackets -/
  | url (secure : Bool) (rest : Text)
  /-- `[fn:name]` -/
  | note (name : Text)
deriving DecidableEq

def descText : Option (List Piece) → Text
  | none => []
  | some d => "][".toList ++ rowText d

def Item.text : Item → Text
  | .piece p => p.text
  | .link h d => "[[".toList ++ h.text ++ descText d ++ "]]".toList
  | .url s r => webText s r
  | .note t => "[fn:".toList ++ t ++ "]".toList

/-- The document. -/
def render (is : List Item) : Text := (is.map Item.text).flatten

/-- For the text before it a link is like an opening parenthesis and an address is like a word. -/
def Item.like : Item → Piece
  | .piece p => p
  | .url _ _ => .word ['h']
  | _ => .glyph ['(']

/-- A space or the end of a line. -/
def Item.isBlank : Item → Bool
  | .piece (.gap _) | .piece (.brk _) => true
  | _ => false

/-- A paragraph of prose without markup, with links. `bol`: at the start of a line. -/
def LinkedFrom (bol : Bool) : List Item → Prop
  | [] => True
  | .piece p :: r => p.Valid ∧ p ≠ .star ∧ p ≠ .slash ∧ (∀ n, p ≠ .brk (n + 1)) ∧ fits bol p (r.head?.map Item.like) ∧ LinkedFrom p.isBrk r
  | .link h d :: r => h.Valid ∧ (∀ x ∈ d, DescValid x) ∧ LinkedFrom false r
  | .url _ u :: r => Address u ∧ (∃ i ∈ r.head?, i.isBlank = true) ∧ LinkedFrom false r
  | .note t :: r => t ≠ [] ∧ (∀ c ∈ t, nameChar c = true) ∧ LinkedFrom false r

/-- The items of a paragraph without the end of its last line: it does not start with an empty line and
does not end with a blank. -/
structure Linked (is : List Item) : Prop where
  from_ : LinkedFrom true (is ++ [.piece (.brk 0)])
  ne : is ≠ []
  first : is.head? ≠ some (.piece (.brk 0))
  last : ∀ i ∈ is.getLast?, i.isBlank = false

/-- Its text. -/
def paraText (is : List Item) : Text := render is ++ ['\n']

/-- The leaf of a piece. -/
def leaf (p : Piece) : Leaf := (p.semKind, p.text)

/-- What is expected of an item. -/
def Item.part : Item → Part
  | .piece p => .leaf p.semKind p.text
  | .link h d => .link h.target (d.map (·.map leaf))
  | .url s r => .link (.raw (webText s r)) none
  | .note t => .link (.footnote t) none

end Verif.Link

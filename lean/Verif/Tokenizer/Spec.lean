import Verif.Tokenizer.Model

/-!
# Vocabulary for the tokenizer properties
-/

namespace Verif.Tokenizer
open Verif.Token

/-- All lines of a list of groups in document order.  The end line of a block
that was never closed is the empty placeholder line and does not count. -/
def Groups.lines : Groups → List Line
  | .nil => []
  | .leaf _ ls rest => ls ++ rest.lines
  | .nested _ b e sub rest =>
    b :: (sub.lines ++ ((if e.tokens.isEmpty then [] else [e]) ++ rest.lines))

/-- All tokens of a list of lines. -/
def lineTokens (ls : List Line) : List Tok := (ls.map Line.tokens).flatten

/-- A complete line: it ends in an end-of-line token, and that is the only one in it. -/
def Line.Closed (l : Line) : Prop :=
  ∃ init last, l.tokens = init ++ [last] ∧ (∀ t ∈ init, t.kind ∉ lineEnd) ∧ last.kind ∈ lineEnd

/-- Walk over a token stream counting open indentation levels; fails when a
`Dedent` has no open `Indent`. -/
def indentWalk : Nat → List Tok → Option Nat
  | d, [] => some d
  | d, t :: ts =>
    if t.kind = .Indent then indentWalk (d + 1) ts
    else if t.kind = .Dedent then
      match d with
      | 0 => none
      | d + 1 => indentWalk d ts
    else indentWalk d ts

/-- A token as produced by the base lexer: it has a location and is not an
indentation token. -/
def _root_.Verif.Token.Tok.Real (t : Tok) : Prop := t.isFake = false ∧ t.kind ≠ .Indent ∧ t.kind ≠ .Dedent

/-- `t'` is `t` with `n` leading characters of its text removed. -/
def _root_.Verif.Token.Tok.DropsPrefix (t t' : Tok) : Prop :=
  t'.kind = t.kind ∧ t'.loc = t.loc ∧ ∃ n, t'.text = t.text.drop n

/-- Block structure of the groups of a line sequence.  `inBlock` says that the
groups are the content of a block; `isLast` that nothing follows them in the
document.  Inside a block no closing line may occur outside a nested block, i.e.
a block ends at the first closing line that does not belong to a nested block; a
block without closing line extends to the end of the document. -/
def Groups.Matched (inBlock isLast : Bool) : Groups → Prop
  | .nil => True
  | .leaf _ ls rest =>
    ls ≠ [] ∧ (∀ l ∈ ls, l.kind ≠ .blockOpen) ∧
    (inBlock = true → ∀ l ∈ ls, l.kind ≠ .blockClose) ∧ rest.Matched inBlock isLast
  | .nested _ b e sub rest =>
    b.kind = .blockOpen ∧
    ((e.kind = .blockClose ∧ sub.Matched true false) ∨
     (e = .empty ∧ rest.lines = [] ∧ isLast = true ∧ sub.Matched true true)) ∧
    rest.Matched inBlock isLast

/-- Remove the first `m` characters of the first token. -/
def stripFirst (m : Nat) : List Tok → List Tok
  | [] => []
  | t :: ts => { t with text := t.text.drop m } :: ts

/-- Groups consisting of consecutive list items. -/
def itemRun : List (List Line) → Groups
  | [] => .nil
  | ls :: rest => .leaf .listItem ls (itemRun rest)

/-- Every command marker is followed by a command the line splitter knows. -/
def CommandsKnown (ts : List Tok) : Prop :=
  ∀ pre c post, ts = pre ++ c :: post → c.kind = .LineCommand →
    ∃ n post', post = n :: post' ∧
      (n.kind ∈ cmdBlockLine ∨ n.kind ∈ cmdBlockOpen ∨ n.kind ∈ cmdBlockClose)

end Verif.Tokenizer

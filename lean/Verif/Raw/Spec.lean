import Verif.Raw.Model
import Verif.Code.Spec

/-!
# Example and export blocks in a text, and what is expected of them
-/

namespace Verif.Raw
open Verif.Drawer (Text)
open Verif.Code (blanks sameText ArgText leading shared)
open Verif.Layout (joinLines splitLines stripEnd)

/-- The kind of a block. -/
inductive Kind where
  /-- `#+begin_example` -/
  | sample
  /-- `#+begin_export`, with the number of spaces before the exporter, minus one -/
  | foreign (gap : Nat) (exporter : Text)
deriving DecidableEq

def Kind.word : Kind → Text
  | .sample => "example".toList
  | .foreign _ _ => "export".toList

def Kind.capital : Kind → Text
  | .sample => "EXAMPLE".toList
  | .foreign _ _ => "EXPORT".toList

/-- The rest of the first line. -/
def Kind.tail : Kind → Text
  | .sample => []
  | .foreign g e => blanks (g + 1) ++ e

/-- A block. -/
structure Block where
  kind : Kind
  /-- the commands are written in capitals -/
  upper : Bool
  /-- spaces before the first line -/
  indent : Nat
  /-- spaces at the end of the first line -/
  gap : Nat
  lines : List Text
  /-- spaces before the last line -/
  close : Nat
  /-- line breaks after the block -/
  after : Nat
deriving DecidableEq

def Block.first (b : Block) : Text :=
  blanks b.indent ++ (if b.upper then "#+BEGIN_".toList ++ b.kind.capital else "#+begin_".toList ++ b.kind.word) ++ b.kind.tail ++ blanks b.gap

def Block.last (b : Block) : Text :=
  blanks b.close ++ (if b.upper then "#+END_".toList ++ b.kind.capital else "#+end_".toList ++ b.kind.word)

def Block.text (b : Block) : Text :=
  b.first ++ "\n".toList ++ (b.lines.map fun l => l ++ "\n".toList).flatten ++ b.last ++ List.replicate b.after '\n'

def render (d : List Block) : Text := (d.map Block.text).flatten

/-- The line ends a block of this name: spaces, `#+end_` or `#+end`, the name, in any case, and anything. -/
def Ends (word : Text) (t : Text) : Prop :=
  ∃ n u v, t = blanks n ++ u ++ v ∧ (sameText u ("#+end_".toList ++ word) ∨ sameText u ("#+end".toList ++ word))

/-- The block is as described. -/
structure Block.Valid (b : Block) : Prop where
  /-- the exporter is one word -/
  exporter : ∀ g e, b.kind = .foreign g e → ArgText e
  /-- the lines are lines and do not end the block -/
  lines : ∀ l ∈ b.lines, '\n' ∉ l ∧ ¬ Ends b.kind.word l
  /-- an example is not empty -/
  filled : b.kind = .sample → b.lines ≠ []

/-- Each block but the last is followed by a line break. -/
def DocValid : List Block → Prop
  | [] => True
  | b :: r => b.Valid ∧ (r ≠ [] → 1 ≤ b.after) ∧ DocValid r

/-- The lines of an example without the indentation they share with the block. -/
def Block.dedented (b : Block) : List Text := b.lines.map (·.drop (shared b.indent b.lines))

/-- The node of a block: for an example the lines without the shared indentation and the line breaks between
them, for an export the lines as they are. -/
def Block.node (b : Block) : Node :=
  match b.kind with
  | .sample => .sample (b.dedented.intersperse "\n".toList)
  | .foreign _ e => .foreign ⟨e, [], joinLines b.lines⟩

/-- What is expected to be read: for a block which is not at the start of the line, there is an empty
paragraph before it. -/
def Block.nodes (b : Block) : List Node :=
  (if b.indent = 0 then [] else [.nothing]) ++ [b.node] ++ (if b.after = 0 then [] else [.newline (List.replicate b.after '\n')])

/-- The blocks of a document. -/
def blocks (ns : List Node) : List Node := ns.filter fun
  | .sample _ | .foreign _ => true
  | _ => false

/-! ## Writing -/

/-- Two empty lines between the lines. -/
def spread : List Text → List Text
  | [] => []
  | [l] => [l]
  | l :: m :: r => l :: [] :: [] :: spread (m :: r)

/-- The block as it is written: in lower case, without indentation, and without spaces at the ends of the lines;
the lines of an example get two empty lines between them, and an empty export block gets a line. -/
def Block.canon (b : Block) (after : Nat) : Block :=
  match b.kind with
  | .sample =>
    { kind := .sample, upper := false, indent := 0, gap := 0, lines := (spread b.dedented).map stripEnd, close := 0, after := after }
  | .foreign _ e =>
    { kind := .foreign 0 e, upper := false, indent := 0, gap := 0, lines := (if b.lines = [] then [[]] else b.lines).map stripEnd, close := 0,
      after := after }

/-- The document as it is written: it loses the line break at its end. -/
def canonDoc : List Block → List Block
  | [] => []
  | [b] => [b.canon (b.after - 1)]
  | b :: c :: r => b.canon b.after :: canonDoc (c :: r)

/-- No line of the block ends with a space. -/
def Block.Tidy (b : Block) : Prop := ∀ l ∈ b.lines, l.getLast? ≠ some ' '

def Block.isExport (b : Block) : Bool :=
  match b.kind with
  | .sample => false
  | .foreign _ _ => true

end Verif.Raw

import Verif.Sem.Model
import Verif.Outline.Model

/-!
# Reading and writing documents

`ParseContext::parseStringOpts` – src/haxorg/api/ParseContext.cpp:255-300 – with the outline pass and
the conversion, and `Formatter::format` on the result.
-/

namespace Verif.Sem
open Verif.Token Verif.NodeGroup
open Verif.Parser (NK)

/-- The exceptions of the stages. -/
inductive ChainErr where
  | parse (e : Pipeline.Err)
  | outline (e : NodeGroup.Err)
  | convert (e : Err)
  | layout (e : Layout.Err)
deriving DecidableEq, Repr

/-- Length of the text of a token. -/
def textLen (toks : List Tok) (i : Nat) : Nat :=
  match Pipeline.tokAt toks i with
  | some t => t.text.length
  | none => 0

/-- `extendSubtreeTrails` – OrgParser.cpp:2555, on the nodes made by `parseTop`: it changes their
extents. -/
def outlined (toks : List Tok) (nodes : List (Node NK Unit)) : Except NodeGroup.Err (List (Node NK Unit)) :=
  match Outline.extendSubtreeTrails (textLen toks) (nodes.length + 1) (Parser.toOutline ⟨nodes, []⟩) 1 with
  | .error e => .error e
  | .ok g => .ok (List.zipWith (fun n m => ⟨n.kind, m.value⟩) nodes g.nodes)

/-- `parseString` – ParseContext.cpp:255-300: the subnodes of the document.  `n` bounds the loops of
the parser. -/
def load (lex : BaseLexer.Lexy) (n : Nat) (text : List Char) : Except ChainErr (List Sem) :=
  match Pipeline.parse lex n text with
  | .error e => .error (.parse e)
  | .ok (toks, nodes) =>
    match outlined toks nodes with
    | .error e => .error (.outline e)
    | .ok nodes =>
      match convertDocument toks nodes with
      | .error e => .error (.convert e)
      | .ok subs => .ok subs

/-- The text of a document is read and written again. -/
def resave {C : Type} (lex : BaseLexer.Lexy) (n : Nat) (A : Layout.Arith C) (o : Layout.Options C) (fuel : Nat)
    (name : BK → List Char) (text : List Char) : Except ChainErr (List Char) :=
  match load lex n text with
  | .error e => .error e
  | .ok subs =>
    match format A o fuel name subs with
    | .error e => .error (.layout e)
    | .ok t => .ok t

end Verif.Sem

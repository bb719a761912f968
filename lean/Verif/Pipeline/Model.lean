import Verif.Recombine.Model
import Verif.BaseLexer.Model
import Verif.Parser.Block

/-!
# From the text of a document to its parse tree

`ParseContext::parseStringOpts` – src/haxorg/api/ParseContext.cpp:255-300, without the fragments
(166-253), the trace files and callbacks, up to the parse tree (the conversion to the sem tree,
289-298, is not part of this).
-/

namespace Verif.Pipeline
open Verif.Token Verif.Parser

/-- The token with a number; numbers start at 1 (`TokenId::FromValue(1)`,
OrgTokenizer.cpp:1356). -/
def tokAt (toks : List Tok) (i : Nat) : Option Tok := if i = 0 then none else toks[i - 1]?

/-- `hstd::replace_all(tmp, "begin", "end")` – OrgParser.cpp:1469 (what `replace_all` does is
C39). -/
def beginToEnd : List Char → List Char
  | 'b' :: 'e' :: 'g' :: 'i' :: 'n' :: r => 'e' :: 'n' :: 'd' :: beginToEnd r
  | c :: r => c :: beginToEnd r
  | [] => []

/-- What the parser asks about the texts of its tokens: `lex.val().text.empty()`, `isFake`, and
whether a token names the end of a dynamic block – OrgParser.cpp:1455, 1468-1473. -/
def texts (toks : List Tok) : Texts where
  blank i := match tokAt toks i with | some t => t.text.isEmpty | none => true
  noLoc i := match tokAt toks i with | some t => t.isFake | none => true
  sameBlock i j := match tokAt toks i, tokAt toks j with
    | some a, some b => decide (BaseLexer.normalize (beginToEnd a.text) = BaseLexer.normalize b.text)
    | _, _ => false

/-- The exceptions of the stages. -/
inductive Err where
  | lexer (e : BaseLexer.Err)
  | tokenizer (e : Tokenizer.Err)
  | parser (e : PErr)
deriving DecidableEq, Repr

/-- The base tokens – ParseContext.cpp:263 – and the tokens of the parser – 275. -/
def tokens (lex : BaseLexer.Lexy) (text : List Char) : Except Err (List Tok) :=
  match BaseLexer.tokenize lex text with
  | .error e => .error (.lexer e)
  | .ok base =>
    match Recombine.convert base with
    | .error e => .error (.tokenizer e)
    | .ok toks => .ok toks

/-- The tokens and the nodes made from them – ParseContext.cpp:279-287, `parseTop` without the
outline pass (OrgParser.cpp:2554).  `n` bounds the loops and the recursion of the parser. -/
def parse (lex : BaseLexer.Lexy) (n : Nat) (text : List Char) :
    Except Err (List Tok × List (NodeGroup.Node NK Unit)) :=
  match tokens lex text with
  | .error e => .error e
  | .ok toks =>
    match parseTop (texts toks) n ⟨Lexer.Lex.main (toks.map (·.kind)), {}⟩ with
    | .error e => .error (.parser e)
    | .ok (_, s) => .ok (toks, s.g.nodes)

end Verif.Pipeline

import Verif.Code.Model

/-!
# Model of tables

* `src/haxorg/sem/SemConvert.cpp:276-312`: `convertTable`, from the nodes of a table to its rows and cells;
* `src/haxorg/lexbase/AstSpec.hpp:115-132` and 694-705, `src/haxorg/parse/OrgSpec.cpp:297-342`: the subnodes
  by their names;
* `src/haxorg/sem/SemOrgFormat.cpp:1051-1105`: from the table to its text; 616-706 and 1679-1697: from the
  links and paragraphs in it to theirs.

Lexer and parser are those of `Verif.Pipeline` (`parseTable`: `Verif/Parser/Block.lean`).  Simplifications,
for the whole file:
* Of a document, tables, paragraphs and line breaks are modelled; anything else, and a table with arguments,
  ends the conversion with `outside`.
* Of a paragraph, the leaves and the links are modelled, as in `Verif.Link`.
* What is attached to tables, paragraphs and links is left out.
-/

namespace Verif.Grid
open Verif.Token Verif.NodeGroup
open Verif.Parser (NK)
open Verif.Sem (Adapter)
open Verif.Stamp (Out)
open Verif.Drawer (Text)
open Verif.Link (getText Part Leaf Target showTarget)
open Verif.Code (each)

/-- A node of a document. -/
inductive Node where
  /-- `Table`: the rows, of each row its cells, of each cell its subnodes, which are paragraphs -/
  | table (rows : List (List (List (List Part))))
  | para (parts : List Part)
  | newline (text : Text)
deriving DecidableEq, Repr

/-! ## Reading -/

/-- `convert` for a subnode of a cell – SemConvert.cpp:2628-2735. -/
def parOf (toks : List Tok) (a : Adapter) : Out (List Part) :=
  if Sem.kindOf a = .Paragraph ∧ (Sem.children a).any Sem.isError = false then Link.paraOf toks a else .outside

/-- A cell – SemConvert.cpp:293-303; the subnodes by their names: OrgSpec.cpp:338-342. -/
def cellOf (toks : List Tok) (a : Adapter) : Out (List (List Part)) :=
  if Sem.kindOf a ≠ .TableCell then .outside
  else
    match Sem.children a with
    | args :: body :: _ => if Sem.kindOf args = .InlineStmtList then .outside else each (parOf toks) (Sem.children body)
    | _ => .throws

/-- A row – SemConvert.cpp:286-307; the subnodes by their names: OrgSpec.cpp:297-318. -/
def rowOf (toks : List Tok) (a : Adapter) : Out (List (List (List Part))) :=
  if Sem.kindOf a ≠ .TableRow then .outside
  else
    match Sem.children a with
    | args :: _ :: body :: _ => if Sem.kindOf args = .InlineStmtList then .outside else each (cellOf toks) (Sem.children body)
    | _ => .throws

/-- `convertTable` – SemConvert.cpp:276-312; the rows are the subnodes from the second on:
OrgSpec.cpp:332-336.  When there is no second one, the range of the rows is from 1 to 0, which is an error:
AstSpec.hpp:115-132 and 694-702. -/
def tableOf (toks : List Tok) (a : Adapter) : Out (List (List (List (List Part)))) :=
  match Sem.children a with
  | args :: row :: rows => if Sem.kindOf args = .InlineStmtList then .outside else each (rowOf toks) (row :: rows)
  | _ => .throws

/-- `convert` for the subnodes of a document – SemConvert.cpp:2628-2735. -/
def nodeOf (toks : List Tok) (a : Adapter) : Out Node :=
  if (Sem.children a).any Sem.isError then .outside
  else if Sem.kindOf a = .Table then (tableOf toks a).bind fun t => .ok (.table t)
  else if Sem.kindOf a = .Paragraph then (Link.paraOf toks a).bind fun p => .ok (.para p)
  else if Sem.kindOf a = .Newline then (getText toks a).bind fun t => .ok (.newline t)
  else .outside

/-- The nodes of a document: lexer, tokenizer, parser and conversion (`n`: fuel of the parser). -/
def readGrid (n : Nat) (text : Text) : Except Pipeline.Err (Out (List Node)) :=
  match Pipeline.parse BaseLexer.stdLex n text with
  | .error e => .error e
  | .ok (toks, nodes) => .ok (each (nodeOf toks) (Sem.children nodes))

/-! ## Writing -/

open Verif.Layout (Block)
open Verif.Sem (str stack added lineOf)

/-- `toString` for the leaves of a paragraph – `Sem.fmt`. -/
def leafFmt (l : Leaf) : Block := Sem.fmt (fun _ => []) (.leaf l.1 l.2)

/-- `rv::split_when` for the lines of a paragraph – SemOrgFormat.cpp:1684-1690; `true`: a line break. -/
def splitBreaks : List (Bool × Block) → List (List Block)
  | [] => [[]]
  | (true, _) :: r => [] :: splitBreaks r
  | (false, b) :: r =>
    match splitBreaks r with
    | l :: ls => (b :: l) :: ls
    | [] => [[b]]

/-- `toString(SemId<Paragraph>)` – SemOrgFormat.cpp:1679-1697. -/
def parFmt (bs : List (Bool × Block)) : Block := stack (added ((splitBreaks bs).map lineOf))

def leavesFmt (ls : List Leaf) : Block := parFmt (ls.map fun l => (l.1 == .Newline, leafFmt l))

/-- `toString(SemId<Link>)` – SemOrgFormat.cpp:674-706. -/
def linkFmt (t : Target) (desc : Option (List Leaf)) : Block :=
  match t, desc with
  | .raw u, none => str u
  | .footnote _, none => .line [str ['['], str (showTarget t), str [']']]
  | _, some d => .line [str "[[".toList, str (showTarget t), str "][".toList, leavesFmt d, str "]]".toList]
  | _, none => .line [str "[[".toList, str (showTarget t), str "]]".toList]

/-- Any other node is not written here. -/
def partFmt : Part → Block
  | .leaf k t => leafFmt (k, t)
  | .link t d => linkFmt t d
  | .other => str []

def isBreak : Part → Bool
  | .leaf .Newline _ => true
  | _ => false

/-- A paragraph – SemOrgFormat.cpp:1679-1697. -/
def paraFmt (ps : List Part) : Block := parFmt (ps.map fun p => (isBreak p, partFmt p))

/-- A cell – SemOrgFormat.cpp:1085-1091. -/
def cellFmt (pars : List (List Part)) : Block :=
  .line (added (pars.map fun p => [str [' '], paraFmt p, str [' ']]).flatten)

/-- A row – SemOrgFormat.cpp:1083-1098. -/
def rowFmt (cells : List (List (List Part))) : Block :=
  .line (str "| ".toList :: added (cells.map fun c => [cellFmt c, str ['|']]).flatten)

/-- `toString(SemId<Table>)` – SemOrgFormat.cpp:1051-1105, for a table without arguments; of a line break:
602-609. -/
def Node.fmt : Node → Block
  | .table rows => stack (added (rows.map rowFmt))
  | .para ps => paraFmt ps
  | .newline t => stack (added (List.replicate (t.length - 1) (str [])))

/-- The document – SemOrgFormat.cpp:176-387, with the default options and no properties. -/
def fmtDocument (ns : List Node) : Block :=
  match added (ns.map Node.fmt) with
  | [] => stack [str []]
  | bs => stack bs

def known (ps : List Part) : Bool := ps.all fun p => p != .other

def Node.plain : Node → Bool
  | .table rows => rows.all fun r => r.all fun c => c.all known
  | .para ps => known ps
  | .newline _ => true

/-- `Formatter::format` – SemOrgFormat.hpp:47-53, for a document; `none`: other nodes in paragraphs. -/
def write {C : Type} (A : Layout.Arith C) (o : Layout.Options C) (fuel : Nat) (ns : List Node) : Option (Except Layout.Err Text) :=
  if ns.all Node.plain then some (Layout.toString A o fuel (fmtDocument ns)) else none

end Verif.Grid

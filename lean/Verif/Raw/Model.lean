import Verif.Code.Model

/-!
# Model of example and export blocks

* `src/haxorg/sem/SemConvert.cpp:1918-1924`: `convertBlockExample`; 1983-2001: `convertBlockExport`;
* `src/haxorg/lexbase/AstSpec.hpp:115-132` and 694-705: the subnodes by their names;
* `src/haxorg/sem/SemOrgFormat.cpp:1637-1647` and 1657-1662: from the blocks to their text.

Lexer, tokenizer and parser are those of `Verif.Pipeline`.  Simplifications, for the whole file:
* Of a document, these two blocks, the line breaks and the empty paragraphs are modelled; anything else ends
  the conversion with `outside`.
* The arguments are kept in the order of the text, as in `Verif.Code`.
* Export blocks with arguments are not written.
-/

namespace Verif.Raw
open Verif.Token Verif.NodeGroup
open Verif.Parser (NK)
open Verif.Sem (Adapter)
open Verif.Stamp (Out)
open Verif.Drawer (Text)
open Verif.Link (getText)
open Verif.Code (Attr each attrOf named)

/-- `BlockExport` – SemOrgTypes.hpp. -/
structure Export where
  exporter : Text
  attrs : List Attr
  content : Text
deriving DecidableEq, Repr

/-- A node of a document. -/
inductive Node where
  /-- `BlockExample`: the texts of its subnodes, which are `RawText` -/
  | sample (texts : List Text)
  | foreign (block : Export)
  | newline (text : Text)
  /-- a paragraph without subnodes -/
  | nothing
deriving DecidableEq, Repr

/-! ## Reading -/

/-- `convertAttrs` – SemConvert.cpp:2208-2240, for a list without flags. -/
def attrsOf (toks : List Tok) (a : Adapter) : Out (List Attr) :=
  if Sem.kindOf a = .InlineStmtList then (each (attrOf toks) (Sem.children a)).bind fun as => .ok (named none as)
  else if Sem.kindOf a = .Empty then .ok []
  else .throws

/-- `convertRawText` – SemConvert.cpp:1819-1821. -/
def rawOf (toks : List Tok) (a : Adapter) : Out Text :=
  if Sem.kindOf a = .RawText then getText toks a else .outside

/-- `convertBlockExample` – SemConvert.cpp:1918-1924; the body is the subnodes from the second on:
OrgSpec.cpp:176-180.  When there is no second one, the range of the body is from 1 to 0, which is an error:
AstSpec.hpp:115-132 and 694-702. -/
def sampleOf (toks : List Tok) (a : Adapter) : Out (List Text) :=
  match Sem.children a with
  | _ :: b :: bs => each (rawOf toks) (b :: bs)
  | _ => .throws

/-- `convertBlockExport` – SemConvert.cpp:1983-2001: the last line break is not part of the content; the
subnodes by their names: OrgSpec.cpp:385-394. -/
def foreignOf (toks : List Tok) (a : Adapter) : Out Export :=
  match Sem.children a with
  | nm :: args :: body :: _ =>
    (attrsOf toks args).bind fun attrs =>
    (getText toks nm).bind fun exporter =>
    (each (getText toks) (Sem.children body).dropLast).bind fun texts =>
    .ok ⟨exporter, attrs, texts.flatten⟩
  | _ => .throws

/-- `convert` for the subnodes of a document – SemConvert.cpp:2628-2735. -/
def nodeOf (toks : List Tok) (a : Adapter) : Out Node :=
  if (Sem.children a).any Sem.isError then .outside
  else if Sem.kindOf a = .BlockExample then (sampleOf toks a).bind fun t => .ok (.sample t)
  else if Sem.kindOf a = .BlockExport then (foreignOf toks a).bind fun b => .ok (.foreign b)
  else if Sem.kindOf a = .Newline then (getText toks a).bind fun t => .ok (.newline t)
  else if Sem.kindOf a = .Paragraph ∧ Sem.children a = [] then .ok .nothing
  else .outside

/-- The nodes of a document: lexer, tokenizer, parser and conversion (`n`: fuel of the parser). -/
def readRaw (n : Nat) (text : Text) : Except Pipeline.Err (Out (List Node)) :=
  match Pipeline.parse BaseLexer.stdLex n text with
  | .error e => .error e
  | .ok (toks, nodes) => .ok (each (nodeOf toks) (Sem.children nodes))

/-! ## Writing -/

open Verif.Layout (Block)
open Verif.Sem (str stack added)

/-- `toString(SemId<BlockExample>)` – SemOrgFormat.cpp:1657-1662: each subnode is an element of the stack. -/
def fmtSample (texts : List Text) : Block :=
  stack (str "#+begin_example".toList :: (texts.map str ++ [str "#+end_example".toList]))

/-- `toString(SemId<BlockExport>)` – SemOrgFormat.cpp:1637-1647, for a block without arguments. -/
def Export.fmt (e : Export) : Block :=
  stack [.line [str ("#+begin_export ".toList ++ e.exporter)], str e.content, str "#+end_export".toList]

/-- `Formatter::toString` – a block; a line break, SemOrgFormat.cpp:602-609; an empty paragraph, 1679-1697. -/
def Node.fmt : Node → Block
  | .sample t => fmtSample t
  | .foreign e => e.fmt
  | .newline t => stack (added (List.replicate (t.length - 1) (str [])))
  | .nothing => stack []

/-- The document – SemOrgFormat.cpp:176-387, with the default options and no properties. -/
def fmtDocument (ns : List Node) : Block :=
  match added (ns.map Node.fmt) with
  | [] => stack [str []]
  | bs => stack bs

def Node.plain : Node → Bool
  | .foreign e => e.attrs.isEmpty
  | _ => true

/-- `Formatter::format` – SemOrgFormat.hpp:47-53, for a document; `none`: export blocks with arguments. -/
def write {C : Type} (A : Layout.Arith C) (o : Layout.Options C) (fuel : Nat) (ns : List Node) : Option (Except Layout.Err Text) :=
  if ns.all Node.plain then some (Layout.toString A o fuel (fmtDocument ns)) else none

end Verif.Raw

import Verif.Link.Model

/-!
# Model of source blocks

* `src/haxorg/sem/SemConvert.cpp:2456-2530`: `convertBlockCode`, from the nodes of a block to its language,
  its arguments and its lines; the arguments: 2139-2240;
* `src/haxorg/sem/SemOrgFormat.cpp:507-572`: from the block to its text.

Lexer, tokenizer and parser are those of `Verif.Pipeline`.  Simplifications, for the whole file:
* Of a document, the source blocks, the line breaks and the empty paragraphs are modelled; anything else
  ends the conversion with `outside`, and so do arguments in lisp or with a range of cells, and results.
* The arguments are kept in the order of the text.  How they are grouped by their names is
  `Verif.Api.readAttrs` (SemConvert.cpp:2208-2240).
* Blocks with arguments are not written.
-/

namespace Verif.Code
open Verif.Token Verif.NodeGroup
open Verif.Parser (NK)
open Verif.Sem (Adapter)
open Verif.Stamp (Out)
open Verif.Drawer (Text)
open Verif.Link (getText)

/-- `BlockCodeLine::Part` – SemOrgSharedTypes.hpp; callouts are not made by the conversion. -/
inductive Part where
  | raw (code : Text)
  | tangle (target : Text)
deriving DecidableEq, Repr

/-- `AttrValue::DataVariant` – SemOrgSharedTypes.hpp:311. -/
inductive Value where
  | text (value : Text)
  | file (file reference : Text)
deriving DecidableEq, Repr

/-- `AttrValue` – SemOrgSharedTypes.hpp:280-343. -/
structure Attr where
  name : Option Text
  varname : Option Text
  quoted : Bool
  value : Value
deriving DecidableEq, Repr

/-- `BlockCode` – SemOrgTypes.hpp: without results. -/
structure Source where
  lang : Option Text
  attrs : List Attr
  lines : List (List Part)
deriving DecidableEq, Repr

/-- A node of a document. -/
inductive Node where
  | code (block : Source)
  | newline (text : Text)
  /-- a paragraph without subnodes -/
  | nothing
deriving DecidableEq, Repr

/-! ## Reading -/

/-- `split(value, ':')` – strutils.cpp:692-706. -/
def splitColon : Text → List Text
  | [] => [[]]
  | c :: r =>
    if c = ':' then [] :: splitColon r
    else
      match splitColon r with
      | [] => [[c]]
      | t :: ts => (c :: t) :: ts

/-- A value – SemConvert.cpp:2155-2176: is it quoted, and what is it? (With one colon only there is no `::`
in it.) -/
def valueOf (t : Text) : Bool × Value :=
  if t.head? = some '"' ∧ t.getLast? = some '"' then (true, .text ((t.drop 1).take (t.length - 2)))
  else
    match splitColon t with
    | [f, r] => (false, .file f r)
    | _ => (false, .text t)

/-- `get_text` of a field which may be empty. -/
def optText (toks : List Tok) (a : Adapter) : Out (Option Text) :=
  if Sem.kindOf a = .Empty then .ok none else (getText toks a).bind fun t => .ok (some t)

/-- `convertAttr` – SemConvert.cpp:2139-2206; the subnodes by their names: OrgSpec.cpp:246-253. -/
def attrOf (toks : List Tok) (a : Adapter) : Out Attr :=
  match Sem.children a with
  | nm :: sub :: v :: cells :: _ =>
    (optText toks nm).bind fun name =>
    (optText toks sub).bind fun varname =>
    (if Sem.kindOf v = .RawText then (getText toks v).bind fun t => .ok (valueOf t)
      else if Sem.kindOf v = .AttrLisp then .outside
      else (getText toks v).bind fun t => .ok (false, Value.text t)).bind fun (quoted, value) =>
    if Sem.kindOf cells = .Empty then .ok ⟨name.map (·.dropWhile (· = ':')), varname, quoted, value⟩ else .outside
  | _ => .throws

/-- `for` loop with conversion of each element. -/
def each {α β : Type} (f : α → Out β) : List α → Out (List β)
  | [] => .ok []
  | a :: as => (f a).bind fun b => (each f as).bind fun bs => .ok (b :: bs)

/-- The name an argument without a name gets – SemConvert.cpp:2214-2227: that of the last argument with a
name. -/
def named : Option Text → List Attr → List Attr
  | _, [] => []
  | last, a :: as =>
    match a.name with
    | some n => a :: named (some n) as
    | none => { a with name := last } :: named last as

/-- `convertAttrs` – SemConvert.cpp:2208-2240 and 2467-2471; the values are the second subnode: OrgSpec.cpp:230-245. -/
def attrsOf (toks : List Tok) (a : Adapter) : Out (List Attr) :=
  if Sem.kindOf a = .Empty then .ok []
  else if Sem.kindOf a = .Attrs then
    match Sem.children a with
    | _ :: vs :: _ => (each (attrOf toks) (Sem.children vs)).bind fun as => .ok (named none as)
    | _ => .throws
  else .throws

/-- A part of a line – SemConvert.cpp:2487-2508. -/
def partOf (toks : List Tok) (a : Adapter) : Out Part :=
  if Sem.kindOf a = .CodeText then (getText toks a).bind fun t => .ok (.raw t)
  else if Sem.kindOf a = .CodeTangle then
    match Sem.children a with
    | nm :: _ => (getText toks nm).bind fun t => .ok (.tangle t)
    | [] => .throws
  else .throws

/-- `convertBlockCode` – SemConvert.cpp:2456-2530, for a block; the subnodes by their names:
OrgSpec.cpp:411-422. -/
def sourceOf (toks : List Tok) (a : Adapter) : Out Source :=
  match Sem.children a with
  | l :: h :: b :: r :: _ =>
    (optText toks l).bind fun lang =>
    (attrsOf toks h).bind fun attrs =>
    (each (fun line => each (partOf toks) (Sem.children line)) (Sem.children b)).bind fun lines =>
    if Sem.kindOf r = .Empty then .ok ⟨lang, attrs, lines⟩ else .outside
  | _ => .throws

/-- `convert` for the subnodes of a document – SemConvert.cpp:2628-2735. -/
def nodeOf (toks : List Tok) (a : Adapter) : Out Node :=
  if (Sem.children a).any Sem.isError then .outside
  else if Sem.kindOf a = .BlockCode then (sourceOf toks a).bind fun b => .ok (.code b)
  else if Sem.kindOf a = .Newline then (getText toks a).bind fun t => .ok (.newline t)
  else if Sem.kindOf a = .Paragraph ∧ Sem.children a = [] then .ok .nothing
  else .outside

/-- The nodes of a document: lexer, tokenizer, parser and conversion (`n`: fuel of the parser). -/
def readCode (n : Nat) (text : Text) : Except Pipeline.Err (Out (List Node)) :=
  match Pipeline.parse BaseLexer.stdLex n text with
  | .error e => .error e
  | .ok (toks, nodes) => .ok (each (nodeOf toks) (Sem.children nodes))

/-! ## Writing -/

open Verif.Layout (Block)
open Verif.Sem (str stack added)

/-- A part of a line – SemOrgFormat.cpp:535-550. -/
def Part.fmt : Part → List Block
  | .raw t => [str t]
  | .tangle t => [str "<<".toList, str t, str ">>".toList]

/-- A line – SemOrgFormat.cpp:533-556. -/
def fmtLine (l : List Part) : Block :=
  .line (if l.isEmpty then [str []] else (l.map Part.fmt).flatten)

/-- The first line – SemOrgFormat.cpp:515-529. -/
def fmtHead (lang : Option Text) : Block :=
  .line (str "#+begin_src".toList :: match lang with
    | none => []
    | some l => [str (' ' :: l)])

/-- `toString(SemId<BlockCode>)` – SemOrgFormat.cpp:507-572, for a block without arguments. -/
def Source.fmt (s : Source) : Block :=
  stack (added (fmtHead s.lang :: (s.lines.map fmtLine ++ [str "#+end_src".toList])))

/-- `Formatter::toString` – a block; a line break, SemOrgFormat.cpp:602-609; an empty paragraph, 1679-1697. -/
def Node.fmt : Node → Block
  | .code s => s.fmt
  | .newline t => stack (added (List.replicate (t.length - 1) (str [])))
  | .nothing => stack []

/-- The document – SemOrgFormat.cpp:176-387, with the default options and no properties. -/
def fmtDocument (ns : List Node) : Block :=
  match added (ns.map Node.fmt) with
  | [] => stack [str []]
  | bs => stack bs

def Node.plain : Node → Bool
  | .code s => s.attrs.isEmpty
  | _ => true

/-- `Formatter::format` – SemOrgFormat.hpp:47-53, for a document; `none`: blocks with arguments. -/
def write {C : Type} (A : Layout.Arith C) (o : Layout.Options C) (fuel : Nat) (ns : List Node) : Option (Except Layout.Err Text) :=
  if ns.all Node.plain then some (Layout.toString A o fuel (fmtDocument ns)) else none

end Verif.Code

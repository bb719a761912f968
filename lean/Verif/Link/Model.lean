import Verif.Stamp.Model

/-!
# Model of links

* `src/haxorg/sem/SemConvert.cpp:1230-1300`: `convertLink`, from the nodes of a link to its target and
  its description;
* `src/haxorg/sem/SemOrgFormat.cpp:616-706`: from the link to its text.

Lexer and parser are those of `Verif.Pipeline`.  Simplifications, for the whole file:
* Of a paragraph, the leaves and the links are modelled; any other node of a paragraph is `Part.other`, and
  any other node of a description ends the conversion with `outside`.
* Nodes of kind `RawLink` are not modelled: the parser does not make any.
* A paragraph is written by writing its nodes one after the other (for leaves this is what the layouter
  does, see `Verif.Sem.Exact`); what is attached to a link is left out.
-/

namespace Verif.Link
open Verif.Token Verif.NodeGroup
open Verif.Parser (NK)
open Verif.Sem (LK Adapter)
open Verif.Stamp (Out)
open Verif.Drawer (Text)
open Verif.BaseLexer (normalize)

/-- `LinkTarget` – SemOrgSharedTypes.hpp:383-500. -/
inductive Target where
  | raw (text : Text)
  | id (text : Text)
  | customId (text : Text)
  /-- `SubtreeTitle`: number of stars and titles -/
  | title (level : Nat) (path : List Text)
  | person (name : Text)
  | user (protocol target : Text)
  | internal (target : Text)
  | footnote (target : Text)
  | file (file : Text)
  | attachment (file : Text)
deriving DecidableEq, Repr

/-- A leaf: its kind and its text. -/
abbrev Leaf := LK × Text

/-- A node of a paragraph. -/
inductive Part where
  | leaf (k : LK) (text : Text)
  /-- `desc`: the nodes of the description -/
  | link (target : Target) (desc : Option (List Leaf))
  | other
deriving DecidableEq, Repr

/-! ## Reading -/

/-- `get_text` – SemConvert.cpp:234-250 (the case of an `InlineStmtList` does not occur in links). -/
def getText (toks : List Tok) (a : Adapter) : Out Text :=
  match a with
  | [] => .throws
  | n :: _ =>
    match n.value with
    | .tok i => match Pipeline.tokAt toks i with | some t => .ok t.text | none => .throws
    | _ => if n.kind = .Empty then .ok [] else .throws

/-- `lstrip(get_text(one(a, N::Link)), CharSet{':'})` – SemConvert.cpp:1234. -/
def stripColons (t : Text) : Text := t.dropWhile (· = ':')

/-- `strip(…, {' '}, {' '})`. -/
def stripSpaces (t : Text) : Text := Sem.stripSets t (· = ' ') (· = ' ')

/-- `split(…, "/")` – strutils.cpp:692-706. -/
def splitSlash : Text → List Text
  | [] => [[]]
  | c :: r =>
    if c = '/' then [] :: splitSlash r
    else
      match splitSlash r with
      | [] => [[c]]
      | t :: ts => (c :: t) :: ts

/-- A target without protocol – SemConvert.cpp:1241-1262. -/
def plainTarget (t : Text) : Target :=
  match t with
  | '.' :: _ | '/' :: _ => .file t
  | '*' :: _ => .title (t.takeWhile (· = '*')).length (splitSlash (t.dropWhile fun c => c = '*' || c = ' '))
  | _ => .internal t

/-- The texts of the subnodes – SemConvert.cpp:1277-1279. -/
def textsOf (toks : List Tok) : List Adapter → Out Text
  | [] => .ok []
  | a :: as => (getText toks a).bind fun t => (textsOf toks as).bind fun u => .ok (t ++ u)

/-- A target with a protocol – SemConvert.cpp:1264-1293; the target of any other protocol is not read. -/
def protocolTarget (toks : List Tok) (protocol : Text) (link : Adapter) : Out Target :=
  let p := normalize protocol
  let target := (getText toks link).bind fun t => .ok (stripColons t)
  if p = "http".toList ∨ p = "https".toList then target.bind fun t => .ok (.raw (p ++ ':' :: t))
  else if p = "id".toList then target.bind fun t => .ok (.id (stripSpaces t))
  else if p = "person".toList then (textsOf toks (Sem.children link)).bind fun t => .ok (.person t)
  else if p = "file".toList then target.bind fun t => .ok (.file t)
  else if p = "attachment".toList then target.bind fun t => .ok (.attachment t)
  else if protocol = "#".toList then target.bind fun t => .ok (.customId t)
  else .ok (.user p [])

/-- The leaves of a paragraph. -/
def leafOf (toks : List Tok) (a : Adapter) : Out Leaf :=
  match a with
  | [] => .throws
  | n :: _ =>
    match Sem.leafKind n.kind with
    | some k => (getText toks a).bind fun t => .ok (k, t)
    | none => .outside

def leavesOf (toks : List Tok) : List Adapter → Out (List Leaf)
  | [] => .ok []
  | a :: as => (leafOf toks a).bind fun l => (leavesOf toks as).bind fun ls => .ok (l :: ls)

def blank (k : LK) : Bool := k == .Newline || k == .Space

/-- `convertParagraph` – SemConvert.cpp:1197-1209: line breaks and spaces at the end are taken off. -/
def descOf (toks : List Tok) (a : Adapter) : Out (List Leaf) :=
  (leavesOf toks (Sem.children a)).bind fun ls => .ok (ls.reverse.dropWhile fun l => blank l.1).reverse

/-- The description – SemConvert.cpp:1295-1299. -/
def descField (toks : List Tok) (a : Adapter) : Out (Option (List Leaf)) :=
  if Sem.kindOf a = .Paragraph then (descOf toks a).bind fun d => .ok (some d) else .ok none

/-- `convertLink` – SemConvert.cpp:1230-1302; the subnodes by their names: OrgSpec.cpp:447-449, 473-478. -/
def convertLink (toks : List Tok) (a : Adapter) : Out Part :=
  if Sem.kindOf a = .Footnote then
    match Sem.children a with
    | _ :: d :: _ => (getText toks d).bind fun t => .ok (.link (.footnote t) none)
    | _ => .throws
  else
    match Sem.children a with
    | p :: l :: d :: _ =>
      (if Sem.kindOf p = .Empty then (getText toks l).bind fun t => .ok (plainTarget (stripColons t))
        else (getText toks p).bind fun p => protocolTarget toks p l).bind fun t =>
      (descField toks d).bind fun d => .ok (.link t d)
    | _ => .throws

/-- `convert` for the subnodes of a paragraph – SemConvert.cpp:2628-2735.  A node with an error in it is
an `ErrorGroup`. -/
def partOf (toks : List Tok) (a : Adapter) : Out Part :=
  match a with
  | [] => .throws
  | n :: _ =>
    if (Sem.children a).any Sem.isError then .ok .other
    else if n.kind = .Link ∨ n.kind = .Footnote then convertLink toks a
    else
      match Sem.leafKind n.kind with
      | some k => (getText toks a).bind fun t => .ok (.leaf k t)
      | none => .ok .other

def partsOf (toks : List Tok) : List Adapter → Out (List Part)
  | [] => .ok []
  | a :: as => (partOf toks a).bind fun p => (partsOf toks as).bind fun ps => .ok (p :: ps)

def Part.isBlank : Part → Bool
  | .leaf k _ => blank k
  | _ => false

/-- `convertParagraph` – SemConvert.cpp:1197-1209. -/
def paraOf (toks : List Tok) (a : Adapter) : Out (List Part) :=
  (partsOf toks (Sem.children a)).bind fun ps => .ok (ps.reverse.dropWhile Part.isBlank).reverse

/-- All of the subnodes of the document: paragraphs without errors only. -/
def parasOf (toks : List Tok) : List Adapter → Out (List (List Part))
  | [] => .ok []
  | a :: as =>
    if Sem.kindOf a = .Paragraph ∧ (Sem.children a).any Sem.isError = false then (paraOf toks a).bind fun p => (parasOf toks as).bind fun ps => .ok (p :: ps)
    else .outside

/-- The paragraphs of a document: lexer, parser and conversion (`n`: fuel of the parser). -/
def readParas (n : Nat) (text : Text) : Except Pipeline.Err (Out (List (List Part))) :=
  match Pipeline.parse BaseLexer.stdLex n text with
  | .error e => .error e
  | .ok (toks, nodes) => .ok (parasOf toks (Sem.children nodes))

/-! ## Writing -/

/-- `join("/", …)` – SemOrgFormat.cpp:33. -/
def joinSlash : List Text → Text
  | [] => []
  | [t] => t
  | t :: ts => t ++ '/' :: joinSlash ts

/-- `toString(LinkTarget)` – SemOrgFormat.cpp:616-672. -/
def showTarget : Target → Text
  | .person name => "person:".toList ++ name
  | .attachment f => "attachment:".toList ++ f
  | .file f => "file:".toList ++ f
  | .id t => "id:".toList ++ t
  | .internal t => t
  | .raw t => t
  | .customId t => '#' :: t
  | .title _ path => '*' :: joinSlash path
  | .footnote t => "fn:".toList ++ t
  | .user p t => p ++ ':' :: t

def showLeaves (ls : List Leaf) : Text := (ls.map Prod.snd).flatten

/-- `toString(SemId<Link>)` – SemOrgFormat.cpp:674-706. -/
def showLink (t : Target) (desc : Option (List Leaf)) : Text :=
  match t, desc with
  | .raw u, none => u
  | .footnote _, none => '[' :: showTarget t ++ [']']
  | _, some d => "[[".toList ++ showTarget t ++ "][".toList ++ showLeaves d ++ "]]".toList
  | _, none => "[[".toList ++ showTarget t ++ "]]".toList

/-- Any other node is not written here. -/
def Part.show : Part → Text
  | .leaf _ t => t
  | .link t d => showLink t d
  | .other => []

/-- The nodes of a paragraph one after the other, and the end of the line. -/
def showPara (ps : List Part) : Text := (ps.map Part.show).flatten ++ ['\n']

end Verif.Link

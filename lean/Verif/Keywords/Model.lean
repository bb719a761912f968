import Verif.Code.Model
import Verif.Drawer.Model

/-!
# Model of the keyword lines of a document

* `src/haxorg/sem/SemConvert.cpp:2749-2889`: `convertDocumentOptions`; 2895-2995: `updateDocument`; 3026-3043:
  `convertDocument`; 1379-1386: `convertCmdEmail`; 1397-1404: `convertCmdCustomRaw`; 145-149: `org_streq`,
  `strip_space`; 234-250: `get_text`;
* `src/haxorg/sem/SemOrgTypes.hpp:960-992`: `DocumentOptions`; `SemOrgSharedTypes.hpp:872-1030`:
  `DocumentExportConfig`;
* `src/haxorg/sem/SemOrgFormat.cpp:176-387`: the document; 745-748 and 792-795: the commands.

Lexer, tokenizer and parser are those of `Verif.Pipeline`.  Simplifications, for the whole file:
* Of a document, the nodes of `#+startup`, `#+options`, `#+keywords`, `#+email` and the custom commands are
  modelled; anything else ends the conversion with `outside`.
* The switches of `DocumentExportConfig` are one function from their names to their values.
* Of the errors in `#+options` the text of the item is kept.
* Neither `CmdEmail` nor `CmdCustomRaw` is `Attached`, so `flatConvertAttached` (2547-2616) converts them one by
  one.
-/

namespace Verif.Keywords
open Verif.Token Verif.NodeGroup
open Verif.Parser (NK)
open Verif.Sem (Adapter)
open Verif.Stamp (Out)
open Verif.Drawer (Text splitChar splitStr stripSpace stoi)
open Verif.BaseLexer (normalize)
open Verif.Code (each)

/-- `InitialSubtreeVisibility` – SemOrgEnums.hpp. -/
inductive Visibility where
  | overview | content | showAll | show2 | show3 | show4 | show5 | showEverything
deriving DecidableEq, Repr

/-- The fields of type `Opt<bool>` in `DocumentExportConfig` – SemOrgSharedTypes.hpp:959-1012. -/
inductive Switch where
  | inlinetasks | footnotes | clock | author | todoText | emphasis | specialStrings | smartQuotes | fixedWidth
  | timestamps | preserveBreaks | subSuperscripts | expandLinks | creator | drawers | date | entities | email
  | sectionNumbers | planning | priority | propertyDrawers | statisticsCookies | latex | timestamp | title | tables
deriving DecidableEq, Repr

/-- `BrokenLinks` – SemOrgSharedTypes.hpp:898. -/
inductive Broken where
  | none | mark | raise | ignore
deriving DecidableEq, Repr

/-- `TagExport` – SemOrgSharedTypes.hpp:879-884. -/
inductive Tags where
  | none | all | notInToc
deriving DecidableEq, Repr

/-- `TaskFiltering` – SemOrgSharedTypes.hpp:886-895. -/
inductive Tasks where
  | whitelist | done | none | all
deriving DecidableEq, Repr

/-- `ArchivedTrees` – SemOrgSharedTypes.hpp:901-908. -/
inductive Arch where
  | skip | headline | all
deriving DecidableEq, Repr

/-- `TocExport` – SemOrgSharedTypes.hpp:910-921; the default is an uninitialized `DoExport`. -/
inductive Toc where
  | unset | whole (b : Bool) | levels (n : Int)
deriving DecidableEq, Repr

/-- `DocumentOptions` and its `DocumentExportConfig`. -/
structure Opts where
  visibility : Visibility := .showEverything
  indented : Option Bool := none
  fixedSections : Option Bool := none
  switch : Switch → Option Bool := fun _ => none
  levels : Option Int := none
  broken : Broken := .none
  tags : Tags := .notInToc
  tasks : Tasks := .all
  arch : Arch := .headline
  toc : Toc := .unset
  /-- the items which are not understood: error nodes below the options -/
  errors : List Text := []

/-- A node of a document. -/
inductive Node where
  | email (text : Text)
  | custom (name text : Text)
deriving DecidableEq, Repr

/-- `Document`: what is set by the keyword lines, and the nodes. -/
structure Doc where
  opts : Opts := {}
  nodes : List Node := []

/-! ## Reading -/

/-- `org_streq` – SemConvert.cpp:145-147. -/
def same (a : Text) (b : String) : Bool := normalize a == normalize b.toList

/-- `parseBool` – SemConvert.cpp:2754. -/
def parseBool (t : Text) : Bool := t == "t".toList || t == "T".toList

/-- `opts->exportConfig.… = …`. -/
def Opts.turn (o : Opts) (s : Switch) (b : Bool) : Opts := { o with switch := fun x => if x = s then some b else o.switch x }

/-- The keys of the switches, in the order in which they are compared – SemConvert.cpp:2776-2834. -/
def switchKeys : List (String × Switch) :=
  [("inline", .inlinetasks), ("f", .footnotes), ("c", .clock), ("author", .author), ("todo", .todoText), ("*", .emphasis),
   ("-", .specialStrings), ("'", .smartQuotes), (":", .fixedWidth), ("<", .timestamps), ("\\n", .preserveBreaks),
   ("^", .subSuperscripts), ("expand-links", .expandLinks), ("creator", .creator), ("d", .drawers), ("date", .date),
   ("e", .entities), ("email", .email), ("num", .sectionNumbers), ("p", .planning), ("pri", .priority),
   ("prop", .propertyDrawers), ("stat", .statisticsCookies), ("tex", .latex), ("timestamp", .timestamp), ("title", .title),
   ("|", .tables)]

/-- `Str::toInt`. -/
def number (t : Text) : Out Int :=
  match stoi t with
  | .ok n => .ok n
  | .error _ => .throws

/-- One item with a colon – SemConvert.cpp:2759-2876.  `tail[0]` of an empty text is the terminating zero. -/
def setting (value head tail : Text) (o : Opts) : Out Opts :=
  if same head "broken-links" then
    if same tail "mark" then .ok { o with broken := .mark }
    else if same tail "t" then .ok { o with broken := .ignore }
    else .ok o
  else if same head "toc" then
    if same tail "t" then .ok { o with toc := .whole true }
    else if same tail "nil" then .ok { o with toc := .whole false }
    else
      match tail with
      | [] => .ok o
      | c :: _ => if BaseLexer.isDigit c then (number tail).bind fun n => .ok { o with toc := .levels n } else .ok o
  else
    match switchKeys.find? fun e => same head e.1 with
    | some (_, s) => .ok (o.turn s (parseBool tail))
    | none =>
      if same head "H" then (number tail).bind fun n => .ok { o with levels := some n }
      else if same head "arch" then
        if same tail "headline" then .ok { o with arch := .headline }
        else if same tail "t" then .ok { o with arch := .all }
        else if same tail "nil" then .ok { o with arch := .skip }
        else .ok o
      else if same head "tags" then
        if same tail "not-in-toc" then .ok { o with tags := .notInToc }
        else if same tail "t" then .ok { o with tags := .all }
        else if same tail "nil" then .ok { o with tags := .none }
        else .ok o
      else if same head "tasks" then
        if same tail "nil" then .ok { o with tasks := .none }
        else if same tail "t" then .ok { o with tasks := .all }
        else if same tail "todo" then .ok { o with tasks := .done }
        else .ok o
      else .ok { o with errors := o.errors ++ [value] }

/-- One item – SemConvert.cpp:2755-2888; `split[1]` is checked (Vec.hpp:51-59, 342-345). -/
def item (value : Text) (o : Opts) : Out Opts :=
  if ':' ∈ value then
    match splitChar ':' value with
    | head :: tail :: _ => setting value head tail o
    | _ => .throws
  else if same value ":" then .ok { o with fixedSections := some true }
  else .ok { o with errors := o.errors ++ [value] }

/-- The loop of `convertDocumentOptions` – SemConvert.cpp:2755. -/
def items : List Text → Opts → Out Opts
  | [], o => .ok o
  | v :: vs, o => (item v o).bind (items vs)

/-- `convertDocumentOptions` – SemConvert.cpp:2749-2889, on the text of the line. -/
def optionsLine (text : Text) (o : Opts) : Out Opts := items (splitChar ' ' text) o

/-- The words of `#+startup` – SemConvert.cpp:2931-2948. -/
def visibilityOf (w : Text) : Option Visibility :=
  if w = "content".toList then some .content
  else if w = "overview".toList then some .overview
  else if w = "showall".toList then some .showAll
  else if w = "show2levels".toList then some .show2
  else if w = "show3levels".toList then some .show3
  else if w = "show4levels".toList then some .show4
  else if w = "showeverything".toList then some .showEverything
  else none

/-- The case of `#+startup` – SemConvert.cpp:2927-2957, on the text of the line. -/
def startupLine (text : Text) (o : Opts) : Out Opts :=
  match splitStr " ".toList (stripSpace text) with
  | [] => .throws
  | w :: ws =>
    match visibilityOf (normalize w) with
    | none => .throws
    | some v =>
      let o := { o with visibility := v }
      match ws with
      | x :: _ => if same x "indent" then .ok { o with indented := some true } else .ok o
      | [] => .ok o

/-- `get_text` – SemConvert.cpp:234-250, with the case of a list. -/
def listText (toks : List Tok) (a : Adapter) : Out Text :=
  if Sem.kindOf a = .InlineStmtList then (each (Link.getText toks) (Sem.children a)).bind fun ts => .ok ts.flatten
  else Link.getText toks a

/-- `sub.at(0)`, and the text of it. -/
def firstText (toks : List Tok) (a : Adapter) : Out Text :=
  match Sem.children a with
  | [] => .throws
  | b :: _ => listText toks b

/-- `convertCmdEmail` – SemConvert.cpp:1379-1386: the argument is the first subnode (OrgSpec.cpp:66-73, 354). -/
def emailOf (toks : List Tok) (a : Adapter) : Out Node :=
  match Sem.children a with
  | [] => .ok (.email [])
  | b :: _ => (listText toks b).bind fun t => .ok (.email (stripSpace t))

/-- `convertCmdCustomRaw` – SemConvert.cpp:1397-1404; the name and the argument are the first two subnodes
(OrgSpec.cpp:441-446). -/
def customOf (toks : List Tok) (a : Adapter) : Out Node :=
  match Sem.children a with
  | [] => .throws
  | [nm] => (listText toks nm).bind fun n => .ok (.custom n [])
  | nm :: b :: _ => (listText toks nm).bind fun n => (listText toks b).bind fun t => .ok (.custom n t)

/-- `updateDocument` – SemConvert.cpp:2895-2995 – and otherwise `convert` – 2628-2735.  The code first goes over
all the nodes with `updateDocument` and then converts those which are left, which has the same result since the
conversion does not use the options. -/
def update (toks : List Tok) (a : Adapter) (d : Doc) : Out Doc :=
  if Sem.kindOf a = .CmdOptions then (firstText toks a).bind fun t => (optionsLine t d.opts).bind fun o => .ok { d with opts := o }
  else if Sem.kindOf a = .CmdStartup then (firstText toks a).bind fun t => (startupLine t d.opts).bind fun o => .ok { d with opts := o }
  else if Sem.kindOf a = .CmdKeywords then .ok d
  else if (Sem.children a).any Sem.isError then .outside
  else if Sem.kindOf a = .CmdEmail then (emailOf toks a).bind fun n => .ok { d with nodes := d.nodes ++ [n] }
  else if Sem.kindOf a = .CmdCustomRawCommand then (customOf toks a).bind fun n => .ok { d with nodes := d.nodes ++ [n] }
  else .outside

/-- `convertDocument` – SemConvert.cpp:3026-3043. -/
def updates (toks : List Tok) : List Adapter → Doc → Out Doc
  | [], d => .ok d
  | a :: as, d => (update toks a d).bind (updates toks as)

/-- The document: lexer, tokenizer, parser and conversion (`n`: fuel of the parser). -/
def read (n : Nat) (text : Text) : Except Pipeline.Err (Out Doc) :=
  match Pipeline.parse BaseLexer.stdLex n text with
  | .error e => .error e
  | .ok (toks, nodes) => .ok (updates toks (Sem.children nodes) {})

/-! ## Writing -/

open Verif.Layout (Block)
open Verif.Sem (str stack added)

/-- The word of a visibility – SemOrgFormat.cpp:190-199. -/
def Visibility.word : Visibility → Text
  | .showEverything => "showeverything".toList
  | .content => "content".toList
  | .overview => "overview".toList
  | .showAll => "showall".toList
  | .show2 => "show2levels".toList
  | .show3 => "show3levels".toList
  | .show4 => "show4levels".toList
  | .show5 => "show5levels".toList

/-- `#+startup` – SemOrgFormat.cpp:187-202. -/
def fmtStartup (v : Visibility) : List Block :=
  if v = .showEverything then [] else [.line [str "#+startup: ".toList, str v.word]]

/-- The only option which is written – SemOrgFormat.cpp:303-321; `join` is a line. -/
def fmtOptions : Broken → List Block
  | .none => []
  | .ignore => [.line [str "#+options: ".toList, .line [str "broken-links:ignore".toList]]]
  | .mark => [.line [str "#+options: ".toList, .line [str "broken-links:mark".toList]]]
  | .raise => [.line [str "#+options: ".toList, .line [str "broken-links:raise".toList]]]

/-- `toString(SemId<CmdEmail>)` – SemOrgFormat.cpp:745-748; `toString(SemId<CmdCustomRaw>)` – 792-795. -/
def Node.fmt : Node → Block
  | .email t => .line [str "#+email: ".toList, str t]
  | .custom n t => .line [str ("#+".toList ++ n ++ ": ".toList ++ t)]

/-- The document – SemOrgFormat.cpp:176-387, for a document without title, columns, tags, keywords, author and
properties. -/
def fmtDocument (d : Doc) : Block :=
  match fmtStartup d.opts.visibility ++ fmtOptions d.opts.broken ++ d.nodes.map Node.fmt with
  | [] => stack [str []]
  | bs => stack bs

/-- `Formatter::format` – SemOrgFormat.hpp:47-53. -/
def write {C : Type} (A : Layout.Arith C) (o : Layout.Options C) (fuel : Nat) (d : Doc) : Except Layout.Err Text :=
  Layout.toString A o fuel (fmtDocument d)

end Verif.Keywords

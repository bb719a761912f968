import Verif.Pipeline.Model
import Verif.Layout.Model

/-!
# Model of the semantic conversion and of the formatter, for prose, lists and headlines

* `src/haxorg/sem/SemConvert.cpp`: from the parse tree to the sem tree;
* `src/haxorg/sem/SemOrgFormat.cpp`: from the sem tree to a block for the text layouter, which
  prints it.

Simplifications, for the whole file:
* The node kinds left out end the conversion with `Err.outside`: links, times, tables, blocks,
  commands, drawers, hashtags outside of headlines, error nodes.  The formatter of the remaining kinds
  is complete, except that tags are names without subtags, and that there are neither times,
  properties, completions nor logs on headlines.
* A sem node has no location, parent or generated flags.
* A block contains its elements instead of their ids (see `Verif.Layout.Model`).
-/

namespace Verif.Sem
open Verif.Token Verif.NodeGroup
open Verif.Parser (NK)

/-- The leaves: sem nodes with a `text` (`SemLeaf`, SemConvert.cpp:118-124). -/
inductive LK where
  | Word | Space | Newline | Punctuation | BigIdent | RawText | Escaped | Placeholder | AtMention
deriving DecidableEq, Repr

/-- The nodes with nothing but subnodes. -/
inductive BK where
  | Bold | Italic | Strike | Underline | Monospace | Verbatim | Par | MarkQuote
  | Paragraph | StmtList | List
deriving DecidableEq, Repr

/-- `CheckboxState`. -/
inductive Checkbox where
  | none | done | empty | partly
deriving DecidableEq, Repr

/-- `ListItem` (SemOrgTypes.hpp:944-958) without its nodes. -/
structure ItemInfo where
  bullet : Option (List Char)
  box : Checkbox
  /-- is there a header? -/
  described : Bool
deriving DecidableEq, Repr

/-- `Subtree` without its nodes. -/
structure HeadInfo where
  level : Nat
  todo : Option (List Char) := none
  priority : Option (List Char) := none
  comment : Bool := false
  archived : Bool := false
  tags : List (List Char) := []
deriving DecidableEq, Repr

/-- A sem node. -/
inductive Sem where
  | leaf (k : LK) (text : List Char)
  | tree (k : BK) (subs : List Sem)
  /-- `header`: the subnodes of the header paragraph -/
  | item (info : ItemInfo) (header subs : List Sem)
  /-- `title`: the subnodes of the title paragraph -/
  | head (info : HeadInfo) (title subs : List Sem)

/-- Abnormal outcomes of the conversion. -/
inductive Err where
  /-- failed assertion, or the exceptions `convert_logic_error` and `range_error` -/
  | exception
  /-- a kind of node left out of the model -/
  | outside
  /-- the fuel of the model is used up -/
  | diverges
deriving DecidableEq, Repr

/-! ## Conversion -/

/-- A node of the parse tree (`OrgAdapter`): the node and everything inside of it, in preorder. -/
abbrev Adapter := List (Node NK Unit)

/-- Splitting of a list of nodes into a node with everything inside of it, and the nodes after it
(Node.hpp:100-190: the extent of a node tells where the next one starts); the first argument bounds
the number of groups. -/
def groups : Nat → List (Node NK Unit) → List Adapter
  | 0, _ => []
  | _ + 1, [] => []
  | f + 1, n :: rest =>
    (n :: rest.take n.getExtent.toNat) :: groups f (rest.drop n.getExtent.toNat)

/-- The subnodes of a node (`for (auto const& sub : a)`). -/
def children : Adapter → List Adapter
  | [] => []
  | _ :: rest => groups rest.length rest

/-- `SemLeaf` – SemConvert.cpp:118-124. -/
def semLeaf (toks : List Tok) (k : LK) (n : Node NK Unit) : Except Err Sem :=
  match n.value with
  | .tok i =>
    match Pipeline.tokAt toks i with
    | some t => .ok (.leaf k t.text)
    | none => .error .exception
  | _ => .error .exception

/-- The leaves of `convert` – SemConvert.cpp:2628-2735. -/
def leafKind : NK → Option LK
  | .Word => some .Word
  | .Space => some .Space
  | .Newline => some .Newline
  | .Punctuation | .Colon => some .Punctuation
  | .BigIdent => some .BigIdent
  | .RawText => some .RawText
  | .Escaped => some .Escaped
  | .Placeholder | .Angle => some .Placeholder
  | .AtMention => some .AtMention
  | _ => none

/-- The nodes of `convert` converted by `convertAllSubnodes` (SemConvert.hpp:227-236), by
`convertParagraph`, by `convertStmtList` and by `convertList` – SemConvert.cpp:2628-2735. -/
def branchKind : NK → Option BK
  | .Bold => some .Bold
  | .Italic => some .Italic
  | .Strike => some .Strike
  | .Underline => some .Underline
  | .Monospace => some .Monospace
  | .Verbatim => some .Verbatim
  | .Par => some .Par
  | .Quote => some .MarkQuote
  | .Paragraph => some .Paragraph
  | .StmtList | .InlineStmtList => some .StmtList
  | .List => some .List
  | _ => none

/-- Is it a line break or a space? -/
def Sem.isBlank : Sem → Bool
  | .leaf .Newline _ | .leaf .Space _ => true
  | _ => false

/-- The loop removing line breaks and spaces at the end of a paragraph – SemConvert.cpp:1202-1206. -/
def trimmed (subs : List Sem) : List Sem := (subs.reverse.dropWhile Sem.isBlank).reverse

/-- A node from its converted subnodes – `convertParagraph`, SemConvert.cpp:1197-1209, and the
functions adding all subnodes.  (None of the modelled kinds is `Attached`, so that
`flatConvertAttached`, SemConvert.cpp:2548-2611, adds all of them, too.) -/
def branch (k : BK) (subs : List Sem) : Sem :=
  match k with
  | .Paragraph => .tree .Paragraph (trimmed subs)
  | _ => .tree k subs

/-- The kind of a node. -/
def kindOf (a : Adapter) : NK :=
  match a with
  | [] => .None
  | n :: _ => n.kind

/-- `get_text` – SemConvert.cpp:234-250.  The case of an `InlineStmtList` is left out. -/
def getText (toks : List Tok) (a : Adapter) : Except Err (List Char) :=
  match a with
  | [] => .error .exception
  | n :: _ =>
    match n.value with
    | .tok i =>
      match Pipeline.tokAt toks i with
      | some t => .ok t.text
      | none => .error .exception
    | _ => if n.kind = .Empty then .ok [] else if n.kind = .InlineStmtList then .error .outside else .error .exception

/-- `strip(string, leading, trailing)` (C47). -/
def stripSets (s : List Char) (leading trailing : Char → Bool) : List Char :=
  (((s.dropWhile leading).reverse.dropWhile trailing).reverse)

/-- `one(a, name)` – SemConvert.cpp:2738-2745: a subnode by its position (OrgSpec.cpp:93-131,
261-285). -/
def field (a : Adapter) (i : Nat) : Except Err Adapter :=
  match (children a)[i]? with
  | some c => .ok c
  | none => .error .exception

/-- The checkbox – SemConvert.cpp:1324-1344.  An unexpected value ends in an error node, which is
left out. -/
def checkbox (text : List Char) : Except Err Checkbox :=
  match stripSets text (fun c => c = '[' || c = ' ') (fun c => c = ' ' || c = ']') with
  | ['x'] | ['X'] => .ok .done
  | [] => .ok .empty
  | ['-'] => .ok .partly
  | _ => .error .outside

/-- The name of a hashtag – SemConvert.cpp:316-343.  Subtags are left out. -/
def tagName (toks : List Tok) (a : Adapter) : Except Err (List Char) :=
  match children a with
  | [] => .error .exception
  | [c] =>
    match getText toks c with
    | .ok t => .ok (stripSets t (· = '#') (fun _ => false))
    | .error e => .error e
  | _ => .error .outside

/-- `for` loop with conversion of each element. -/
def mapE {α β : Type} (f : α → Except Err β) : List α → Except Err (List β)
  | [] => .ok []
  | a :: as =>
    match f a with
    | .error e => .error e
    | .ok b =>
      match mapE f as with
      | .error e => .error e
      | .ok bs => .ok (b :: bs)

/-- The word making a headline a comment. -/
def commentWord : List Char := "COMMENT".toList

/-- The tag of archived headlines. -/
def archiveTag : List Char := "ARCHIVE".toList

/-- A title starting with `COMMENT` – SemConvert.cpp:916-926. -/
def dropComment : List Sem → Bool × List Sem
  | .leaf .BigIdent t :: r =>
    if t = commentWord then
      (true, r.dropWhile fun s => match s with | .leaf .Space _ => true | _ => false)
    else (false, .leaf .BigIdent t :: r)
  | l => (false, l)

/-- The parts of `convertSubtree` apart from title and body – SemConvert.cpp:907-1027; `title` are the
converted subnodes of the title, already trimmed.  Times, drawers and completions are left out. -/
def headInfo (toks : List Tok) (a : Adapter) (title : List Sem) : Except Err (HeadInfo × List Sem) := do
  let prefix' ← getText toks (← field a 0)
  let (comment, title) := dropComment title
  let importance ← field a 2
  let priority ←
    if kindOf importance = .Empty then pure (none : Option (List Char))
    else (fun t => some (stripSets t (fun c => c = '[' || c = '#') (· = ']'))) <$> getText toks importance
  if kindOf (← field a 4) ≠ .Empty then throw .outside
  let todoNode ← field a 1
  let todo ← if kindOf todoNode = .Empty then pure (none : Option (List Char)) else some <$> getText toks todoNode
  let (todo, comment) := if todo = some commentWord then (none, true) else (todo, comment)
  let tags ← mapE (tagName toks) (children (← field a 5))
  if (children (← field a 6)).length ≠ 0 then throw .outside
  if kindOf (← field a 7) ≠ .Empty then throw .outside
  pure ({ level := prefix'.length, todo := todo, priority := priority, comment := comment,
          archived := tags.any (· = archiveTag), tags := tags.filter (· ≠ archiveTag) }, title)

/-- The parts of `convertListItem` apart from header and body – SemConvert.cpp:1311-1351. -/
def itemInfo (toks : List Tok) (a : Adapter) : Except Err ItemInfo := do
  let header ← field a 3
  let bulletNode ← field a 0
  let bullet ←
    if kindOf bulletNode = .Empty then pure (none : Option (List Char))
    else (fun t => some (stripSets t (· = ' ') (· = ' '))) <$> getText toks bulletNode
  let boxNode ← field a 2
  let box ← if kindOf boxNode = .Empty then pure Checkbox.none else (getText toks boxNode) >>= checkbox
  pure { bullet := bullet, box := box, described := kindOf header ≠ .Empty }

/-- Is it a node for an error (`sub.isMono() && sub.getMono().isError()`; of the nodes without a token,
the parser makes those of kind `ErrorInfoToken` with an error and those of kind `Empty` without)? -/
def isError (a : Adapter) : Bool :=
  match a with
  | ⟨.ErrorInfoToken, .mono _⟩ :: _ => true
  | _ => false

/-- `OrgConverter::convert` – SemConvert.cpp:2628-2735.  The first argument bounds the depth of the
recursion. -/
def convert (toks : List Tok) : Nat → Adapter → Except Err Sem
  | 0, _ => .error .diverges
  | _ + 1, [] => .error .exception
  | d + 1, n :: rest =>
    if (children (n :: rest)).any isError then .error .outside
    else
      match leafKind n.kind, branchKind n.kind with
      | some k, _ => semLeaf toks k n
      | none, some k =>
        match mapE (convert toks d) (children (n :: rest)) with
        | .error e => .error e
        | .ok subs => .ok (branch k subs)
      | none, none =>
        if n.kind = .ListItem then do
          let info ← itemInfo toks (n :: rest)
          let header ← if info.described then mapE (convert toks d) (children (← field (n :: rest) 3)) else pure []
          let body ← mapE (convert toks d) (children (← field (n :: rest) 4))
          pure (.item info (trimmed header) body)
        else if n.kind = .Subtree then do
          let title ← mapE (convert toks d) (children (← field (n :: rest) 3))
          let (info, title) ← headInfo toks (n :: rest) (trimmed title)
          let body ← mapE (convert toks d) (children (← field (n :: rest) 8))
          pure (.head info title body)
        else .error .outside

/-- `convertDocument` – SemConvert.cpp:3023-3043, on the root of the parse tree: the subnodes of the
document.  (The kinds for which `updateDocument`, 2895-3002, returns true are not modelled.) -/
def convertDocument (toks : List Tok) (nodes : List (Node NK Unit)) : Except Err (List Sem) :=
  mapE (convert toks nodes.length) (children nodes)

/-! ## Formatting -/

open Verif.Layout (Block)

/-- `str` – a block with one text. -/
def str (s : List Char) : Block := .text [.str s]

/-- `b.stack`. -/
def stack (bs : List Block) : Block := .stack 1 bs

/-- The condition of `Formatter::add` – SemOrgFormat.cpp:50-57. -/
def hollow : Block → Bool
  | .line [] | .stack _ [] => true
  | _ => false

/-- The blocks added to a block by `Formatter::add` – SemOrgFormat.cpp:50-57. -/
def added (bs : List Block) : List Block := bs.filter fun b => !hollow b

/-- Lines of a paragraph (`rv::split_when`) – SemOrgFormat.cpp:1684-1690.  (Whether `split_when` makes
one or several splits out of several line breaks in a row does not matter: lines without elements are
skipped.) -/
def splitNewlines : List (Sem × Block) → List (List Block)
  | [] => [[]]
  | (s, b) :: r =>
    match s, splitNewlines r with
    | .leaf .Newline _, ls => [] :: ls
    | _, l :: ls => (b :: l) :: ls
    | _, [] => [[b]]

/-- `BlockStore::join` in a line – textlayouter.cpp:840-854. -/
def joined (sep : Block) : List Block → List Block
  | [] => []
  | [b] => [b]
  | b :: bs => .line [b, sep] :: joined sep bs

/-- What is written before the body of a list item – SemOrgFormat.cpp:1024-1036. -/
def bulletText (info : ItemInfo) : List Char :=
  (match info.bullet with
    | some t => t ++ [' ']
    | none => "- ".toList) ++
  match info.box with
  | .empty => "[ ] ".toList
  | .done => "[x] ".toList
  | .partly => "[-] ".toList
  | .none => []

/-- The tags of a headline – SemOrgFormat.cpp:1168, 1174-1182. -/
def tagParts (info : HeadInfo) : List Block :=
  (if info.archived then [str archiveTag] else []) ++
  (if info.tags.isEmpty then [] else [.line (joined (str [':']) (info.tags.map str))])

/-- The parts of the first line of a headline, with the given block for the title (if there is one) –
SemOrgFormat.cpp:1158-1191. -/
def headParts (info : HeadInfo) (title : List Block) : List Block :=
  (info.todo.toList.map str) ++
  (if info.comment then [str commentWord] else []) ++
  (info.priority.toList.map fun p => str ("[#".toList ++ p ++ "]".toList)) ++
  title ++
  (if (tagParts info).isEmpty then [] else [.line [str [':'], .line (joined (str [':']) (tagParts info)), str [':']]])

/-- Block for a line of a paragraph. -/
def lineOf (bs : List Block) : Block := .line (added bs)

/-- Block for a paragraph – SemOrgFormat.cpp:1679-1697. -/
def paragraph (subs : List Sem) (bs : List Block) : Block :=
  stack (added ((splitNewlines (subs.zip bs)).map lineOf))

mutual

/-- `Formatter::toString` – SemOrgFormat.cpp.  `name k` is `__PRETTY_FUNCTION__` for the kinds without
a formatter. -/
def fmt (name : BK → List Char) : Sem → Block
  -- 604-611
  | .leaf .Newline t => stack (added (List.replicate (t.length - 1) (str [])))
  -- 876-879
  | .leaf .Escaped t => str ('\\' :: t)
  -- 886-889
  | .leaf .Placeholder t => .line [str ['<'], str t, str ['>']]
  -- 1042-1045
  | .leaf .AtMention t => str ('@' :: t)
  -- Word, Space (1001-1004), Punctuation, BigIdent, RawText (389-392)
  | .leaf _ t => str t
  | .tree .Bold subs => .line (str ['*'] :: fmtAll name subs ++ [str ['*']])
  | .tree .Italic subs => .line (str ['/'] :: fmtAll name subs ++ [str ['/']])
  | .tree .Strike subs => .line (str ['+'] :: fmtAll name subs ++ [str ['+']])
  | .tree .Underline subs => .line (str ['_'] :: fmtAll name subs ++ [str ['_']])
  | .tree .Monospace subs => .line (str ['~'] :: fmtAll name subs ++ [str ['~']])
  | .tree .Verbatim subs => .line (str ['='] :: fmtAll name subs ++ [str ['=']])
  -- 881-884, 902-905
  | .tree .Par _ => str (name .Par)
  | .tree .MarkQuote _ => str (name .MarkQuote)
  | .tree .Paragraph subs => paragraph subs (fmtAll name subs)
  -- 961-964
  | .tree .StmtList subs => .line (fmtAll name subs)
  -- 579-585
  | .tree .List subs => stack (added (fmtAll name subs))
  -- 1007-1041
  | .item info header subs =>
    .line [str (bulletText info),
      if info.described then
        match fmtAll name subs with
        | [] => stack []
        | first :: rest =>
          stack (added (.line (added [paragraph header (fmtAll name header), str " :: ".toList, first]) ::
            str [] :: rest))
      else stack (added (fmtAll name subs))]
  -- 1157-1563
  | .head info title subs =>
    let ts := if title.isEmpty then [] else [paragraph title (fmtAll name title)]
    let first := Block.line (added [.line (joined (str [' ']) (headParts info ts))])
    stack (.line [str (List.replicate info.level '*'), str [' '], stack [first]] ::
      if subs.isEmpty then [] else str [] :: added (fmtAll name subs))

def fmtAll (name : BK → List Char) : List Sem → List Block
  | [] => []
  | s :: ss => fmt name s :: fmtAll name ss

end

/-- The document – SemOrgFormat.cpp:176-387, with the default options and no properties. -/
def fmtDocument (name : BK → List Char) (subs : List Sem) : Block :=
  match added (fmtAll name subs) with
  | [] => stack [str []]
  | bs => stack bs

/-- `Formatter::format` – SemOrgFormat.hpp:47-53, for a document. -/
def format {C : Type} (A : Layout.Arith C) (o : Layout.Options C) (fuel : Nat) (name : BK → List Char) (subs : List Sem) :
    Except Layout.Err (List Char) :=
  Layout.toString A o fuel (fmtDocument name subs)

end Verif.Sem

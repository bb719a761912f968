import Verif.Token.Kind

/-!
# Model of the first half of the tokenizer

`src/haxorg/parse/OrgTokenizer.cpp`: splitting the base lexer's tokens into lines
(`LineToken` 571-784, `to_lines` 850-875), grouping of lines (`GroupToken`
787-841, `to_groups` 878-968) and generation of indentation tokens
(`rec_add_line` 1021-1080, `rec_convert_groups` 1085-1247).  Tracing is not
modelled.
-/

namespace Verif.Tokenizer
open Verif.Token

/-- Abnormal outcomes: `tokenizer_error` / failed assertion, out-of-range access
(exception), access to the wrong variant alternative (exception), undefined
behaviour, exhausted fuel. -/
inductive Err where
  | tokenizer
  | assertion
  | range
  | variant
  | undef
  | diverges
deriving DecidableEq, Repr

/-- `line_end` – OrgTokenizer.cpp:98-103. -/
def lineEnd : List TK := [.Newline, .MediumNewline, .LongNewline, .EndOfFile]

/-- `LineToken::Kind` – OrgTokenizer.cpp:572-581. -/
inductive LK where
  | none | line | listItem | subtree | blockOpen | blockClose | indentedLine | property
deriving DecidableEq, Repr

/-- `LineToken` – OrgTokenizer.cpp:583-585. -/
structure Line where
  tokens : List Tok
  indent : Nat
  kind : LK
deriving DecidableEq, Repr

/-- `LineToken{{}}` – OrgTokenizer.cpp:792-793, 781-783. -/
def Line.empty : Line := ⟨[], 0, .none⟩

/-- `isListBreakingItem` – OrgTokenizer.cpp:587-593. -/
def Line.isListBreakingItem (l : Line) : Bool :=
  match l.tokens.getLast? with
  | some t => decide (l.kind = .listItem) && decide (t.kind = .LongNewline)
  | none => false

/-- `CmdBlockClose` – OrgTokenizer.cpp:597-609. -/
def cmdBlockClose : List TK :=
  [.CmdSrcEnd, .CmdCenterEnd, .CmdExampleEnd, .CmdQuoteEnd, .CmdExportEnd, .CmdVerseEnd,
   .CmdCommentEnd, .CmdTableEnd, .CmdRowEnd, .CmdCellEnd, .CmdDynamicBlockEnd]

/-- `CmdBlockOpen` – OrgTokenizer.cpp:611-623. -/
def cmdBlockOpen : List TK :=
  [.CmdCenterBegin, .CmdExportBegin, .CmdExampleBegin, .CmdSrcBegin, .CmdQuoteBegin,
   .CmdVerseBegin, .CmdCommentBegin, .CmdTableBegin, .CmdRowBegin, .CmdCellBegin,
   .CmdDynamicBlockBegin]

/-- `CmdBlockLine` – OrgTokenizer.cpp:625-649. -/
def cmdBlockLine : List TK :=
  [.CmdTitle, .CmdHeader, .CmdName, .CmdInclude, .CmdResults, .CmdCaption, .CmdColumns,
   .CmdAttr, .CmdAttr, .CmdPropertyArgs, .CmdPropertyRaw, .CmdPropertyText, .CmdOptions,
   .CmdFiletags, .CmdTblfm, .CmdLatexClass, .CmdLatexCompiler, .CmdLatexClassOptions,
   .CmdLatexHeader, .CmdStartup, .CmdRow, .CmdCell, .CmdAuthor, .CmdCustomRaw,
   .CmdDescription, .CmdLinkRaw, .CmdEmailRaw, .CmdLatexHeaderExtraRaw, .CmdDateRaw,
   .CmdLanguage, .CmdBindRaw, .CmdCategoryRaw, .CmdSeqTodoRaw, .CmdTagsRaw,
   .CmdPrioritiesRaw, .CmdMacroRaw, .CmdSetupfileRaw, .CmdExcludeTagsRaw, .CmdHtmlHeadRaw,
   .CmdSelectTagsRaw, .CmdDrawersRaw, .CmdConstants, .CmdCreator, .CmdCall, .CmdKeywordsRaw]

/-- `whichBlockLineKind` – OrgTokenizer.cpp:651-661. -/
def whichBlockLineKind (k : TK) : Option LK :=
  if k ∈ cmdBlockLine then some .line
  else if k ∈ cmdBlockOpen then some .blockOpen
  else if k ∈ cmdBlockClose then some .blockClose
  else none

/-- `setLineCommandKind` – OrgTokenizer.cpp:663-684; returns the new `kind`. -/
def setLineCommandKind (tokens : List Tok) (off : Nat) : Except Err LK :=
  match tokens[off]? with
  | none => .error .range
  | some current =>
    if current.kind = .LineCommand then
      match tokens[off + 1]? with
      | none => .error .range
      | some nx =>
        match whichBlockLineKind nx.kind with
        | some k => .ok k
        | none => .error .tokenizer
    else if current.kind ∈ cmdBlockClose then .ok .blockClose
    else .error .tokenizer

/-- `setLeadingSpaceKind` – OrgTokenizer.cpp:686-716. -/
def setLeadingSpaceKind (tokens : List Tok) : Except Err LK :=
  match tokens[1]? with
  | none => .ok .indentedLine
  | some nx =>
    match nx.kind with
    | .TreeClock => .ok .listItem
    | .Minus =>
      match tokens[2]? with
      | some n2 => if n2.kind = .Whitespace then .ok .listItem else .ok .indentedLine
      | none => .ok .indentedLine
    | .ColonEnd => .ok .property
    | .ColonPropertyText => .ok .property
    | .ColonProperties => .ok .property
    | .ColonLogbook => .ok .property
    | .LineCommand => setLineCommandKind tokens 1
    | k => if k ∈ cmdBlockClose then .ok .blockClose else .ok .indentedLine

/-- `setIndent` for a line with first token `first` – OrgTokenizer.cpp:718-747. -/
def indentOf (first : Tok) : Nat :=
  match first.kind with
  | .CmdExampleLine => (first.text.takeWhile (· = ' ')).length
  | .SrcContent => (first.text.takeWhile (· = ' ')).length
  | .LeadingSpace => first.text.length
  | .LeadingPlus => first.text.count ' ' + 2
  | .LeadingNumber => first.text.count ' ' + 2
  | .TreeClock => first.text.count ' ' + 2
  | .LeadingMinus => first.text.count ' ' + 2
  | _ => 0

/-- The `kind` part of `updateForTokens` – OrgTokenizer.cpp:749-779. -/
def lineKindOf (tokens : List Tok) (first : Tok) : Except Err LK :=
  match first.kind with
  | .LeadingSpace => setLeadingSpaceKind tokens
  | .Minus =>
    match tokens[1]? with
    | some nx => if nx.kind = .Whitespace then .ok .listItem else .ok .line
    | none => .ok .line
  | .LeadingNumber => .ok .listItem
  | .LeadingMinus => .ok .listItem
  | .LeadingPlus => .ok .listItem
  | .LineCommand => setLineCommandKind tokens 0
  | .TreeClock => .ok .listItem
  | k => if k ∈ cmdBlockClose then .ok .blockClose else .ok .line

/-- `LineToken(Span)` – OrgTokenizer.cpp:781-783. -/
def mkLine (tokens : List Tok) : Except Err Line :=
  match tokens with
  | [] => .ok .empty
  | first :: _ => do
    let k ← lineKindOf tokens first
    .ok ⟨tokens, indentOf first, k⟩

/-- The loop of `to_lines` – OrgTokenizer.cpp:856-872.  `cur` is the range
`[start, it)`. -/
def toLinesLoop : List Tok → List Tok → Except Err (List Line)
  | cur, [] => if cur.isEmpty then .ok [] else do .ok [← mkLine cur]
  | cur, t :: ts =>
    if t.kind ∈ lineEnd then do
      let l ← mkLine (cur ++ [t])
      let ls ← toLinesLoop [] ts
      .ok (l :: ls)
    else toLinesLoop (cur ++ [t]) ts

/-- `to_lines` – OrgTokenizer.cpp:850-875. -/
def toLines (tokens : List Tok) : Except Err (List Line) := toLinesLoop [] tokens

/-- `GroupToken::Kind` – OrgTokenizer.cpp:788. -/
inductive GK where
  | line | listItem | subtree | properties | block
deriving DecidableEq, Repr

/-- A `Vec<GroupToken>` – OrgTokenizer.cpp:787-806.  The vector of groups is the
inductive type itself: a group with `Leaf` data, or with `Nested` data, followed
by the remaining groups. -/
inductive Groups where
  | nil
  | leaf (kind : GK) (lines : List Line) (rest : Groups)
  | nested (kind : GK) (begin_ end_ : Line) (sub rest : Groups)
deriving Repr

/-- `push_back` of one or more groups. -/
def Groups.append : Groups → Groups → Groups
  | .nil, b => b
  | .leaf k l r, b => .leaf k l (r.append b)
  | .nested k x y s r, b => .nested k x y s (r.append b)

mutual
/-- `rec_group` – OrgTokenizer.cpp:882-953.  The iterator `it` is the list of the
remaining lines; the group is returned as a one-element vector.  Fuel bounds
recursion plus loop iterations. -/
def recGroup : Nat → List Line → Except Err (Groups × List Line)
  | 0, _ => .error .diverges
  | _ + 1, [] => .error .undef
  | fuel + 1, start :: ls =>
    match start.kind with
    | .indentedLine =>
      let p := fun l : Line =>
        (decide (l.kind = .line) || decide (l.kind = .indentedLine)) && decide (start.indent ≤ l.indent)
      .ok (.leaf .line ((start :: ls).takeWhile p) .nil, (start :: ls).dropWhile p)
    | .line =>
      let p := fun l : Line =>
        (decide (l.kind = .line) || decide (l.kind = .indentedLine)) && decide (start.indent ≤ l.indent)
      .ok (.leaf .line ((start :: ls).takeWhile p) .nil, (start :: ls).dropWhile p)
    | .listItem =>
      let p := fun l : Line => decide (l.kind = .indentedLine) && decide (start.indent ≤ l.indent)
      .ok (.leaf .listItem (start :: ls.takeWhile p) .nil, ls.dropWhile p)
    | .blockOpen => do
      let (sub, it) ← blockLoop fuel ls
      match it with
      | [] => .ok (.nested .block start .empty sub .nil, [])
      | e :: it => .ok (.nested .block start e sub .nil, it)
    | .property =>
      let p := fun l : Line => decide (l.kind = .property)
      .ok (.leaf .properties ((start :: ls).takeWhile p) .nil, (start :: ls).dropWhile p)
    | .blockClose => .ok (.leaf .line [start] .nil, ls)
    | .none => .error .tokenizer
    | .subtree => .error .tokenizer

/-- The loop over the lines of a block – OrgTokenizer.cpp:920-923. -/
def blockLoop : Nat → List Line → Except Err (Groups × List Line)
  | 0, _ => .error .diverges
  | _ + 1, [] => .ok (.nil, [])
  | fuel + 1, l :: ls =>
    if l.kind = .blockClose then .ok (.nil, l :: ls)
    else do
      let (g, it) ← recGroup fuel (l :: ls)
      let (gs, it) ← blockLoop fuel it
      .ok (g.append gs, it)
end

/-- The loop of `to_groups` – OrgTokenizer.cpp:955-967. -/
def toGroups : Nat → List Line → Except Err Groups
  | 0, _ => .error .diverges
  | _ + 1, [] => .ok .nil
  | fuel + 1, l :: ls => do
    let (g, it) ← recGroup fuel (l :: ls)
    if it.length = (l :: ls).length then .error .assertion
    else
      let gs ← toGroups fuel it
      .ok (g.append gs)

/-- `rec_add_line` – OrgTokenizer.cpp:1021-1080.  `prev` is the token at
`tok_idx - 1`.  `tokens.get(tok_idx + 1)->get()` at the end of the line (1067) is
a dereference of an empty optional. -/
def recAddLine (gk : GK) : Option Tok → List Tok → Except Err (List Tok)
  | _, [] => .ok []
  | prev, tok :: rest =>
    match tok.kind with
    | .LeadingPlus | .LeadingNumber | .LeadingMinus =>
      match rest with
      | [] => .error .undef
      | nx :: rest' =>
        if nx.kind = .Whitespace then do
          let out ← recAddLine gk (some nx) rest'
          .ok (tok :: nx :: out)
        else do
          let out ← recAddLine gk (some tok) (nx :: rest')
          .ok (tok :: out)
    | .TreeClock | .Minus =>
      match rest with
      | [] => .ok [tok]
      | nx :: rest' =>
        if (match prev with | none => true | some p => decide (p.kind = .LeadingSpace))
            && decide (nx.kind = .Whitespace) && decide (gk = .listItem) then do
          let out ← recAddLine gk (some nx) rest'
          .ok (tok :: nx :: out)
        else do
          let out ← recAddLine gk (some tok) (nx :: rest')
          .ok (tok :: out)
    | _ => do
      let out ← recAddLine gk (some tok) rest
      .ok (tok :: out)

/-- `for (line : lines) rec_add_line(gr, line, ind)` – OrgTokenizer.cpp:1233-1235. -/
def recAddLines (gk : GK) : List Line → Except Err (List Tok)
  | [] => .ok []
  | l :: ls => do
    let a ← recAddLine gk none l.tokens
    let b ← recAddLines gk ls
    .ok (a ++ b)

/-- What `rec_convert_groups` looks at in the previous group – OrgTokenizer.cpp:1141-1146:
its kind and, for `Leaf` data, its lines. -/
abbrev Prev := Option (GK × Option (List Line))

/-- Number of entries popped by `while (!ind.empty() && indent < ind.back())`
– OrgTokenizer.cpp:1114-1117, 1168-1173.  The stack is a list with its top first. -/
def popCount (indent : Nat) (ind : List Nat) : Nat := (ind.takeWhile (fun i => decide (indent < i))).length

/-- The tokens added before a group and the new indentation stack
– OrgTokenizer.cpp:1105-1175.  `gr.indent()` is `indent`. -/
def preGroup (kind : GK) (indent : Nat) (prev : Prev) (ind : List Nat) :
    Except Err (List Tok × List Nat) :=
  if kind = .listItem then
    match ind with
    | [] => .ok ([.fake .Indent], [indent])
    | top :: below =>
      if top < indent then .ok ([.fake .Indent], indent :: top :: below)
      else if indent < top then
        let n := popCount indent (top :: below)
        let ind' := (top :: below).drop n
        let close := match ind' with
          | [] => []
          | b :: _ => if b = indent then [Tok.fake .ListItemEnd] else []
        .ok (List.replicate n (.fake .Dedent) ++ close, ind')
      else
        match prev with
        | some (.listItem, some lines) =>
          match lines.getLast? with
          | none => .error .undef
          | some l =>
            if l.isListBreakingItem then .ok ([.fake .Dedent, .fake .Indent], top :: below)
            else .ok ([.fake .SameIndent], top :: below)
        | _ => .ok ([.fake .SameIndent], top :: below)
  else
    let n := popCount indent ind
    .ok (List.replicate n (.fake .Dedent), ind.drop n)

/-- `GroupToken::isSrc` for a group with `Nested` data and subgroups `sub`
– OrgTokenizer.cpp:808-827. -/
def isSrc (sub : Groups) : Bool :=
  match sub with
  | .leaf _ (l :: _) _ =>
    match l.tokens with
    | t :: _ => decide (t.kind = .SrcContent) || decide (t.kind = .CmdExampleLine)
    | [] => false
  | _ => false

/-- `sub.getLeaf().lines` for every subgroup – OrgTokenizer.cpp:1189-1190,
1206-1207. -/
def leafLines : Groups → Except Err (List Line)
  | .nil => .ok []
  | .leaf _ ls rest => do
    let r ← leafLines rest
    .ok (ls ++ r)
  | .nested .. => .error .variant

/-- Lines ignored when computing the common indentation – OrgTokenizer.cpp:1192-1196. -/
def isBlankSrc (l : Line) : Bool :=
  match l.tokens with
  | [a, b] => a.text.isEmpty && decide (b.kind ∈ lineEnd)
  | [a] => decide (a.kind ∈ lineEnd)
  | [] => true
  | _ => false

/-- `minIndent` – OrgTokenizer.cpp:1188-1200. -/
def minIndent (begin_ : Line) (lines : List Line) : Nat :=
  lines.foldl (fun m l => if isBlankSrc l then m else min l.indent m) begin_.indent

/-- One line of the source block content – OrgTokenizer.cpp:1208-1223;
`substr(n)` throws when `n` exceeds the length. -/
def srcLine (m : Nat) (tokens : List Tok) : Except Err (List Tok) :=
  match tokens with
  | [] => .ok []
  | t :: ts =>
    if t.text.isEmpty then .ok (t :: ts)
    else if m ≤ t.text.length then .ok ({ t with text := t.text.drop m } :: ts)
    else .error .range

/-- OrgTokenizer.cpp:1206-1225. -/
def srcLines (m : Nat) : List Line → Except Err (List Tok)
  | [] => .ok []
  | l :: ls => do
    let a ← srcLine m l.tokens
    let b ← srcLines m ls
    .ok (a ++ b)

/-- Content of a source block – OrgTokenizer.cpp:1185-1225. -/
def srcBody (b : Line) (sub : Groups) : Except Err (List Tok) := do
  let lines ← leafLines sub
  srcLines (minIndent b lines) lines

/-- `rec_convert_groups` – OrgTokenizer.cpp:1085-1247: the loop over the groups
with indentation stack `ind` and preceding group `prev`.  The returned list is
what is appended to `regroup`.  The final loop (1240-1246) iterates over `ind`
while popping from it (with the pointer iterators of `std::vector` it runs once
per entry) and adds one `Dedent` per entry. -/
def convertLoop : Groups → Prev → List Nat → Except Err (List Tok)
  | .nil, _, ind => .ok (List.replicate ind.length (.fake .Dedent))
  | .leaf k lines rest, prev, ind =>
    match lines with
    | [] => .error .range
    | first :: _ => do
      let (pre, ind) ← preGroup k first.indent prev ind
      let body ← recAddLines k lines
      let tail ← convertLoop rest (some (k, some lines)) ind
      .ok (pre ++ body ++ tail)
  | .nested k b e sub rest, prev, ind => do
    let (pre, ind) ← preGroup k b.indent prev ind
    let bt ← recAddLine k none b.tokens
    let body ← (if isSrc sub then srcBody b sub else convertLoop sub none [])
    let et ← recAddLine k none e.tokens
    let tail ← convertLoop rest (some (k, none)) ind
    .ok (pre ++ bt ++ body ++ et ++ tail)

/-- `rec_convert_groups` as called from `recombine` – OrgTokenizer.cpp:1339. -/
def convertGroups (gs : Groups) : Except Err (List Tok) := convertLoop gs none []

/-- The part of `OrgTokenizer::recombine` up to the token conversion
– OrgTokenizer.cpp:1328-1340. -/
def regroup (tokens : List Tok) : Except Err (List Tok) := do
  let lines ← toLines tokens
  let gs ← toGroups (2 * lines.length + 2) lines
  convertGroups gs

end Verif.Tokenizer

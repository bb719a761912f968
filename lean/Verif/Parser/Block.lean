import Verif.Parser.Inline
import Verif.Outline.Model

/-!
# Model of the block parse functions – src/haxorg/parse/OrgParser.cpp

`n` is the fuel for loops, `par` is `parseParagraph`, `stmt` is `parseStmtListItem`.
-/

namespace Verif.Parser
open Verif.Lexer Verif.NodeGroup

/-- `find(skip, Vec, offset) != -1` – Lexer.hpp:227-240 -/
def aheadSeq (l : Lex TK) (skip target : List TK) (n : Nat) : Except Lexer.Err Bool :=
  match l.skipAhead skip n 0 with
  | .error e => .error e
  | .ok off => l.atSeq target off

/-- `lex.skip(kind)`, which throws – Lexer.hpp:284-288 -/
def lexSkip (kinds : List TK) : P Unit := fun s =>
  match s.lex.skip kinds with
  | .error e => .error (.ofLex e)
  | .ok l => .ok (some (), { s with lex := l })

/-- `subToEol(lex, Terminator)` and the parse of what it found – 147-154, 1252-1257,
2186-2191 -/
def toEol (t : Texts) (par : P Unit) (n : Nat) (term : List TK) : P Unit :=
  P.bind (collect (canSearch term) n) (fun ids => idsOrEmpty t ids par)

/-! ## Tables -/

/-- The tokens of a cell – 1203-1210: blanks next to a pipe are dropped. -/
def cellTokens : Nat → P (List Nat)
  | 0 => ifP (canSearch [.Pipe, .TrailingPipe]) (throwP .diverges) (P.ret [])
  | n + 1 => ifP (canSearch [.Pipe, .TrailingPipe])
      (ifP (andP (atP [.Whitespace]) (orP (atP [.Pipe, .TrailingPipe] 1) (atP [.Pipe, .LeadingPipe] (-1))))
        (P.bind nextP (fun _ => cellTokens n))
        (P.bind popP (fun id => P.bind (cellTokens n) (fun ids => P.ret (id :: ids)))))
      (P.ret [])

/-- `if (sub.empty()) { start(Paragraph)->end(); } else { ... }` – 1211-1217 -/
def idsOrParagraph (t : Texts) (ids : List Nat) (p : P Unit) : P Unit :=
  match ids with
  | [] => node .Paragraph (P.ret ())
  | _ :: _ => subP t (withIds ids p)

/-- `parseTablePipeRow` – 1189-1227 -/
def parseTablePipeRow (t : Texts) (par : P Unit) (n : Nat) : P Unit :=
  node .TableRow do
    emptyP
    emptyP
    node .StmtList do
      whileP (atP [.LeadingPipe, .Pipe])
        (node .TableCell do
          emptyP
          node .StmtList do
            nextP
            let ids ← cellTokens n
            idsOrParagraph t ids par) n
      skipP t [.TrailingPipe]
      ifP (atP newlineKinds) nextP (P.ret ())

/-- `parseTableBlockRow` – 1229-1274 -/
def parseTableBlockRow (t : Texts) (par stmt : P Unit) (n : Nat) : P Unit := do
  skipP t [.CmdPrefix]
  skipP t [.CmdRow]
  node .TableRow do
    subP t (parseCommandArguments t n)
    emptyP
    newlineP n
    node .StmtList
      (ifP (atP [.LeadingPipe])
        (whileP (atP [.LeadingPipe])
          (do
            skipP t [.LeadingPipe]
            spaceP n
            node .TableCell do
              emptyP
              node .StmtList (toEol t par n paragraphTerminator)
            newlineP n) n)
        (whileP (atSeqP [.CmdPrefix, .CmdCell])
          (do
            skipP t [.CmdPrefix]
            skipP t [.CmdCell]
            node .TableCell do
              subP t (parseCommandArguments t n)
              node .StmtList
                (whileP (notP (andP (atP [.CmdPrefix]) (atP [.CmdCell, .CmdRow, .CmdTableEnd] 1)))
                  (subP t stmt) n)) n))

/-- `parseTable` – 1277-1331 -/
def parseTable (t : Texts) (par stmt : P Unit) (n : Nat) : P Unit :=
  ifP (atP [.LeadingPipe, .TableSeparator])
    (node .Table do
      emptyP
      whileP (atP [.LeadingPipe, .TableSeparator])
        (ifP (atP [.LeadingPipe]) (subP t (parseTablePipeRow t par n)) (do nextP; newlineP n)) n)
    (node .Table do
      skipP t [.CmdPrefix]
      skipP t [.CmdTableBegin]
      subP t (parseCommandArguments t n)
      newlineP n
      whileP (canSearchSeq [.CmdPrefix, .CmdTableEnd])
        (ifP (atP [.LeadingPipe]) (subP t (parseTablePipeRow t par n))
          (ifP (atP [.CmdPrefix]) (subP t (parseTableBlockRow t par stmt n)) (failP t))) n
      skipP t [.CmdPrefix]
      skipP t [.CmdTableEnd])

/-! ## Blocks -/

/-- `parseSrcArguments` – 1401-1421 -/
def parseSrcArguments (t : Texts) (n : Nat) : P Unit := do
  spaceP n
  ifP (atP newlineKinds)
    (do emptyP; emptyP)
    (node .Attrs do
      node .InlineStmtList (whileP (atP [.CmdFlag]) (popAs t .CmdFlag [.CmdFlag]) n)
      subP t (parseCommandArguments t n))

/-- Node kind and closing token of a text block – 1432-1454 -/
def wrapKinds : TK → Option (NK × TK)
  | .CmdVerseBegin => some (.BlockVerse, .CmdVerseEnd)
  | .CmdCenterBegin => some (.BlockCenter, .CmdCenterEnd)
  | .CmdQuoteBegin => some (.BlockQuote, .CmdQuoteEnd)
  | .CmdCommentBegin => some (.BlockComment, .CmdCommentEnd)
  | .CmdDynamicBlockBegin => some (.BlockDynamicFallback, .CmdDynamicBlockEnd)
  | _ => none

/-- The loops over the content of a text block – 1473-1488; a headline ends them. -/
def wrapLoop (t : Texts) (more : P Bool) (stmt : P Unit) : Nat → P Unit
  | 0 => ifP more (throwP .diverges) (P.ret ())
  | n + 1 => ifP more
      (P.bind (subP t stmt) (fun _ => ifP (atP [.SubtreeStars]) (P.ret ()) (wrapLoop t more stmt n)))
      (P.ret ())

/-- The block after its opening token: `begin'` is that token – 1456-1493 -/
def wrapBody (t : Texts) (stmt : P Unit) (n : Nat) (dynamic : Bool) (end' : TK) (begin' : Nat) : P Unit := do
  ifP (atP newlineKinds) emptyP (do spaceP n; subP t (parseCommandArguments t n); spaceP n)
  skipP t newlineKinds
  wrapLoop t
    (andP (canSearchSeq [.CmdPrefix, end'])
      (ask (fun l => .ok (!dynamic || (l.hasNext 2 && !t.sameBlock begin' (l.get 1)))))) stmt n
  skipP t [.CmdPrefix]
  skipP t [end']

/-- `parseTextWrapCommand` – 1424-1494 -/
def parseTextWrapCommand (t : Texts) (stmt : P Unit) (n : Nat) : P Unit := do
  skipP t [.CmdPrefix]
  let k ← kindP
  match wrapKinds k with
  | none => throwP .fatal
  | some (nk, end') =>
    node nk
      (ifP (P.ret (decide (k = .CmdDynamicBlockBegin)))
        (P.bind popP (fun id => P.bind (tokenP .Word id) (fun _ => wrapBody t stmt n true end' id)))
        (P.bind popP (fun id => wrapBody t stmt n false end' id)))

/-- `parseBlockExport` – 1497-1523 -/
def parseBlockExport (t : Texts) (n : Nat) : P Unit :=
  node .BlockExport do
    skipP t [.CmdPrefix]
    skipP t [.CmdExportBegin]
    spaceP n
    popAs t .Word [.CmdRawArg]
    spaceP n
    subP t (parseCommandArguments t n)
    newlineP n
    node .StmtList (whileP (atP [.CmdExportLine, .Newline]) (popAny .RawText) n)
    skipP t [.CmdPrefix]
    skipP t [.CmdExportEnd]

/-- `parseColonExample` – 1526-1545 -/
def parseColonExample (t : Texts) (n : Nat) : P Unit :=
  node .ColonExample
    (whileP (atP [.ColonExampleLine, .Colon])
      (do
        ifP (atP [.ColonExampleLine]) (popAny .RawText) (do emptyP; skipP t [.Colon])
        ifP (atP [.Newline]) nextP (P.ret ())) n)

/-- `parseExample` – 1547-1574 -/
def parseExample (t : Texts) (n : Nat) : P Unit :=
  node .BlockExample do
    skipP t [.CmdPrefix]
    skipP t [.CmdExampleBegin]
    subP t (parseCommandArguments t n)
    newlineP n
    whileP (atP [.CmdExampleLine, .Newline])
      (ifP (atSeqP [.Newline, .CmdPrefix]) nextP (popAny .RawText)) n
    skipP t [.CmdPrefix]
    skipP t [.CmdExampleEnd]

/-- The search for `>>` in the line – 1620-1628 -/
def closesAngle : Nat → Int → Lex TK → Except Lexer.Err Bool
  | 0, _, _ => .error .fuel
  | fuel + 1, off, l =>
    if l.hasNext off then
      match l.at [.DoubleAngleEnd] off with
      | .error e => .error e
      | .ok true => .ok true
      | .ok false =>
        match l.at [.Newline] off with
        | .error e => .error e
        | .ok true => .ok false
        | .ok false => closesAngle fuel (off + 1) l
    else .ok false

/-- One token of a code line – 1602-1652 -/
def codeItem (t : Texts) (n : Nat) : P Unit :=
  ifP (atP [.SrcContent]) (popAs t .CodeText [.SrcContent])
    (ifP (atP [.ParBegin])
      (do
        skipP t [.ParBegin]
        skipP t [.Word]
        skipP t [.Colon]
        node .CodeCallout (popAs t .Word [.Word])
        skipP t [.ParEnd])
      (ifP (atP [.DoubleAngleBegin])
        (ifP (ask (closesAngle n 0))
          (do
            skipP t [.DoubleAngleBegin]
            node .CodeTangle (subP t (parseCSVArguments t n))
            skipP t [.DoubleAngleEnd])
          (popAs t .CodeText [.DoubleAngleBegin]))
        (ifP (atP [.DoubleAngleEnd]) (popAs t .CodeText [.DoubleAngleEnd]) (throwP .fatal))))

/-- The code – 1596-1660 -/
def codeBody (t : Texts) (n : Nat) : P Unit :=
  node .StmtList do
    skipP t [.CmdContentBegin]
    whileP (canSearchSeq [.CmdPrefix, .CmdSrcEnd])
      (node .CodeLine do
        whileP (canSearch [.CmdContentEnd, .Newline]) (codeItem t n) n
        ifP (atP [.Newline]) nextP (P.ret ())) n

/-- The results after the code – 1666-1690 -/
def codeResults (t : Texts) (stmt : P Unit) (n : Nat) : P Unit :=
  ifP (ask (fun l => aheadSeq l (newlineKinds ++ [.Whitespace]) [.CmdPrefix, .CmdResults] n))
    (do
      whileP (notP (atP [.CmdPrefix])) (do spaceP n; newlineP n) n
      skipP t [.CmdPrefix]
      skipP t [.CmdResults]
      node .CmdResults do
        spaceP n
        subP t (parseCommandArguments t n)
        newlineP n
        ifP (notP (atP [.SubtreeStars])) (subP t stmt) emptyP)
    emptyP

/-- `parseSrc` – 1577-1693 -/
def parseSrc (t : Texts) (stmt : P Unit) (n : Nat) : P Unit :=
  node .BlockCode do
    skipP t [.CmdPrefix]
    skipP t [.CmdSrcBegin]
    spaceP n
    ifP (atP [.CmdRawArg])
      (ifP (ask (fun l => .ok (t.blank l.pos))) emptyP (popAs t .Word [.CmdRawArg])) emptyP
    spaceP n
    subP t (parseSrcArguments t n)
    codeBody t n
    skipP t [.CmdPrefix]
    skipP t [.CmdSrcEnd]
    codeResults t stmt n

/-! ## Lists -/

/-- `colon_pattern` – 1726-1730 -/
def colonPattern : List TK := [.Whitespace, .DoubleColon, .Whitespace]

/-- The search for ` :: ` in the line – 1724-1750, on the kinds of the group from the
position on. -/
def hasTag : List TK → Bool
  | [] => false
  | k :: ks =>
    if colonPattern.isPrefixOf (k :: ks) then true
    else if k ∈ newlineKinds then false
    else hasTag ks

/-- The tag of a description item – 1750-1765 -/
def listTag (t : Texts) (par : P Unit) (n : Nat) : P Unit :=
  ifP (ask (fun l => .ok (hasTag (groupRest l))))
    (do
      let ids ← collect (canSearchSeq colonPattern) n
      match ids with
      | [] => emptyP
      | _ :: _ => do
        subP t (withIds ids par)
        lexSkip [.Whitespace]
        lexSkip [.DoubleColon]
        spaceP n)
    emptyP

/-- `parseListItem` – 1696-1774 -/
def parseListItem (t : Texts) (par stmt : P Unit) (n : Nat) : P Unit :=
  node .ListItem do
    popAs t .RawText listStarts
    spaceP n
    emptyP
    ifP (atP [.Checkbox]) (do popAs t .Checkbox [.Checkbox]; spaceP n) emptyP
    listTag t par n
    node .StmtList do
      whileP (canSearch [.Dedent, .SameIndent, .ListItemEnd]) (subP t stmt) n
      ifP (atP [.ListItemEnd]) nextP (P.ret ())

/-- `parseList` – 1777-1790 (`lex.tok()` of 1782 throws at the end of the stream) -/
def parseList (t : Texts) (par stmt : P Unit) (n : Nat) : P Unit :=
  node .List do
    let _ ← kindP
    whileP (orP (atP listStarts) (andP (atP [.LeadingSpace]) (atP listStarts 1)))
      (do
        subP t (parseListItem t par stmt n)
        ifP (atP [.SameIndent]) nextP (P.ret ())) n

/-! ## Headlines -/

/-- `parseSubtreeLogbook` – 1793-1813 -/
def parseSubtreeLogbook (t : Texts) (par stmt : P Unit) (n : Nat) : P Unit :=
  node .DrawerLogbook do
    skipP t [.ColonLogbook]
    newlineP n
    spaceP n
    skipP t [.Indent]
    subP t (parseList t par stmt n)
    ifP (atP [.StmtListEnd]) (do skipP t [.StmtListEnd]; skipP t [.ListItemEnd]) (P.ret ())
    skipP t [.Dedent]
    spaceP n
    skipP t [.ColonEnd]

/-- One property – 1822-1858 -/
def drawerProperty (t : Texts) (par : P Unit) (n : Nat) : P Unit :=
  P.bind kindP (fun k =>
    if k ∈ [Token.TK.ColonLiteralProperty, .ColonArgumentsProperty, .ColonPropertyText] then
      node .DrawerProperty do
        popAs t .RawText [k]
        ifP (P.ret (decide (k = .ColonLiteralProperty))) (popAs t .RawText [.RawText])
          (ifP (P.ret (decide (k = .ColonArgumentsProperty))) (subP t (parseCommandArguments t n))
            (do
              spaceP n
              let ids ← collect (canSearch newlineKinds) n
              startIds t ids par))
        skipP t [.Newline]
    else failP t)

/-- `parseSubtreeProperties` – 1816-1863 -/
def parseSubtreeProperties (t : Texts) (par : P Unit) (n : Nat) : P Unit := do
  skipP t [.ColonProperties]
  skipP t [.Newline]
  node .DrawerPropertyList do
    whileP (canSearch [.ColonEnd]) (drawerProperty t par n) n
    skipP t [.ColonEnd]

/-- `parseSubtreeDrawer` – 1866-1889 -/
def parseSubtreeDrawer (t : Texts) (par stmt : P Unit) (n : Nat) : P Unit :=
  node .Drawer
    (whileP (atP [.ColonProperties, .ColonLogbook])
      (do
        ifP (atP [.ColonProperties]) (parseSubtreeProperties t par n) (parseSubtreeLogbook t par stmt n)
        newlineP n
        spaceP n) n)

/-- `parseSubtreeCompletion` – 1893-1901 -/
def parseSubtreeCompletion (n : Nat) : P Unit := do
  spaceP n
  ifP (atP [.SubtreeCompletion]) (popAny .SubtreeCompletion) emptyP

/-- `parseSubtreeTodo` – 1904-1912 -/
def parseSubtreeTodo (n : Nat) : P Unit := do
  spaceP n
  ifP (atSeqP [.BigIdent, .Whitespace, .SubtreePriority]) (popAny .BigIdent) emptyP

/-- `parseSubtreeUrgency` – 1915-1923 -/
def parseSubtreeUrgency (n : Nat) : P Unit := do
  spaceP n
  ifP (atP [.SubtreePriority]) (popAny .SubtreeUrgency) emptyP

/-- `is_at_subtree_tags` – 1931-1950: from a colon on, only tag tokens up to the end of the
line. -/
def atTags (l : Lex TK) : Except Lexer.Err Bool :=
  match l.at [.Colon] with
  | .error e => .error e
  | .ok false => .ok false
  | .ok true =>
    match (groupRest l).dropWhile (fun k => decide (k ∈ [Token.TK.Colon, .Word, .DoubleHash, .At, .BigIdent])) with
    | [] => .ok true
    | k :: _ => .ok (decide (k ∈ newlineKinds))

/-- `parseSubtreeTitle` – 1926-1966 -/
def parseSubtreeTitle (t : Texts) (par : P Unit) (n : Nat) : P Unit := do
  spaceP n
  let ids ← collect (andP (canSearch newlineKinds) (andP (notP (ask atTags)) (notP (atP [.SubtreeCompletion])))) n
  idsOrEmpty t ids par

/-- `parseSubtreeTags` – 1969-1983 -/
def parseSubtreeTags (t : Texts) (n : Nat) : P Unit :=
  ifP (atP [.Colon])
    (node .InlineStmtList do
      whileP (andP (atP [.Colon]) (atP [.Word, .At, .BigIdent] 1))
        (do skipP t [.Colon]; subP t (parseHashTag t n)) n
      skipP t (.Colon :: newlineKinds))
    emptyP

/-- The tokens a standalone time may have – 2031-2040 (dates are not among them) -/
def standaloneTokens : List TK :=
  [.BraceBegin, .BraceEnd, .AngleBegin, .AngleEnd, .InactiveDynamicTimeContent, .ActiveDynamicTimeContent,
   .TimeRepeaterSpec]

/-- Is there a time in the next line? – 2005-2028, on the kinds of the group from the
position on. -/
def timeAhead : List TK → Bool
  | .Newline :: ks =>
    match (match ks with | .LeadingSpace :: r => r | r => r) with
    | .AngleBegin :: .Date :: _ => true
    | .BraceBegin :: .Date :: _ => true
    | _ => false
  | _ => false

/-- `parseSubtreeTimes` – 1986-2065 -/
def parseSubtreeTimes (t : Texts) (n : Nat) : P Unit :=
  ifP (orP (andP (atP [.LeadingSpace]) (atP [.TreeTime] 1)) (atP [.TreeTime]))
    (do
      spaceP n
      node .StmtList do
        whileP (orP (atP [.TreeTime]) (andP (atP [.Newline]) (atP [.TreeTime] 1)))
          (do
            newlineP n
            node .InlineStmtList do
              popAny .Word
              spaceP n
              subP t (parseTimeRange t n)
              spaceP n) n
        ifP (andP (ask (fun l => .ok (timeAhead (if l.finished then [] else groupRest l))))
            (ask (fun l => (l.find standaloneTokens newlineKinds n 1).map (fun i => decide (i ≠ -1)))))
          (do
            lexSkip [.Newline]
            spaceP n
            node .InlineStmtList do
              emptyP
              subP t (parseTimeRange t n)
              spaceP n)
          (P.ret ()))
    emptyP

/-- Does the function fail? – 2081-2082 -/
def failsP (p : P Unit) : P Bool := fun s =>
  match p s with
  | .error e => .error e
  | .ok (some _, s') => .ok (some false, s')
  | .ok (none, s') => .ok (some true, s')

/-- `parseElement` – 2080-2087: after a failure the remaining fields are empty. -/
def element (p : P Unit) (failed : Bool) : P Bool :=
  if failed then P.bind emptyP (fun _ => P.ret true) else failsP p

/-- `parseSubtree` – 2068-2119 -/
def parseSubtree (t : Texts) (par stmt : P Unit) (n : Nat) : P Unit :=
  node .Subtree do
    popAs t .RawText [.SubtreeStars]
    let f ← element (parseSubtreeTodo n) false
    let f ← element (parseSubtreeUrgency n) f
    spaceP n
    let f ← element (parseSubtreeTitle t par n) f
    let f ← element (parseSubtreeCompletion n) f
    spaceP n
    let f ← element (parseSubtreeTags t n) f
    ifP (atP [.Newline]) (newlineP n) (P.ret ())
    let f ← element (parseSubtreeTimes t n) f
    ifP (atP [.Newline]) (newlineP n) (P.ret ())
    let f ← ifP (atP [.ColonProperties, .ColonLogbook]) (element (parseSubtreeDrawer t par stmt n) f)
      (P.bind emptyP (fun _ => P.ret f))
    newlineP n
    node .StmtList (P.ret ())
    fun s => .ok (if f then none else some (), s)

/-! ## Line commands -/

/-- The raw commands – 2156-2169 -/
def customRaw : List TK :=
  [.CmdBindRaw, .CmdCategoryRaw, .CmdSetupfileRaw, .CmdPrioritiesRaw, .CmdSeqTodoRaw, .CmdTagsRaw, .CmdMacroRaw,
   .CmdLinkRaw, .CmdLatexHeaderExtraRaw, .CmdExcludeTagsRaw, .CmdSelectTagsRaw, .CmdDrawersRaw, .CmdConstants,
   .CmdCustomRaw]

/-- `raw_arg_cmd_value` – 2135-2142 -/
def rawArgValue : List TK := [.CmdRawArg, .BraceBegin, .BraceEnd, .Comma, .Equals, .RawText]

/-- `get_cmd_arguments` – 2144-2150 -/
def cmdArguments (t : Texts) (n : Nat) : P Unit :=
  node .InlineStmtList (whileP (atP rawArgValue) (popAs t .RawText rawArgValue) n)

/-- The node kind of a command whose kind only names the node – 2244-2249, 2268-2274,
2318-2332, 2381-2386, 2416-2421 -/
def cmdNode : TK → NK
  | .CmdAuthor => .CmdAuthor
  | .CmdCreator => .CmdCreator
  | .CmdTitle => .CmdTitle
  | .CmdCaption => .CmdCaption
  | .CmdEmailRaw => .CmdEmail
  | .CmdLanguage => .CmdLanguage
  | .CmdLatexHeader => .CmdLatexHeader
  | .CmdStartup => .CmdStartup
  | .CmdLatexCompiler => .CmdLatexCompiler
  | .CmdLatexClass => .CmdLatexClass
  | .CmdLatexClassOptions => .CmdLatexClassOptions
  | .CmdOptions => .CmdOptions
  | .CmdHeader => .CmdHeader
  | .CmdName => .CmdName
  | .CmdResults => .CmdResults
  | .CmdTblfm => .CmdTblfm
  | .CmdColumns => .CmdColumns
  | _ => .CmdKeywords

/-- The tags of `#+filetags` – 2290-2301 -/
def fileTags (t : Texts) (n : Nat) : P Unit := do
  whileP (atP [.Word, .BigIdent] 1)
    (do
      ifP (atP [.Colon]) nextP (spaceP n)
      subP t (parseHashTag t n)
      spaceP n) n
  ifP (atP [.Colon]) nextP (P.ret ())

/-- The cases of `parseLineCommand` – 2153-2435; the final `newline` is inside of the node. -/
def lineCommand (t : Texts) (par : P Unit) (n : Nat) (k : TK) : P Unit :=
  if k ∈ customRaw then
    node .CmdCustomRawCommand do
      skipP t [.CmdPrefix]
      popAs t .RawText [k]
      spaceP n
      whileP (atP [.RawText]) (do popAs t .RawText [.RawText]; ifP (atP [.Whitespace]) (spaceP n) (P.ret ())) n
      newlineP n
  else if k ∈ [Token.TK.CmdDateRaw, .CmdDescription] then do
    skipP t [.CmdPrefix]
    node .CmdCustomTextCommand do
      popAs t .RawText [k]
      spaceP n
      node .Attrs (toEol t par n (.Newline :: paragraphTerminator))
      newlineP n
  else if k = .CmdHtmlHeadRaw then do
    skipP t [.CmdPrefix]
    node .CmdCustomArgsCommand do
      popAs t .RawText [k]
      spaceP n
      subP t (parseCommandArguments t n)
      newlineP n
  else if k = .CmdCall then
    node .CmdCallCode do
      skipP t [.CmdPrefix]
      skipP t [.CmdCall]
      spaceP n
      popAs t .Word [.CmdRawArg]
      spaceP n
      ifP (atP [.BraceBegin])
        (do skipP t [.BraceBegin]; subP t (parseCommandArguments t n); skipP t [.BraceEnd]) emptyP
      spaceP n
      ifP (atP [.ParBegin]) (subP t (parseCallArguments t n)) emptyP
      spaceP n
      subP t (parseCommandArguments t n)
      newlineP n
  else if k ∈ [Token.TK.CmdAuthor, .CmdCreator, .CmdTitle, .CmdCaption] then do
    skipP t [.CmdPrefix]
    skipP t [k]
    spaceP n
    node (cmdNode k) do
      node .Attrs (toEol t par n (.Newline :: paragraphTerminator))
      newlineP n
  else if k ∈ [Token.TK.CmdEmailRaw, .CmdLatexHeader, .CmdStartup, .CmdLanguage] then
    node (cmdNode k) do
      skipP t [.CmdPrefix]
      skipP t [k]
      spaceP n
      whileP (atP [.RawText, .CmdRawArg]) (do popAny .RawText; spaceP n) n
      newlineP n
  else if k = .CmdFiletags then do
    skipP t [.CmdPrefix]
    skipP t [.CmdFiletags]
    spaceP n
    node .CmdFiletags do
      fileTags t n
      newlineP n
  else if k ∈ [Token.TK.CmdLatexClass, .CmdLatexCompiler] then do
    skipP t [.CmdPrefix]
    node (cmdNode k) do
      skipP t [k]
      spaceP n
      popAs t .Word [.CmdRawArg]
      newlineP n
  else if k ∈ [Token.TK.CmdLatexClassOptions, .CmdOptions, .CmdKeywordsRaw, .CmdTblfm, .CmdColumns] then do
    skipP t [.CmdPrefix]
    skipP t [k]
    spaceP n
    node (cmdNode k) do
      cmdArguments t n
      newlineP n
  else if k = .CmdPropertyRaw then do
    skipP t [.CmdPrefix]
    skipP t [k]
    spaceP n
    node .CmdPropertyRaw do
      popAs t .RawText [.RawText]
      newlineP n
  else if k = .CmdPropertyText then do
    skipP t [.CmdPrefix]
    skipP t [k]
    spaceP n
    node .CmdPropertyArgs do
      popAs t .RawText [.CmdRawArg]
      subP t (parseCommandArguments t n)
      subP t par
      newlineP n
  else if k = .CmdInclude then
    node .CmdInclude do
      skipP t [.CmdPrefix]
      skipP t [.CmdInclude]
      spaceP n
      subP t (parseCommandArguments t n)
      newlineP n
  else if k = .CmdAttr then
    node .CmdAttr do
      skipP t [.CmdPrefix]
      popAs t .Word [.CmdAttr]
      spaceP n
      subP t (parseCommandArguments t n)
      newlineP n
  else if k ∈ [Token.TK.CmdName, .CmdResults, .CmdHeader] then do
    skipP t [.CmdPrefix]
    skipP t [k]
    node (cmdNode k) do
      spaceP n
      subP t (parseCommandArguments t n)
      newlineP n
  else if k = .CmdPropertyArgs then do
    skipP t [.CmdPrefix]
    skipP t [k]
    spaceP n
    node .CmdPropertyArgs do
      popAs t .RawText [.CmdRawArg]
      subP t (parseCommandArguments t n)
      newlineP n
  else throwP .fatal

/-- `parseLineCommand` – 2131-2442 -/
def parseLineCommand (t : Texts) (par : P Unit) (n : Nat) : P Unit :=
  P.bind (kindP 1) (fun k => lineCommand t par n k)

/-! ## Statements -/

/-- `auto res = p(); TRY_SKIP(lex, Dedent); return res;` -/
def thenDedent (t : Texts) (p : P Unit) : P Unit := fun s =>
  match p s with
  | .error e => .error e
  | .ok (r, s') =>
    match skipP t [.Dedent] s' with
    | .error e => .error e
    | .ok (none, s'') => .ok (none, s'')
    | .ok (some _, s'') => .ok (r, s'')

/-- The list case of `parseStmtListItem` – 2452-2457: the closing token is read even if the
list has failed. -/
def indentedList (t : Texts) (par stmt : P Unit) (n : Nat) : P Unit :=
  P.bind (skipP t [.Indent]) (fun _ => thenDedent t (parseList t par stmt n))

/-- The default case of `parseStmtListItem` – 2507-2519: a token that ends paragraphs and
starts nothing is dropped, an empty paragraph takes its place. -/
def plainParagraph (par : P Unit) (n : Nat) : P Unit :=
  P.bind (collect (canSearch paragraphTerminator) n) (fun ids =>
    match ids with
    | [] => P.bind nextP (fun _ => node .Paragraph (P.ret ()))
    | _ :: _ => withIds ids par)

/-- The commands of `parseStmtListItem` – 2480-2506 -/
def stmtCommand (t : Texts) (par stmt : P Unit) (n : Nat) : P Unit :=
  P.bind (kindP 1) (fun k =>
    if k = .CmdSrcBegin then parseSrc t stmt n
    else if k = .CmdExampleBegin then parseExample t n
    else if k = .CmdExportBegin then parseBlockExport t n
    else if k ∈ [Token.TK.CmdVerseBegin, .CmdCenterBegin, .CmdCommentBegin, .CmdDynamicBlockBegin, .CmdQuoteBegin] then
      parseTextWrapCommand t stmt n
    else if k = .CmdTableBegin then parseTable t par stmt n
    else parseLineCommand t par n)

/-- `parseStmtListItem` – 2445-2526 -/
def parseStmt (t : Texts) : Nat → P Unit
  | 0 => throwP .diverges
  | n + 1 =>
    P.bind kindP (fun k =>
      if k = .SubtreeStars then parseSubtree t (parseParagraph t n) (parseStmt t n) n
      else if k = .Indent then indentedList t (parseParagraph t n) (parseStmt t n) n
      else if k = .Whitespace then popAs t .Space [.Whitespace]
      else if k ∈ newlineKinds then popAny .Newline
      else if k = .TextSeparator then popAs t .TextSeparator [.TextSeparator]
      else if k ∈ [Token.TK.TableSeparator, .LeadingPipe] then parseTable t (parseParagraph t n) (parseStmt t n) n
      else if k = .ColonExampleLine then parseColonExample t n
      else if k = .CmdPrefix then stmtCommand t (parseParagraph t n) (parseStmt t n) n
      else plainParagraph (parseParagraph t n) n)

/-- After a failure the rest of the line is skipped – 2540-2544 -/
def recover (stmt : P Unit) (n : Nat) : P Unit := fun s =>
  match stmt s with
  | .error e => .error e
  | .ok (some a, s') => .ok (some a, s')
  | .ok (none, s') => node .ErrorSkipGroup (whileP (canSearch newlineKinds) (popAny .ErrorSkipToken) n) s'

/-- `parseTop` – 2529-2548 -/
def parseTop (t : Texts) (n : Nat) : P Unit :=
  node .StmtList
    (whileP (notP finishedP) (ifP (atP [.Comment]) nextP (recover (parseStmt t n) n)) n)

/-- The kinds the outline pass distinguishes; all others go by their number. -/
def outlineKind : NK → Outline.Kind
  | .Subtree => .subtree
  | .StmtList => .stmtList
  | .ErrorSkipGroup => .errorSkipGroup
  | .Empty => .empty
  | k => .other k.ctorIdx

/-- The flat tree with these kinds. -/
def toOutline (g : Group NK Unit) : Group Outline.Kind Unit :=
  { nodes := g.nodes.map (fun n => ⟨outlineKind n.kind, n.value⟩), pending := g.pending }

/-- `parseFull` – 2551-2557 on the tokens of a group; the outline pass (`extendSubtreeTrails`,
see `Verif.Outline`) runs on the result (`OrgId(0)` is the first node). -/
def parseFull (t : Texts) (textLen : Nat → Nat) (fuel n : Nat) (toks : List TK) : Except PErr (Group Outline.Kind Unit) :=
  match parseTop t n ⟨Lex.main toks, {}⟩ with
  | .error e => .error e
  | .ok (_, s) =>
    match Outline.extendSubtreeTrails textLen fuel (toOutline s.g) 1 with
    | .error .assertion => .error .tree
    | .error .range => .error .range
    | .error .diverges => .error .diverges
    | .ok g => .ok g

end Verif.Parser

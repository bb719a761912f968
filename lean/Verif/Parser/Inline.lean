import Verif.Parser.Basic

/-!
# Model of the inline parse functions – src/haxorg/parse/OrgParser.cpp

`n` is the fuel for loops; `par` is `parseParagraph` for the nested texts.
-/

namespace Verif.Parser
open Verif.Lexer Verif.NodeGroup

/-- `parseAttrLisp` – 343-362 -/
def parseAttrLisp (t : Texts) : Nat → P Unit
  | 0 => throwP .diverges
  | n + 1 => node .AttrLisp
    (ifP (atP [.ParBegin])
      (node .InlineStmtList do
        skipP t [.ParBegin]
        spaceP n
        whileP (canSearch [.ParEnd]) (do subP t (parseAttrLisp t n); spaceP n) n
        skipP t [.ParEnd])
      (popAny .RawText))

/-- `eqTokens` – 269-270 -/
def eqTokens : List TK := [.Equals, .VerbatimBegin, .VerbatimEnd, .VerbatimUnknown]

/-- The list in brackets of `parseAttrValue` – 286-307 -/
def attrBracketList (t : Texts) (n : Nat) : P Unit :=
  node .InlineStmtList do
    skipP t [.BraceBegin]
    whileP (orP (atP [.CmdRawArg]) (atP [.Comma]))
      (ifP (atP [.Comma])
        (do emptyP; nextP; spaceP n)
        (do popAs t .RawText [.CmdRawArg]
            spaceP n
            ifP (atP [.Comma]) (do nextP; spaceP n) (P.ret ()))) n
    skipP t [.BraceEnd]

/-- `parseAttrValue` – 246-341 -/
def parseAttrValue (t : Texts) (n : Nat) : P Unit :=
  node .AttrValue
    (ifP (atP [.CmdColonIdent, .CmdRawArg, .ParBegin])
      (do
        ifP (atP [.CmdColonIdent]) (do popAs t .Word [.CmdColonIdent]; spaceP n) emptyP
        ifP (andP (atP [.CmdRawArg]) (atP eqTokens 1))
          (do popAs t .RawText [.CmdRawArg]; skipP t eqTokens; spaceP n) emptyP
        ifP (atP [.ParBegin]) (subP t (parseAttrLisp t n))
          (ifP (atP [.CmdRawArg]) (popAs t .RawText [.CmdRawArg]) emptyP)
        ifP (atP [.BraceBegin]) (attrBracketList t n) emptyP)
      (do
        emptyP
        ifP (andP (atP [.Word, .RawText]) (atP eqTokens 1))
          (do popAny .RawText; nextP) emptyP
        node .InlineStmtList (whileP (canSearch [.ParEnd, .Comma]) (popAny .RawText) n)
        emptyP))

/-- `parseCallArguments` – 223-243 -/
def parseCallArguments (t : Texts) (n : Nat) : P Unit :=
  node .InlineStmtList
    (ifP (atP [.ParBegin])
      (do
        skipP t [.ParBegin]
        whileP (canSearch [.ParEnd])
          (do subP t (parseAttrValue t n)
              spaceP n
              ifP (atP [.Comma]) (do nextP; spaceP n) (P.ret ())) n
        skipP t [.ParEnd])
      (P.ret ()))

/-- `parseCommandArguments` – 1387-1398 -/
def parseCommandArguments (t : Texts) (n : Nat) : P Unit := do
  spaceP n
  node .InlineStmtList
    (whileP (atP [.CmdRawArg, .CmdColonIdent]) (do subP t (parseAttrValue t n); spaceP n) n)

/-- `parseCSVArguments` – 156-178 -/
def parseCSVArguments (t : Texts) (n : Nat) : P Unit := do
  popAs t .Word [.Word, .SrcContent]
  ifP (atP [.ParBegin])
    (do
      skipP t [.ParBegin]
      whileP (atP [.RawText])
        (do popAs t .RawText [.RawText]; ifP (atP [.Comma]) nextP (P.ret ())) n
      skipP t [.ParEnd])
    (P.ret ())

/-- The search for `}}}` – 193-200: the first `}` decides. -/
def closesTriple : Nat → Int → Lex TK → Except Lexer.Err Bool
  | 0, _, _ => .error .fuel
  | fuel + 1, off, l =>
    if l.hasNext off then
      match l.at [.CurlyEnd] off with
      | .error e => .error e
      | .ok false => closesTriple fuel (off + 1) l
      | .ok true =>
        match l.at [.CurlyEnd] (off + 1) with
        | .error e => .error e
        | .ok false => .ok false
        | .ok true => l.at [.CurlyEnd] (off + 2)
    else .ok false

/-- The three closing braces – 210-217; missing braces although `}}}` was seen is an
assertion failure. -/
def closeMacro (t : Texts) (hasClose : Bool) : Nat → P Unit
  | 0 => if hasClose then P.ret () else throwP .macro
  | i + 1 => ifP (atP [.CurlyEnd]) (P.bind nextP (fun _ => closeMacro t hasClose i))
      (if hasClose then throwP .macro else failP t)

/-- `parseMacro` – 189-221 -/
def parseMacro (t : Texts) (n : Nat) : P Unit := do
  let hasClose ← ask (closesTriple n 0)
  node .Macro do
    skipP t [.CurlyBegin]
    skipP t [.CurlyBegin]
    skipP t [.CurlyBegin]
    popAs t .Word [.Word]
    subP t (parseCallArguments t n)
    closeMacro t hasClose 3

/-- `parsePlaceholder` – 365-373 -/
def parsePlaceholder : P Unit := ifP (atP [.Placeholder]) (popAny .Placeholder) (popAny .Punctuation)

/-- Protocol and target of a link – 656-710; the loop 700-702 does not stop at the end of
the stream. -/
def linkTarget (t : Texts) (par : P Unit) (n : Nat) : TK → P Unit
  | .LinkProtocolHttp => do popAs t .Word [.LinkProtocolHttp]; popAs t .RawText [.LinkTarget]
  | .LinkProtocolId => do popAs t .Word [.LinkProtocolId]; popAs t .RawText [.LinkTarget]
  | .LinkProtocolTitle => do emptyP; popAs t .RawText [.LinkProtocolTitle]
  | .LinkProtocolCustomId => do popAs t .Word [.LinkProtocolCustomId]; popAs t .RawText [.LinkTarget]
  | .LinkProtocolAttachment => do popAs t .Word [.LinkProtocolAttachment]; popAs t .RawText [.LinkTarget]
  | .LinkProtocolFile => do popAs t .Word [.LinkProtocolFile]; popAs t .RawText [.LinkTarget]
  | .LinkTargetFile => do emptyP; popAs t .RawText [.LinkTargetFile]
  | .LinkProtocolInternal => do emptyP; popAs t .RawText [.LinkProtocolInternal]
  | _ => do
    popAs t .Word [.LinkProtocol]
    let ids ← collect (notP (atP [.LinkSplit, .LinkEnd])) n
    idsOrEmpty t ids par

/-- `parseLink` – 643-729 -/
def parseLink (t : Texts) (par : P Unit) (n : Nat) : P Unit :=
  ifP (atP [.LinkProtocolHttp])
    (node .Link do
      popAs t .Word [.LinkProtocolHttp]
      popAs t .RawText [.LinkTarget]
      emptyP)
    (node .Link do
      skipP t [.LinkBegin]
      let k ← kindP
      linkTarget t par n k
      ifP (atP [.LinkSplit])
        (do
          skipP t [.LinkSplit]
          let ids ← collect (canSearch [.LinkEnd]) n
          idsOrEmpty t ids par)
        emptyP
      skipP t [.LinkEnd])

/-- The next curly argument of a symbol – 758-771 -/
def symbolArg (t : Texts) (text : P Unit) : P Unit :=
  ifP (atSeqP [.CurlyBegin, .CurlyEnd])
    (do emptyP; skipP t [.CurlyBegin]; skipP t [.CurlyEnd])
    (fun s =>
      match s.lex.getInside [.CurlyBegin] [.CurlyEnd] with
      | .error e => .error (.ofLex e)
      | .ok (ids, l) => node .Paragraph (withIds ids text) { s with lex := l })

/-- `parseSymbol` – 743-778 -/
def parseSymbol (t : Texts) (text : P Unit) (n : Nat) : P Unit :=
  node .Symbol do
    popAs t .Word [.Symbol]
    node .InlineStmtList
      (whileP (atP [.BraceBegin]) (do skipP t [.BraceBegin]; popAny .RawText; skipP t [.BraceEnd]) n)
    node .InlineStmtList (whileP (atP [.CurlyBegin]) (symbolArg t text) n)

/-- The tags in brackets – 823-840: `true` when a nested tag has consumed `]]`. -/
def hashList (aux : P Bool) (n : Nat) : Nat → P Bool
  | 0 => throwP .diverges
  | m + 1 => ifP (andP (notP finishedP) (notP (atP [.BraceEnd, .LinkEnd])))
      (P.bind aux (fun dbl =>
        match dbl with
        | true => P.ret true
        | false => do
          ifP (atP [.Comma]) nextP (P.ret ())
          spaceP n
          hashList aux n m))
      (P.ret false)

/-- `aux` of `parseHashTag` – 793-851; the result is `doubleSkip`. -/
def hashAux (t : Texts) : Nat → P Bool
  | 0 => throwP .diverges
  | n + 1 => node .HashTag do
    spaceP n
    ifP (atP [.At]) (popAs t .RawText [.At]) (popAs t .RawText [.HashIdent, .Word, .BigIdent])
    ifP (atP [.DoubleHash])
      (do
        skipP t [.DoubleHash]
        ifP (atP [.HashIdent, .Word, .BigIdent])
          (P.bind (hashAux t n) (fun _ => P.ret false))
          (do
            skipP t [.BraceBegin]
            let dbl ← hashList (hashAux t n) n n
            match dbl with
            | true => P.ret false
            | false =>
              ifP (atP [.LinkEnd])
                (do skipP t [.LinkEnd]; P.ret true)
                (do skipP t [.BraceEnd]; P.ret false)))
      (P.ret false)

/-- `parseHashTag` – 781-855 -/
def parseHashTag (t : Texts) (n : Nat) : P Unit := P.bind (hashAux t n) (fun _ => P.ret ())

/-- The content of a dynamic time – 889-905 -/
def dynamicTime (t : Texts) (n : Nat) : P Unit :=
  ifP (atP [.ParBegin])
    (node .InlineStmtList do
      skipP t [.ParBegin]
      spaceP n
      whileP (canSearch [.ParEnd]) (do subP t (parseAttrLisp t n); spaceP n) n
      skipP t [.ParEnd])
    (popAny .RawText)

/-- The content of a static time – 914-970 -/
def staticTime (t : Texts) (n : Nat) (active : Bool) : P Unit := do
  skipP t (if active then [.AngleBegin] else [.BraceBegin])
  ifP (atP [.Date]) (do popAs t .RawText [.Date]; spaceP n) emptyP
  ifP (atP [.Word]) (do nextP; spaceP n) (P.ret ())
  ifP (atP [.Time]) (do popAs t .RawText [.Time]; spaceP n) emptyP
  ifP (andP (atP [.StrikeBegin]) (atP [.Number] 1))
    (do nextP; popAs t .RawText [.Number]; spaceP n) emptyP
  ifP (atP [.TimeRepeaterSpec])
    (node .InlineStmtList
      (whileP (atP [.TimeRepeaterSpec])
        (do
          node .InlineStmtList do
            popAs t .RawText [.TimeRepeaterSpec]
            whileP (atP [.TimeRepeaterDuration]) (popAny .RawText) n
          spaceP n) n))
    emptyP
  ifP (atP [.TimeWarnPeriod]) (popAs t .RawText [.TimeWarnPeriod]) emptyP

/-- `parseTimeStamp` – 858-975 (`lex.tok()` of 860 throws at the end of the stream) -/
def parseTimeStamp (t : Texts) (n : Nat) : P Unit := do
  let _ ← kindP
  expectP t [.BraceBegin, .AngleBegin, .InactiveDynamicTimeContent, .ActiveDynamicTimeContent]
  let active ← atP [.AngleBegin, .ActiveDynamicTimeContent]
  ifP (atP [.InactiveDynamicTimeContent, .ActiveDynamicTimeContent])
    (node (if active then .DynamicActiveTime else .DynamicInactiveTime) do
      skipP t (if active then [.ActiveDynamicTimeContent] else [.InactiveDynamicTimeContent])
      ignoreP (dynamicTime t n))
    (node (if active then .StaticActiveTime else .StaticInactiveTime) (staticTime t n active))
  skipP t (if active then [.AngleEnd] else [.BraceEnd])

/-- The tokens of a time range – 980-996 -/
def timeTokens : List TK :=
  [.BraceBegin, .BraceEnd, .AngleBegin, .AngleEnd, .InactiveDynamicTimeContent, .ActiveDynamicTimeContent,
   .Date, .Word, .Time, .Number, .StrikeBegin, .Whitespace, .TimeRepeaterSpec, .TimeWarnPeriod, .TimeRepeaterDuration]

/-- The search for `>--<` – 998-1014, on the kinds of the group from the position on (`tmp`
is a cursor over the whole group, whatever `lex` is). -/
def isTimeRange : List TK → Bool
  | [] => false
  | k :: ks =>
    if k ∈ timeTokens then
      match k, ks with
      | .AngleEnd, .DoubleDash :: .AngleBegin :: _ => true
      | .AngleEnd, .DoubleDash :: .ActiveDynamicTimeContent :: _ => true
      | .BraceEnd, .DoubleDash :: .BraceBegin :: _ => true
      | .BraceEnd, .DoubleDash :: .InactiveDynamicTimeContent :: _ => true
      | _, _ => isTimeRange ks
    else false

/-- The kinds of the group from the position of the cursor on. -/
def groupRest (l : Lex TK) : List TK := if l.pos = 0 then [] else l.toks.drop (l.pos - 1)

/-- `parseTimeRange` – 978-1035 -/
def parseTimeRange (t : Texts) (n : Nat) : P Unit :=
  ifP (ask (fun l => .ok (isTimeRange (groupRest l))))
    (node .TimeRange do
      subP t (parseTimeStamp t n)
      skipP t [.DoubleDash]
      subP t (parseTimeStamp t n)
      ifP (ask (fun l => (l.find [.Whitespace] [.TimeArrow] n).map (fun i => decide (i ≠ -1))))
        (do spaceP n; skipP t [.TimeArrow]; spaceP n; popAs t .SimpleTime [.Time])
        emptyP)
    (subP t (parseTimeStamp t n))

/-- `parseFootnote` – 1038-1056 -/
def parseFootnote (t : Texts) (par : P Unit) (n : Nat) : P Unit :=
  ifP (atP [.FootnoteLinked])
    (node .Footnote do emptyP; popAny .RawText)
    (node .InlineFootnote do
      skipP t [.FootnoteInlineBegin]
      let ids ← collect (canSearch [.BraceEnd]) n
      startIds t ids par
      skipP t [.BraceEnd])

/-- The code of an inline source – 1072-1084; the count starts at one and is only ever
decreased, so the loop ends at the first `}`. -/
def srcInlineBody (t : Texts) (n : Nat) : P Unit := do
  whileP (canSearch [.CurlyEnd]) (popAny .CodeText) n
  ifP finishedP (P.ret ()) (skipP t [.CurlyEnd])

/-- `parseSrcInline` – 1059-1090 -/
def parseSrcInline (t : Texts) (n : Nat) : P Unit :=
  node .SrcInlineCode do
    popAs t .Word [.TextSrcBegin]
    emptyP
    node .CodeLine do
      skipP t [.CurlyBegin]
      srcInlineBody t n
    emptyP

/-- The end of a verbatim text that starts with the given kind. -/
def verbatimEnd (m : Bool) : TK := if m then .MonospaceEnd else .VerbatimEnd

/-- The loop of `parseVerbatimOrMonospace` – 1104-1134, with the number of newlines seen. -/
def verbatimLoop (m : Bool) : Nat → Nat → P Unit
  | 0, _ => ifP finishedP (P.ret ()) (throwP .diverges)
  | n + 1, lines => ifP finishedP (P.ret ())
      (P.bind kindP (fun k =>
        if k = verbatimEnd m then P.ret ()
        else if k = .Newline then
          if 2 < lines then P.ret () else P.bind (popAny .RawText) (fun _ => verbatimLoop m n (lines + 1))
        else if k = .Placeholder then P.bind parsePlaceholder (fun _ => verbatimLoop m n lines)
        else P.bind (popAny .RawText) (fun _ => verbatimLoop m n lines)))

/-- `parseVerbatimOrMonospace` – 1092-1156: without an end, everything added is removed
again, the cursor goes back and the delimiter becomes punctuation. -/
def parseVerbatim (n : Nat) : P Unit := fun s =>
  match s.lex.kind with
  | .error e => .error (.ofLex e)
  | .ok k =>
    let m := decide (k = .MonospaceBegin)
    let body : P Bool := do
      nextP
      verbatimLoop m n 0
      let closed ← atP [verbatimEnd m]
      ifP (P.ret closed) nextP (P.ret ())
      P.ret closed
    match node (if m then .Monospace else .Verbatim) body s with
    | .error e => .error e
    | .ok (none, s') => .ok (none, s')
    | .ok (some true, s') => .ok (some (), s')
    | .ok (some false, s') =>
      match s'.g.removeTail (s.g.nodes.length + 1), s'.lex.setPos s.lex.pos with
      | .ok g, .ok l => popAny .Punctuation ⟨l, g⟩
      | .error _, _ => .error .tree
      | _, .error e => .error (.ofLex e)

/-- The content of an angle target – 1174-1182: other tokens are not consumed, so the loop
does not end on them. -/
def angleBody (end' : TK) (n : Nat) : P Unit :=
  whileP (canSearch [end'])
    (ifP (atP [.RawText]) (popAny .RawText)
      (ifP (atP [.Whitespace]) (popAny .Space)
        (ifP (atP [.Word]) (popAny .Word)
          (ifP (atP [.BigIdent]) (popAny .BigIdent) (P.ret ()))))) n

/-- `parseAngleTarget` – 1158-1187 -/
def parseAngleTarget (t : Texts) (n : Nat) : P Unit := do
  let k ← kindP
  let radio := decide (k = .TripleAngleBegin)
  let end' : TK := if radio then .TripleAngleEnd else .DoubleAngleEnd
  let begin' : TK := if radio then .TripleAngleBegin else .DoubleAngleBegin
  ifP (ask (fun l => (l.find [.Whitespace, .Word, begin'] [end'] n).map (fun i => decide (i ≠ -1))))
    (do
      skipP t [begin']
      node .RadioTarget do
        angleBody end' n
        skipP t [end'])
    (popAny .Punctuation)

/-- `parseInlineExport` – 1340-1345 -/
def parseInlineExport (t : Texts) : P Unit :=
  node .InlineExport do
    popAs t .RawText [.InlineExportBackend]
    popAs t .RawText [.InlineExportContent]

/-- The closing token of a critic mark – 1351-1358 (other kinds are not passed) -/
def criticEnd : TK → TK
  | .CriticDeleteBegin => .CriticDeleteEnd
  | .CriticAddBegin => .CriticAddEnd
  | .CriticCommentBegin => .CriticCommentEnd
  | .CriticReplaceBegin => .CriticReplaceEnd
  | _ => .CriticHighlightEnd

/-- `parseCriticMarkup` – 1347-1385 -/
def parseCriticMarkup (t : Texts) (par : P Unit) (n : Nat) : P Unit := do
  let k ← kindP
  node .CriticMarkStructure do
    popAny .RawText
    ifP (P.ret (decide (criticEnd k = .CriticReplaceEnd)))
      (do
        let ids ← collect (canSearch [.CriticReplaceMiddle]) n
        idsOrEmpty t ids par
        skipP t [.CriticReplaceMiddle])
      emptyP
    let ids ← collect (canSearch [criticEnd k]) n
    startIds t ids par
    skipP t [criticEnd k]

/-! ## `textFold` – 386-614 -/

/-- `pending().kind` – OrgParser.hpp:125-128 (there must be an open tree) -/
def pendingKind : P NK := fun s =>
  match s.g.pending with
  | [] => .error .tree
  | p :: _ =>
    match s.g.at p with
    | .error _ => .error .tree
    | .ok nd => .ok (some nd.kind, s)

/-- `_begin` – 392-419; `aux` is the recursive call. -/
def foldBegin (aux : P Unit) (k : NK) : P Unit := fun s =>
  let depth := s.g.pending.length
  let start := s.lex.pos
  match aux { lex := s.lex.next, g := (s.g.startTree ⟨k, .ext 0⟩).1 } with
  | .error e => .error e
  | .ok (_, s') =>
    if depth < s'.g.pending.length then
      match s'.g.failTree ⟨.Punctuation, .tok start⟩ with
      | .error _ => .error .tree
      | .ok (g, _) => .ok (some (), { s' with g := g })
    else .ok (some (), s')

/-- `end_impl()` without guard – OrgParserUtils.cpp:104-115 -/
def endTreeP : P Unit := fun s =>
  match s.g.endTree with
  | .error _ => .error .tree
  | .ok (g, _) => .ok (some (), { s with g := g })

/-- `_end` – 421-429 -/
def foldEnd (k : NK) : P Unit :=
  ifP (P.bind pendingKind (fun p => P.ret (decide (p = k))))
    (P.bind endTreeP (fun _ => nextP))
    (popAny .Punctuation)

/-- `_unknown` – 431-438 -/
def foldUnknown (aux : P Unit) (k : NK) : P Unit :=
  ifP (P.bind pendingKind (fun p => P.ret (decide (p = k)))) (foldEnd k) (foldBegin aux k)

/-- The markup a token kind stands for: node kind and role (`some true` opens, `some false`
closes, `none` both) – 442-453. -/
def markup : TK → Option (NK × Option Bool)
  | .BoldBegin => some (.Bold, some true)
  | .BoldEnd => some (.Bold, some false)
  | .BoldUnknown => some (.Bold, none)
  | .ItalicBegin => some (.Italic, some true)
  | .ItalicEnd => some (.Italic, some false)
  | .ItalicUnknown => some (.Italic, none)
  | .UnderlineBegin => some (.Underline, some true)
  | .UnderlineEnd => some (.Underline, some false)
  | .UnderlineUnknown => some (.Underline, none)
  | .StrikeBegin => some (.Strike, some true)
  | .StrikeEnd => some (.Strike, some false)
  | .StrikeUnknown => some (.Strike, none)
  | _ => none

/-- The other cases of `_single` – 455-591 -/
def foldOther (t : Texts) (par text : P Unit) (n : Nat) : TK → P Unit
  | .Whitespace => popAny .Space
  | .CurlyBegin => ifP (atSeqP [.CurlyBegin, .CurlyBegin, .CurlyBegin]) (subP t (parseMacro t n)) (popAny .Punctuation)
  | .AngleEnd => popAny .Punctuation
  | .Escaped => popAny .Escaped
  | .RawText => popAny .RawText
  | .Newline => popAny .Newline
  | .Word => popAny .Word
  | .BigIdent => popAny .BigIdent
  | .Punctuation => popAny .Punctuation
  | .Colon => popAny .Colon
  | .MiscUnicode | .Time | .Date | .SubtreePriority | .Number => popAny .Word
  | .CriticAddBegin | .CriticDeleteBegin | .CriticReplaceBegin | .CriticCommentBegin
  | .CriticHighlightBegin => subP t (parseCriticMarkup t par n)
  | .Placeholder => subP t parsePlaceholder
  | .ActiveDynamicTimeContent | .InactiveDynamicTimeContent => subP t (parseTimeRange t n)
  | .AngleBegin => ifP (atP [.Date] 1) (subP t (parseTimeRange t n)) (subP t parsePlaceholder)
  | .InlineExportBackend => subP t (parseInlineExport t)
  | .TextSrcBegin => subP t (parseSrcInline t n)
  | .HashIdent => subP t (parseHashTag t n)
  | .LinkProtocolHttp | .LinkProtocol | .LinkBegin => subP t (parseLink t par n)
  | .FootnoteInlineBegin | .FootnoteLinked => subP t (parseFootnote t par n)
  | .Symbol => subP t (parseSymbol t text n)
  | .BraceBegin => ifP (atP [.Date] 1) (subP t (parseTimeRange t n)) (popAny .Punctuation)
  | .At => popAs t .AtMention [.At]
  | .VerbatimBegin | .MonospaceBegin => subP t (parseVerbatim n)
  | .DoubleAngleBegin | .TripleAngleBegin => subP t (parseAngleTarget t n)
  | .Comment | .LeadingSpace => nextP
  | .LinkEnd | .LinkDescriptionBegin | .LinkTargetEnd =>
    ifP (ask (fun l => .ok (t.blank l.pos))) nextP (popAny .Punctuation)
  | _ => popAny .Punctuation

/-- `_single` – 440-595 -/
def foldSingle (t : Texts) (par text : P Unit) (n : Nat) (aux : P Unit) : P Unit :=
  P.bind kindP (fun k =>
    match markup k with
    | some (nk, some true) => foldBegin aux nk
    | some (nk, some false) => foldEnd nk
    | some (nk, none) => foldUnknown aux nk
    | none => foldOther t par text n k)

/-- `aux` – 598-611 -/
def foldAux (t : Texts) (par text : P Unit) (n : Nat) : Nat → P Unit
  | 0 => ifP finishedP (P.ret ()) (throwP .diverges)
  | m + 1 => ifP finishedP (P.ret ())
      (P.bind (ignoreP (foldSingle t par text n (foldAux t par text n m))) (fun _ => foldAux t par text n m))

/-- `parseText` – 617-640: the depth must be the same after the fold. -/
def checkedText (fold : P Unit) : P Unit := fun s =>
  match ignoreP fold s with
  | .error e => .error e
  | .ok (r, s') => if s'.g.pending.length = s.g.pending.length then .ok (r, s') else .error .unbalanced

mutual
/-- `parseText` with the nested calls bounded by the fuel. -/
def parseText (t : Texts) : Nat → P Unit
  | 0 => throwP .diverges
  | n + 1 => checkedText (foldAux t (parseParagraph t n) (parseText t n) n n)

/-- `parseParagraph` – 1334-1338 -/
def parseParagraph (t : Texts) : Nat → P Unit
  | 0 => throwP .diverges
  | n + 1 => node .Paragraph (parseText t n)
end

end Verif.Parser

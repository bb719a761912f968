/-!
# Token kinds and tokens shared by the lexer, the tokenizer and the parser model
-/

namespace Verif.Token

/-- `enum class OrgTokenKind` – src/haxorg/sem/SemOrgEnums.hpp:2449, all
227 enumerators. -/
inductive TK where
  | Ampersand | AngleBegin | AngleEnd | AnyPunct | Asterisk | At | Backtick | BigIdent
  | BoldBegin | BoldEnd | BoldUnknown | BraceBegin | BraceEnd | Checkbox | Circumflex
  | CmdAdmonitionEnd | CmdAttr | CmdAuthor | CmdBindRaw | CmdCall | CmdCaption | CmdCategoryRaw
  | CmdCell | CmdCellBegin | CmdCellEnd | CmdCenterBegin | CmdCenterEnd | CmdColonIdent
  | CmdColumns | CmdCommentBegin | CmdCommentEnd | CmdConstants | CmdContentBegin
  | CmdContentEnd | CmdCreator | CmdCustomRaw | CmdDateRaw | CmdDescription | CmdDrawersRaw
  | CmdDynamicBegin | CmdDynamicBlockBegin | CmdDynamicBlockEnd | CmdDynamicEnd | CmdEmailRaw
  | CmdExampleBegin | CmdExampleEnd | CmdExampleLine | CmdExcludeTagsRaw | CmdExportBegin
  | CmdExportEnd | CmdExportLine | CmdFiletags | CmdFlag | CmdHeader | CmdHtmlHeadRaw
  | CmdInclude | CmdLanguage | CmdLatexClass | CmdLatexClassOptions | CmdLatexCompiler
  | CmdLatexHeader | CmdLatexHeaderExtraRaw | CmdLinkRaw | CmdMacroRaw | CmdName | CmdOptions
  | CmdPrefix | CmdPrioritiesRaw | CmdPropertyArgs | CmdPropertyRaw | CmdPropertyText
  | CmdQuoteBegin | CmdQuoteEnd | CmdRawArg | CmdResults | CmdRow | CmdRowBegin | CmdRowEnd
  | CmdSelectTagsRaw | CmdSeqTodoRaw | CmdKeywordsRaw | CmdSetupfileRaw | CmdSrcBegin
  | CmdSrcEnd | CmdStartup | CmdTableBegin | CmdTableEnd | CmdTagsRaw | CmdTblfm | CmdTitle
  | CmdVerseBegin | CmdVerseEnd | Colon | ColonArgumentsProperty | ColonEnd | ColonExampleLine
  | ColonLiteralProperty | ColonLogbook | ColonProperties | ColonPropertyText | Comma | Comment
  | CriticAddBegin | CriticAddEnd | CriticCommentBegin | CriticCommentEnd | CriticDeleteBegin
  | CriticDeleteEnd | CriticHighlightBegin | CriticHighlightEnd | CriticReplaceBegin
  | CriticReplaceEnd | CriticReplaceMiddle | CurlyBegin | CurlyEnd | Date | Dedent | Dollar
  | DoubleAngleBegin | DoubleAngleEnd | DoubleColon | DoubleDash | DoubleHash | DoubleQuote
  | DoubleSlash | ActiveDynamicTimeContent | InactiveDynamicTimeContent | EndOfFile | Equals
  | Escaped | Exclamation | FootnoteInlineBegin | FootnoteLinked | ForwardSlash | HashIdent
  | HashTagBegin | Indent | InlineExportBackend | InlineExportContent | ItalicBegin | ItalicEnd
  | ItalicUnknown | LatexInlineRaw | LatexParBegin | LatexParEnd | LeadingMinus | LeadingNumber
  | LeadingPipe | LeadingPlus | LeadingSpace | LineCommand | LinkBegin | LinkDescriptionBegin
  | LinkDescriptionEnd | LinkEnd | LinkFull | LinkProtocol | LinkProtocolAttachment
  | LinkProtocolCustomId | LinkProtocolFile | LinkProtocolHttp | LinkProtocolId
  | LinkProtocolInternal | LinkProtocolTitle | LinkSplit | LinkTarget | LinkTargetBegin
  | LinkTargetEnd | LinkTargetFile | ListBegin | ListEnd | ListItemBegin | ListItemEnd
  | LongNewline | MediumNewline | Minus | MiscUnicode | MonospaceBegin | MonospaceEnd
  | MonospaceUnknown | Newline | Number | ParBegin | ParEnd | Percent | Pipe | Placeholder
  | Plus | Punctuation | RawText | SameIndent | Semicolon | SingleQuote | SrcContent
  | StmtListBegin | StmtListEnd | StrikeBegin | StrikeEnd | StrikeUnknown | SubtreeCompletion
  | SubtreePriority | SubtreeStars | Symbol | TableSeparator | TextSeparator | TextSrcBegin
  | Tilda | Time | TimeArrow | TimeRepeaterDuration | TimeRepeaterSpec | TimeWarnPeriod
  | TrailingPipe | TreeClock | TreeTime | TripleAngleBegin | TripleAngleEnd | Underline
  | UnderlineBegin | UnderlineEnd | UnderlineUnknown | Unknown | VerbatimBegin | VerbatimEnd
  | VerbatimUnknown | Whitespace | Word
deriving DecidableEq, Repr, Inhabited

/-- `OrgToken` = `Token<OrgTokenKind, OrgFill>` – src/haxorg/lexbase/Token.hpp,
src/haxorg/base_lexer/base_token.hpp:9-17.  A byte of the source text is
represented by the character with that code; `loc` is the byte offset
`loc->pos`, absent for made-up tokens (line, column and file of the location are
not modelled). -/
structure Tok where
  kind : TK
  text : List Char
  loc : Option Nat
deriving DecidableEq, Repr

/-- `OrgFill::isFake` – base_token.hpp:12. -/
def Tok.isFake (t : Tok) : Bool := t.loc.isNone

/-- `OrgToken{kind}`: a token made up by the tokenizer, with default-constructed
value – OrgTokenizer.cpp:230, 988. -/
def Tok.fake (k : TK) : Tok := ⟨k, [], none⟩

end Verif.Token

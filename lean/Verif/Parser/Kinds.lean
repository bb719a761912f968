import Verif.Token.Kind

/-!
# Token and node kinds – src/haxorg/sem/SemOrgEnums.hpp
-/

namespace Verif.Parser

/-- `OrgTokenKind` – SemOrgEnums.hpp:2449 -/
abbrev TK := Verif.Token.TK

/-- `OrgNodeKind` – SemOrgEnums.hpp:2091-2330 -/
inductive NK where
  | None | Document | Empty | InlineStmtList | StmtList | Checkbox | List | Bullet
  | ListItem | ListTag | Counter | File | ColonExample | TextSeparator | Paragraph | TableRow
  | TableCell | Table | InlineFootnote | Footnote | Cmd | Attrs | AttrValue | AttrLisp
  | CmdTitle | CmdAuthor | CmdCreator | CmdInclude | CmdLanguage | CmdEmail | CmdAttr | CmdStartup
  | CmdName | CmdCustomTextCommand | CmdCustomArgsCommand | CmdCustomRawCommand | CmdResults | CmdHeader | CmdOptions | CmdTblfm
  | CmdCaption | CmdResult | CmdCallCode | CmdFlag | CmdLatexClass | CmdLatexHeader | CmdLatexCompiler | CmdLatexClassOptions
  | CmdHtmlHead | CmdColumns | CmdPropertyArgs | CmdPropertyText | CmdPropertyRaw | CmdFiletags | CmdKeywords | BlockVerbatimMultiline
  | CodeLine | CodeText | CodeTangle | CodeCallout | BlockCode | BlockQuote | BlockComment | BlockCenter
  | BlockVerse | BlockExample | BlockExport | BlockDetails | BlockSummary | BlockDynamicFallback | BigIdent | Bold
  | ErrorInfoToken | ErrorSkipGroup | ErrorSkipToken | Italic | Verbatim | Backtick | Underline | Strike
  | Quote | Angle | Monospace | Par | CriticMarkStructure | InlineMath | DisplayMath | Space
  | Punctuation | Colon | Word | Escaped | Newline | RawLink | Link | Macro
  | Symbol | StaticActiveTime | StaticInactiveTime | DynamicActiveTime | DynamicInactiveTime | TimeRange | SimpleTime | HashTag
  | MetaSymbol | AtMention | Placeholder | RadioTarget | Target | SrcInlineCode | InlineCallCode | InlineExport
  | InlineComment | RawText | SubtreeDescription | SubtreeUrgency | DrawerLogbook | Drawer | DrawerPropertyList | DrawerProperty
  | Subtree | SubtreeTimes | SubtreeStars | SubtreeCompletion | SubtreeImportance
deriving DecidableEq, Repr

end Verif.Parser

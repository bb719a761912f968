/-!
# Tables of the protobuf conversion

The declared members of the semantic types (`sem/SemOrgTypes.hpp`, `sem/SemOrgSharedTypes.hpp`), and the
statements of the 200 generated pairs of functions `write` and `read` (`serde/SemOrgSerdeDefinitions.cpp`), one
row per function with its line, in the order of the file.  The members are taken from the headers, the
statements of `write` and of `read` from the respective functions, so that a difference between the three would
be seen here.  The rows of `Org`, `Stmt`, `Leaf`, `Cmd` and `Block` are the templates of `SemOrgSerde.hpp:432-490` and
`SemOrgSerde.cpp:74-92`, those of `SourceLoc`, `UserTime` and `OrgJson` `SemOrgSerde.hpp:408-430, 559-579` and
`SemOrgSerde.cpp:10-21`.
Simplifications: numbers, booleans, enumerators and floating point numbers are all `num` (the conversions between
them are casts that keep the value); a time is the number of seconds (cctz converts it to UTC seconds and back), a
zone its name, a JSON value its text.
-/

namespace Verif.Proto

/-- The message types and the classes they are made from. -/
inductive Ty where
  | Org | Stmt | Inline | Cmd | Block | LineCommand | Attached | Leaf | Markup | SourceFileId
  | SourceLoc | UserTime | OrgJson | LispCode_Call | LispCode_List | LispCode_KeyValue
  | LispCode_Number | LispCode_Text | LispCode_Ident | LispCode_Boolean | LispCode_Real
  | LispCode | Tblfm_Expr_AxisRef_Position_Index | Tblfm_Expr_AxisRef_Position_Name
  | Tblfm_Expr_AxisRef_Position | Tblfm_Expr_AxisRef | Tblfm_Expr_AxisName
  | Tblfm_Expr_IntLiteral | Tblfm_Expr_FloatLiteral | Tblfm_Expr_RangeRef | Tblfm_Expr_Call
  | Tblfm_Expr_Elisp | Tblfm_Expr | Tblfm_Assign | Tblfm | AttrValue_DimensionSpan
  | AttrValue_TextValue | AttrValue_FileReference | AttrValue_LispValue | AttrValue | HashTagFlat
  | TodoKeyword | HashTagText | SubtreePath | LinkTarget_Raw | LinkTarget_Id
  | LinkTarget_CustomId | LinkTarget_SubtreeTitle | LinkTarget_Person | LinkTarget_UserProtocol
  | LinkTarget_Internal | LinkTarget_Footnote | LinkTarget_File | LinkTarget_Attachment
  | LinkTarget | SubtreeLogHead_Priority | SubtreeLogHead_Note | SubtreeLogHead_Refile
  | SubtreeLogHead_Clock | SubtreeLogHead_State | SubtreeLogHead_Deadline
  | SubtreeLogHead_Schedule | SubtreeLogHead_Tag | SubtreeLogHead_Unknown | SubtreeLogHead
  | SubtreeCompletion | AttrList | AttrGroup | OrgCodeEvalInput_Var | OrgCodeEvalInput
  | OrgCodeEvalOutput | ColumnView_Summary_CheckboxAggregate | ColumnView_Summary_MathAggregate
  | ColumnView_Summary | ColumnView_Column | ColumnView | BlockCodeLine_Part_Raw
  | BlockCodeLine_Part_Callout | BlockCodeLine_Part_Tangle | BlockCodeLine_Part | BlockCodeLine
  | DocumentExportConfig_TaskExport | DocumentExportConfig_DoExport
  | DocumentExportConfig_ExportFixed | DocumentExportConfig | SubtreePeriod
  | NamedProperty_Nonblocking | NamedProperty_ArchiveTime | NamedProperty_ArchiveFile
  | NamedProperty_ArchiveOlpath | NamedProperty_ArchiveTarget | NamedProperty_ArchiveCategory
  | NamedProperty_ArchiveTodo | NamedProperty_Trigger | NamedProperty_ExportLatexClass
  | NamedProperty_CookieData | NamedProperty_ExportLatexClassOptions
  | NamedProperty_ExportLatexHeader | NamedProperty_ExportLatexCompiler | NamedProperty_Ordered
  | NamedProperty_Effort | NamedProperty_Visibility | NamedProperty_ExportOptions
  | NamedProperty_Blocker | NamedProperty_Unnumbered | NamedProperty_Created
  | NamedProperty_RadioId | NamedProperty_HashtagDef | NamedProperty_CustomArgs
  | NamedProperty_CustomRaw | NamedProperty_CustomId | NamedProperty_CustomSubtreeJson
  | NamedProperty_CustomSubtreeFlags | NamedProperty | OrgDiagnostics_ParseTokenError
  | OrgDiagnostics_ParseError | OrgDiagnostics_IncludeError | OrgDiagnostics_ConvertError
  | OrgDiagnostics_InternalError | OrgDiagnostics | NoNode | ErrorItem | ErrorGroup | StmtList
  | Empty | CmdCaption | CmdCreator | CmdAuthor | CmdEmail | CmdLanguage | CmdColumns | CmdName
  | CmdCustomArgs | CmdCustomRaw | CmdCustomText | CmdCall | CmdTblfm | HashTag | InlineFootnote
  | InlineExport | Time_Repeat | Time_Static | Time_Dynamic | Time | TimeRange | Macro
  | Symbol_Param | Symbol | Escaped | Newline | Space | Word | AtMention | RawText | Punctuation
  | Placeholder | BigIdent | TextTarget | ErrorSkipToken | ErrorSkipGroup | Bold | Underline
  | Monospace | MarkQuote | Verbatim | Italic | Strike | Par | RadioTarget | Latex | Link
  | BlockCenter | BlockQuote | BlockComment | BlockVerse | BlockDynamicFallback | BlockExample
  | BlockExport | BlockAdmonition | BlockCodeEvalResult | BlockCode | SubtreeLog | Subtree | Cell
  | Row | Table | Paragraph | ColonExample | CmdAttr | CmdExport | Call | List | ListItem
  | DocumentOptions | DocumentFragment | CriticMarkup | Document | FileTarget | TextSeparator
  | DocumentGroup | File_Document | File_Attachment | File_Source | File | Directory | Symlink
  | CmdInclude_IncludeBase | CmdInclude_Example | CmdInclude_Export | CmdInclude_Custom
  | CmdInclude_Src | CmdInclude_OrgDocument | CmdInclude
deriving DecidableEq, Repr

/-- The names of the members of the classes. -/
inductive Fld where
  | absPath | action | added | align | appliedHeaderArg | archivedTrees | argList | args
  | attached | attrs | author | backend | baseCol | baseLine | blockAttrs | blockName | blockers
  | brief | brokenLinks | bullet | callAttrs | category | cells | checkbox | clock | closed | cmd
  | code | col | column | columns | compiler | completion | content | convertFile
  | convertFunction | convertLine | count | creator | customIdTarget | cwd | data | date
  | deadline | definition | desc | description | detail | diag | diagnostics | done
  | doneKeywords | drawers | email | emphasis | endHeaderAttrs | entities | errCode | errName
  | expandLinks | exportConfig | exportFileName | exportLevels | exportToc | exportType
  | exporter | expr | exprs | file | fileName | file_id | filetags | first | firstLine
  | fixedWidth | fixedWidthSections | flags | footnotes | formatDigits | formatPrecision | from_
  | full | function | hashtag | head | header | headlineLevels | hours | id | index
  | initialVisibility | inlinetasks | insideHeaderAttrs | isActive | isArchived | isAttached
  | isBlock | isBlocking | isCommand | isComment | isDirectory | isOrdered | isPercent | isQuoted
  | isRecursive | items | key | kind | lang | language | last | lastLine | latex | latexClass
  | level | line | lines | loc | log | logbook | maxSubtreeLevelExport | message | minLevel
  | minutes | mode | name | named | newPriority | node | oldPriority | on | onEnter | onLeave
  | onlyContent | options | parameters | parserFunction | parserLine | parts | path | pattern
  | period | planning | pos | positional | preserveBreaks | priority | properties | property
  | propertyDrawers | propertyTitle | protocol | raw | reference | regexp | relPath | repeat
  | restrictToHeadlines | result | resultFormat | resultHandling | resultType | row | rows
  | scheduled | searchTarget | sectionNumbers | setupfile | shortcut | skipped | smartQuotes
  | source | span | specialStrings | startupIndented | statisticsCookies | stderrText
  | stdoutText | sub | subSuperscripts | subnodes | subtags | subtreePath | summary | switches
  | tables | tag | tagExport | tags | tangledCode | target | targetId | targetPath
  | taskFiltering | taskWhitelist | text | time | timestamp | timestamps | title | to_
  | tocExport | todo | todoKeywords | todoText | tokenKind | tokenText | treeId | value | values
  | varname | view | warn | width | words | workingFile | zone
deriving DecidableEq, Repr

/-- The names of the fields of the messages (an underscore is added where the name is a Lean keyword). -/
inductive PF where
  | abspath | action | added | align | appliedheaderarg | archivecategory | archivedtrees
  | archivefile | archiveolpath | archivetarget | archivetime | archivetodo | arglist | args
  | atmention | attached | attachment | attrs | author | axisname | axisref | backend | basecol
  | baseline | bigident | blockadmonition | blockattrs | blockcenter | blockcode
  | blockcodeevalresult | blockcomment | blockdynamicfallback | blocker | blockers | blockexample
  | blockexport | blockname | blockquote | blockverse | bold | boolean | brief | brokenlinks
  | bullet | call | callattrs | callout | category | cell | cells | checkbox | checkboxaggregate
  | clock | closed | cmd | cmdattr | cmdauthor | cmdcall | cmdcaption | cmdcolumns | cmdcreator
  | cmdcustomargs | cmdcustomraw | cmdcustomtext | cmdemail | cmdexport | cmdinclude
  | cmdlanguage | cmdname | cmdtblfm | code | col | colonexample | column | columns | compiler
  | completion | content | converterror | convertfile | convertfunction | convertline
  | cookiedata | count | created | creator | criticmarkup | custom | customargs | customid
  | customidtarget | customraw | customsubtreeflags | customsubtreejson | cwd | data | date
  | deadline | definition | desc | description | detail | diag | diagnostics | directory
  | document | documentfragment | documentgroup | documentoptions | doexport | done
  | donekeywords | drawers | dynamic | effort | elisp | email | emphasis | empty | endheaderattrs
  | entities | errcode | errname | errorgroup | erroritem | errorskipgroup | errorskiptoken
  | escaped | example_ | expandlinks | export_ | exportconfig | exporter | exportfilename
  | exportfixed | exportlatexclass | exportlatexclassoptions | exportlatexcompiler
  | exportlatexheader | exportlevels | exportoptions | exporttoc | exporttype | expr | exprs
  | file | filename | filereference | filetags | filetarget | first | firstline | fixedwidth
  | fixedwidthsections | flags | floatliteral | footnote | footnotes | formatdigits
  | formatprecision | from_ | full | function | hashtag | hashtagdef | head | header
  | headlinelevels | hours | id | ident | includeerror | index | initialvisibility | inlineexport
  | inlinefootnote | inlinetasks | insideheaderattrs | internal | internalerror | intliteral
  | isactive | isarchived | isattached | isblock | isblocking | iscommand | iscomment
  | isdirectory | isordered | ispercent | isquoted | isrecursive | italic | items | key
  | keyvalue | kind | lang | language | last | lastline | latex | latexclass | level | line
  | lines | link | lispvalue | list | listitem | loc | log | logbook | macro_ | markquote
  | mathaggregate | maxsubtreelevelexport | message | minlevel | minutes | mode | monospace
  | name | named | newline | newpriority | node | nonblocking | nonode | note | number
  | oldpriority | on | onenter | onleave | onlycontent | options | ordered | orgdocument | par
  | paragraph | parameters | parseerror | parserfunction | parserline | parsetokenerror | parts
  | path | pattern | period | person | placeholder | planning | pos | positional | preservebreaks
  | priority | properties | property | propertydrawers | propertytitle | protocol | punctuation
  | radioid | radiotarget | rangeref | raw | rawtext | real | reference | refile | regexp
  | relpath | repeat | restricttoheadlines | result | resultformat | resulthandling | resulttype
  | row | rows | schedule | scheduled | searchtarget | sectionnumbers | setupfile | shortcut
  | skipped | smartquotes | source | space | span | specialstrings | src | startupindented
  | state | static | statickind | statisticscookies | stderrtext | stdouttext | stmtlist | strike
  | sub | subnodes | subsuperscripts | subtags | subtree | subtreelog | subtreepath
  | subtreetitle | summary | switches | symbol | symlink | table | tables | tag | tagexport
  | tags | tangle | tangledcode | target | targetid | targetpath | taskfiltering | taskwhitelist
  | text | textseparator | texttarget | textvalue | time | timerange | timestamp | timestamps
  | title | to_ | tocexport | todo | todokeywords | todotext | tokenkind | tokentext | treeid
  | trigger | underline | unknown | unnumbered | userprotocol | value | values | varname
  | verbatim | view | visibility | warn | width | word | words | workingfile | zone
deriving DecidableEq, Repr

/-- How one value is converted: a number, a string, a message of its own, a node of a known kind, a node of any
kind (`AnyNode`) – the instances of `proto_serde`, SemOrgSerde.hpp:135-560 -/
inductive Codec where
  | num | str | msg (t : Ty) | node (t : Ty) | any
deriving DecidableEq, Repr

/-- The declared type of a member: a value, an optional value, a vector, a map from strings, a variant, or a
pointer to a node that may be nil. -/
inductive FTy where
  | one (c : Codec) | opt (c : Codec) | rep (c : Codec) | map (c : Codec) | alts (l : List Codec) | ref (c : Codec)
deriving DecidableEq, Repr

/-- One statement of a generated function: the member, the field of the message, and the conversion.  `ref` is
guarded by `isNil()` when writing, `oneIf` by `has_x()` when reading, `base` calls the function of a base class with
the same message, and `kind` sets the kind of the node, which is never read. -/
inductive Stmt where
  | one (f : Fld) (p : PF) (c : Codec)
  | oneIf (f : Fld) (p : PF) (c : Codec)
  | opt (f : Fld) (p : PF) (c : Codec)
  | rep (f : Fld) (p : PF) (c : Codec)
  | map (f : Fld) (p : PF) (c : Codec)
  | alts (f : Fld) (p : PF) (l : List (PF × Codec))
  | ref (f : Fld) (p : PF) (c : Codec)
  | base (t : Ty)
  | kind (p : PF)
deriving DecidableEq, Repr

/-- The base classes – `sem/SemOrgTypes.hpp`, `sem/SemOrgSharedTypes.hpp` -/
def bases : Ty → List Ty
  | .Stmt => [.Org]
  | .Inline => [.Org]
  | .Cmd => [.Stmt]
  | .Block => [.Cmd]
  | .LineCommand => [.Cmd]
  | .Attached => [.LineCommand]
  | .Leaf => [.Org]
  | .Markup => [.Org]
  | .NoNode => [.Org]
  | .ErrorItem => [.Org]
  | .ErrorGroup => [.Org]
  | .StmtList => [.Org]
  | .Empty => [.Org]
  | .CmdCaption => [.Attached]
  | .CmdCreator => [.Cmd]
  | .CmdAuthor => [.Cmd]
  | .CmdEmail => [.Cmd]
  | .CmdLanguage => [.Cmd]
  | .CmdColumns => [.Attached]
  | .CmdName => [.Attached]
  | .CmdCustomArgs => [.Cmd]
  | .CmdCustomRaw => [.Stmt]
  | .CmdCustomText => [.Stmt]
  | .CmdCall => [.Attached]
  | .CmdTblfm => [.Cmd]
  | .HashTag => [.Inline]
  | .InlineFootnote => [.Inline]
  | .InlineExport => [.Inline]
  | .Time => [.Org]
  | .TimeRange => [.Org]
  | .Macro => [.Org]
  | .Symbol => [.Org]
  | .Escaped => [.Leaf]
  | .Newline => [.Leaf]
  | .Space => [.Leaf]
  | .Word => [.Leaf]
  | .AtMention => [.Leaf]
  | .RawText => [.Leaf]
  | .Punctuation => [.Leaf]
  | .Placeholder => [.Leaf]
  | .BigIdent => [.Leaf]
  | .TextTarget => [.Leaf]
  | .ErrorSkipToken => [.Leaf]
  | .ErrorSkipGroup => [.Org]
  | .Bold => [.Markup]
  | .Underline => [.Markup]
  | .Monospace => [.Markup]
  | .MarkQuote => [.Markup]
  | .Verbatim => [.Markup]
  | .Italic => [.Markup]
  | .Strike => [.Markup]
  | .Par => [.Markup]
  | .RadioTarget => [.Org]
  | .Latex => [.Org]
  | .Link => [.Stmt]
  | .BlockCenter => [.Block]
  | .BlockQuote => [.Block]
  | .BlockComment => [.Stmt]
  | .BlockVerse => [.Block]
  | .BlockDynamicFallback => [.Block]
  | .BlockExample => [.Block]
  | .BlockExport => [.Block]
  | .BlockAdmonition => [.Block]
  | .BlockCodeEvalResult => [.Block]
  | .BlockCode => [.Block]
  | .SubtreeLog => [.Org]
  | .Subtree => [.Org]
  | .Cell => [.Cmd]
  | .Row => [.Cmd]
  | .Table => [.Block]
  | .Paragraph => [.Stmt]
  | .ColonExample => [.Org]
  | .CmdAttr => [.Attached]
  | .CmdExport => [.Attached]
  | .Call => [.Org]
  | .List => [.Stmt]
  | .ListItem => [.Org]
  | .DocumentOptions => [.Org]
  | .DocumentFragment => [.Org]
  | .CriticMarkup => [.Org]
  | .Document => [.Org]
  | .FileTarget => [.Org]
  | .TextSeparator => [.Org]
  | .DocumentGroup => [.Org]
  | .File => [.Org]
  | .Directory => [.Org]
  | .Symlink => [.Org]
  | .CmdInclude_Example => [.CmdInclude_IncludeBase]
  | .CmdInclude_Export => [.CmdInclude_IncludeBase]
  | .CmdInclude_Custom => [.CmdInclude_IncludeBase]
  | .CmdInclude_Src => [.CmdInclude_IncludeBase]
  | .CmdInclude_OrgDocument => [.CmdInclude_IncludeBase]
  | .CmdInclude => [.Org]
  | _ => []

/-- The members of each class without those of its bases – `sem/SemOrgTypes.hpp`, `sem/SemOrgSharedTypes.hpp`, `sem/SemOrgBase.hpp` -/
def members : Ty → List (Fld × FTy)
  | .Org => [(.subnodes, .rep .any), (.loc, .opt (.msg .SourceLoc))]
  | .Stmt => [(.attached, .rep .any)]
  | .Cmd => [(.attrs, .one (.msg .AttrGroup))]
  | .Leaf => [(.text, .one .str)]
  | .SourceFileId => [(.id, .one .num)]
  | .SourceLoc => [(.line, .one .num), (.column, .one .num), (.pos, .one .num), (.file_id, .one (.msg .SourceFileId))]
  | .UserTime => [(.time, .one .num), (.zone, .opt .str), (.align, .one .num)]
  | .OrgJson => [(.raw, .one .str)]
  | .LispCode_Call => [(.name, .one .str), (.args, .rep (.msg .LispCode))]
  | .LispCode_List => [(.items, .rep (.msg .LispCode))]
  | .LispCode_KeyValue => [(.name, .one .str), (.value, .rep (.msg .LispCode))]
  | .LispCode_Number => [(.value, .one .num)]
  | .LispCode_Text => [(.value, .one .str)]
  | .LispCode_Ident => [(.name, .one .str)]
  | .LispCode_Boolean => [(.value, .one .num)]
  | .LispCode_Real => [(.value, .one .num)]
  | .LispCode => [
      (.data, .alts [(.msg .LispCode_Call), (.msg .LispCode_List), (.msg .LispCode_KeyValue), (.msg .LispCode_Number), (.msg .LispCode_Text), (.msg .LispCode_Ident), (.msg .LispCode_Boolean), (.msg .LispCode_Real)])]
  | .Tblfm_Expr_AxisRef_Position_Index => [(.index, .one .num)]
  | .Tblfm_Expr_AxisRef_Position_Name => [(.name, .one .str)]
  | .Tblfm_Expr_AxisRef_Position => [
      (.data, .alts [(.msg .Tblfm_Expr_AxisRef_Position_Index), (.msg .Tblfm_Expr_AxisRef_Position_Name)])]
  | .Tblfm_Expr_AxisRef => [
      (.col, .one (.msg .Tblfm_Expr_AxisRef_Position)), (.row, .opt (.msg .Tblfm_Expr_AxisRef_Position))]
  | .Tblfm_Expr_AxisName => [(.name, .one .str)]
  | .Tblfm_Expr_IntLiteral => [(.value, .one .num)]
  | .Tblfm_Expr_FloatLiteral => [(.value, .one .num)]
  | .Tblfm_Expr_RangeRef => [(.first, .opt (.msg .Tblfm_Expr_AxisRef)), (.last, .opt (.msg .Tblfm_Expr_AxisRef))]
  | .Tblfm_Expr_Call => [(.name, .one .str), (.args, .rep (.msg .Tblfm_Expr))]
  | .Tblfm_Expr_Elisp => [(.value, .one .str)]
  | .Tblfm_Expr => [
      (.data, .alts [(.msg .Tblfm_Expr_AxisRef), (.msg .Tblfm_Expr_AxisName), (.msg .Tblfm_Expr_IntLiteral), (.msg .Tblfm_Expr_FloatLiteral), (.msg .Tblfm_Expr_RangeRef), (.msg .Tblfm_Expr_Call), (.msg .Tblfm_Expr_Elisp)])]
  | .Tblfm_Assign => [
      (.target, .one (.msg .Tblfm_Expr_AxisRef)), (.expr, .rep (.msg .Tblfm_Expr)), (.flags, .rep .num)]
  | .Tblfm => [(.exprs, .rep (.msg .Tblfm_Assign))]
  | .AttrValue_DimensionSpan => [(.first, .one .num), (.last, .opt .num)]
  | .AttrValue_TextValue => [(.value, .one .str)]
  | .AttrValue_FileReference => [(.file, .one .str), (.reference, .one .str)]
  | .AttrValue_LispValue => [(.code, .one (.msg .LispCode))]
  | .AttrValue => [
      (.name, .opt .str), (.varname, .opt .str), (.span, .rep (.msg .AttrValue_DimensionSpan)),
      (.isQuoted, .one .num),
      (.data, .alts [(.msg .AttrValue_TextValue), (.msg .AttrValue_FileReference), (.msg .AttrValue_LispValue)])]
  | .HashTagFlat => [(.tags, .rep .str)]
  | .TodoKeyword => [(.name, .one .str), (.shortcut, .opt .str), (.onEnter, .one .num), (.onLeave, .one .num)]
  | .HashTagText => [(.head, .one .str), (.subtags, .rep (.msg .HashTagText))]
  | .SubtreePath => [(.path, .rep .str)]
  | .LinkTarget_Raw => [(.text, .one .str)]
  | .LinkTarget_Id => [(.text, .one .str)]
  | .LinkTarget_CustomId => [(.text, .one .str)]
  | .LinkTarget_SubtreeTitle => [(.title, .one (.msg .SubtreePath)), (.level, .one .num)]
  | .LinkTarget_Person => [(.name, .one .str)]
  | .LinkTarget_UserProtocol => [(.protocol, .one .str), (.target, .one .str)]
  | .LinkTarget_Internal => [(.target, .one .str)]
  | .LinkTarget_Footnote => [(.target, .one .str)]
  | .LinkTarget_File => [(.file, .one .str)]
  | .LinkTarget_Attachment => [(.file, .one .str)]
  | .LinkTarget => [
      (.data, .alts [(.msg .LinkTarget_Raw), (.msg .LinkTarget_Id), (.msg .LinkTarget_CustomId), (.msg .LinkTarget_SubtreeTitle), (.msg .LinkTarget_Person), (.msg .LinkTarget_UserProtocol), (.msg .LinkTarget_Internal), (.msg .LinkTarget_Footnote), (.msg .LinkTarget_File), (.msg .LinkTarget_Attachment)])]
  | .SubtreeLogHead_Priority => [
      (.oldPriority, .opt .str), (.newPriority, .opt .str), (.on, .one (.msg .UserTime)), (.action, .one .num)]
  | .SubtreeLogHead_Note => [(.on, .one (.msg .UserTime))]
  | .SubtreeLogHead_Refile => [(.on, .one (.msg .UserTime)), (.from_, .one (.msg .LinkTarget))]
  | .SubtreeLogHead_Clock => [(.from_, .one (.msg .UserTime)), (.to_, .opt (.msg .UserTime))]
  | .SubtreeLogHead_State => [(.from_, .one .str), (.to_, .one .str), (.on, .one (.msg .UserTime))]
  | .SubtreeLogHead_Deadline => [
      (.from_, .opt (.msg .UserTime)), (.to_, .one (.msg .UserTime)), (.on, .one (.msg .UserTime))]
  | .SubtreeLogHead_Schedule => [
      (.from_, .opt (.msg .UserTime)), (.to_, .one (.msg .UserTime)), (.on, .one (.msg .UserTime))]
  | .SubtreeLogHead_Tag => [(.on, .one (.msg .UserTime)), (.tag, .one (.msg .HashTagText)), (.added, .one .num)]
  | .SubtreeLogHead => [
      (.log, .alts [(.msg .SubtreeLogHead_Priority), (.msg .SubtreeLogHead_Note), (.msg .SubtreeLogHead_Refile), (.msg .SubtreeLogHead_Clock), (.msg .SubtreeLogHead_State), (.msg .SubtreeLogHead_Deadline), (.msg .SubtreeLogHead_Schedule), (.msg .SubtreeLogHead_Tag), (.msg .SubtreeLogHead_Unknown)])]
  | .SubtreeCompletion => [(.done, .one .num), (.full, .one .num), (.isPercent, .one .num)]
  | .AttrList => [(.items, .rep (.msg .AttrValue))]
  | .AttrGroup => [(.positional, .one (.msg .AttrList)), (.named, .map (.msg .AttrList))]
  | .OrgCodeEvalInput_Var => [(.name, .one .str), (.value, .one (.msg .OrgJson))]
  | .OrgCodeEvalInput => [
      (.blockAttrs, .one (.msg .AttrGroup)), (.tangledCode, .one .str), (.exportType, .opt .str),
      (.resultType, .one .num), (.resultFormat, .one .num), (.resultHandling, .one .num), (.language, .one .str),
      (.argList, .rep (.msg .OrgCodeEvalInput_Var))]
  | .OrgCodeEvalOutput => [
      (.stdoutText, .one .str), (.stderrText, .one .str), (.code, .one .num), (.cmd, .opt .str), (.args, .rep .str),
      (.cwd, .one .str), (.appliedHeaderArg, .one (.msg .AttrGroup))]
  | .ColumnView_Summary_CheckboxAggregate => [(.kind, .one .num)]
  | .ColumnView_Summary_MathAggregate => [
      (.kind, .one .num), (.formatDigits, .opt .num), (.formatPrecision, .opt .num)]
  | .ColumnView_Summary => [
      (.data, .alts [(.msg .ColumnView_Summary_CheckboxAggregate), (.msg .ColumnView_Summary_MathAggregate)])]
  | .ColumnView_Column => [
      (.summary, .opt (.msg .ColumnView_Summary)), (.width, .opt .num), (.property, .opt .str),
      (.propertyTitle, .opt .str)]
  | .ColumnView => [(.columns, .rep (.msg .ColumnView_Column))]
  | .BlockCodeLine_Part_Raw => [(.code, .one .str)]
  | .BlockCodeLine_Part_Callout => [(.name, .one .str)]
  | .BlockCodeLine_Part_Tangle => [(.target, .one .str)]
  | .BlockCodeLine_Part => [
      (.data, .alts [(.msg .BlockCodeLine_Part_Raw), (.msg .BlockCodeLine_Part_Callout), (.msg .BlockCodeLine_Part_Tangle)])]
  | .BlockCodeLine => [(.parts, .rep (.msg .BlockCodeLine_Part))]
  | .DocumentExportConfig_TaskExport => [(.taskWhitelist, .rep .str)]
  | .DocumentExportConfig_DoExport => [(.exportToc, .one .num)]
  | .DocumentExportConfig_ExportFixed => [(.exportLevels, .one .num)]
  | .DocumentExportConfig => [
      (.inlinetasks, .opt .num), (.footnotes, .opt .num), (.clock, .opt .num), (.author, .opt .num),
      (.emphasis, .opt .num), (.specialStrings, .opt .num), (.propertyDrawers, .opt .num),
      (.statisticsCookies, .opt .num), (.todoText, .opt .num), (.smartQuotes, .opt .num), (.fixedWidth, .opt .num),
      (.timestamps, .opt .num), (.preserveBreaks, .opt .num), (.subSuperscripts, .opt .num),
      (.expandLinks, .opt .num), (.creator, .opt .num), (.drawers, .opt .num), (.date, .opt .num),
      (.entities, .opt .num), (.email, .opt .num), (.sectionNumbers, .opt .num), (.planning, .opt .num),
      (.priority, .opt .num), (.latex, .opt .num), (.timestamp, .opt .num), (.title, .opt .num),
      (.tables, .opt .num), (.headlineLevels, .opt .num), (.brokenLinks, .one .num), (.tagExport, .one .num),
      (.taskFiltering, .one .num), (.archivedTrees, .one .num),
      (.tocExport, .alts [(.msg .DocumentExportConfig_DoExport), (.msg .DocumentExportConfig_ExportFixed)])]
  | .SubtreePeriod => [(.kind, .one .num), (.from_, .one (.msg .UserTime)), (.to_, .opt (.msg .UserTime))]
  | .NamedProperty_Nonblocking => [(.isBlocking, .one .num)]
  | .NamedProperty_ArchiveTime => [(.time, .one (.msg .UserTime))]
  | .NamedProperty_ArchiveFile => [(.file, .one .str)]
  | .NamedProperty_ArchiveOlpath => [(.path, .one (.msg .SubtreePath))]
  | .NamedProperty_ArchiveTarget => [(.path, .one (.msg .SubtreePath)), (.pattern, .one .str)]
  | .NamedProperty_ArchiveCategory => [(.category, .one .str)]
  | .NamedProperty_ArchiveTodo => [(.todo, .one .str)]
  | .NamedProperty_ExportLatexClass => [(.latexClass, .one .str)]
  | .NamedProperty_CookieData => [(.isRecursive, .one .num), (.source, .one .num)]
  | .NamedProperty_ExportLatexClassOptions => [(.options, .rep .str)]
  | .NamedProperty_ExportLatexHeader => [(.header, .one .str)]
  | .NamedProperty_ExportLatexCompiler => [(.compiler, .one .str)]
  | .NamedProperty_Ordered => [(.isOrdered, .one .num)]
  | .NamedProperty_Effort => [(.hours, .one .num), (.minutes, .one .num)]
  | .NamedProperty_Visibility => [(.level, .one .num)]
  | .NamedProperty_ExportOptions => [(.backend, .one .str), (.values, .map .str)]
  | .NamedProperty_Blocker => [(.blockers, .rep .str)]
  | .NamedProperty_Created => [(.time, .one (.msg .UserTime))]
  | .NamedProperty_RadioId => [(.words, .rep .str)]
  | .NamedProperty_HashtagDef => [(.hashtag, .one (.msg .HashTagText))]
  | .NamedProperty_CustomArgs => [(.name, .one .str), (.sub, .opt .str), (.attrs, .one (.msg .AttrGroup))]
  | .NamedProperty_CustomRaw => [(.name, .one .str), (.value, .one .str)]
  | .NamedProperty_CustomId => [(.value, .one .str)]
  | .NamedProperty_CustomSubtreeJson => [(.name, .one .str), (.value, .one (.msg .OrgJson))]
  | .NamedProperty_CustomSubtreeFlags => [(.name, .one .str), (.value, .one (.msg .AttrGroup))]
  | .NamedProperty => [
      (.data, .alts [(.msg .NamedProperty_Nonblocking), (.msg .NamedProperty_ArchiveTime), (.msg .NamedProperty_ArchiveFile), (.msg .NamedProperty_ArchiveOlpath), (.msg .NamedProperty_ArchiveTarget), (.msg .NamedProperty_ArchiveCategory), (.msg .NamedProperty_ArchiveTodo), (.msg .NamedProperty_Trigger), (.msg .NamedProperty_ExportLatexClass), (.msg .NamedProperty_CookieData), (.msg .NamedProperty_ExportLatexClassOptions), (.msg .NamedProperty_ExportLatexHeader), (.msg .NamedProperty_ExportLatexCompiler), (.msg .NamedProperty_Ordered), (.msg .NamedProperty_Effort), (.msg .NamedProperty_Visibility), (.msg .NamedProperty_ExportOptions), (.msg .NamedProperty_Blocker), (.msg .NamedProperty_Unnumbered), (.msg .NamedProperty_Created), (.msg .NamedProperty_RadioId), (.msg .NamedProperty_HashtagDef), (.msg .NamedProperty_CustomArgs), (.msg .NamedProperty_CustomRaw), (.msg .NamedProperty_CustomId), (.msg .NamedProperty_CustomSubtreeJson), (.msg .NamedProperty_CustomSubtreeFlags)])]
  | .OrgDiagnostics_ParseTokenError => [
      (.brief, .one .str), (.detail, .one .str), (.parserFunction, .one .str), (.parserLine, .one .num),
      (.tokenKind, .one .num), (.tokenText, .one .str), (.loc, .one (.msg .SourceLoc)), (.errName, .one .str),
      (.errCode, .one .str)]
  | .OrgDiagnostics_ParseError => [
      (.brief, .one .str), (.detail, .one .str), (.parserFunction, .one .str), (.parserLine, .one .num),
      (.errName, .one .str), (.errCode, .one .str), (.loc, .opt (.msg .SourceLoc))]
  | .OrgDiagnostics_IncludeError => [(.brief, .one .str), (.targetPath, .one .str), (.workingFile, .one .str)]
  | .OrgDiagnostics_ConvertError => [
      (.brief, .one .str), (.detail, .one .str), (.convertFunction, .one .str), (.convertLine, .one .num),
      (.convertFile, .one .str), (.errName, .one .str), (.errCode, .one .str), (.loc, .opt (.msg .SourceLoc))]
  | .OrgDiagnostics_InternalError => [
      (.message, .one .str), (.function, .one .str), (.line, .one .num), (.file, .one .str),
      (.loc, .opt (.msg .SourceLoc))]
  | .OrgDiagnostics => [
      (.data, .alts [(.msg .OrgDiagnostics_ParseTokenError), (.msg .OrgDiagnostics_ParseError), (.msg .OrgDiagnostics_IncludeError), (.msg .OrgDiagnostics_ConvertError), (.msg .OrgDiagnostics_InternalError)])]
  | .ErrorItem => [(.diag, .one (.msg .OrgDiagnostics))]
  | .ErrorGroup => [(.diagnostics, .rep (.node .ErrorItem))]
  | .CmdCaption => [(.text, .ref (.node .Paragraph))]
  | .CmdCreator => [(.text, .ref (.node .Paragraph))]
  | .CmdAuthor => [(.text, .ref (.node .Paragraph))]
  | .CmdEmail => [(.text, .one .str)]
  | .CmdLanguage => [(.text, .one .str)]
  | .CmdColumns => [(.view, .one (.msg .ColumnView))]
  | .CmdName => [(.name, .one .str)]
  | .CmdCustomArgs => [(.name, .one .str), (.isAttached, .one .num)]
  | .CmdCustomRaw => [(.name, .one .str), (.isAttached, .one .num), (.text, .one .str)]
  | .CmdCustomText => [(.name, .one .str), (.isAttached, .one .num), (.text, .ref (.node .Paragraph))]
  | .CmdCall => [
      (.name, .one .str), (.fileName, .opt .str), (.insideHeaderAttrs, .one (.msg .AttrGroup)),
      (.callAttrs, .one (.msg .AttrGroup)), (.endHeaderAttrs, .one (.msg .AttrGroup)),
      (.result, .rep (.node .BlockCodeEvalResult))]
  | .CmdTblfm => [(.expr, .one (.msg .Tblfm))]
  | .HashTag => [(.text, .one (.msg .HashTagText))]
  | .InlineFootnote => [(.tag, .one .str), (.definition, .opt .any)]
  | .InlineExport => [(.exporter, .one .str), (.content, .one .str)]
  | .Time_Repeat => [(.mode, .one .num), (.period, .one .num), (.count, .one .num)]
  | .Time_Static => [
      (.repeat, .rep (.msg .Time_Repeat)), (.warn, .opt (.msg .Time_Repeat)), (.time, .one (.msg .UserTime))]
  | .Time_Dynamic => [(.expr, .one (.msg .LispCode))]
  | .Time => [(.isActive, .one .num), (.time, .alts [(.msg .Time_Static), (.msg .Time_Dynamic)])]
  | .TimeRange => [(.from_, .ref (.node .Time)), (.to_, .ref (.node .Time))]
  | .Macro => [(.name, .one .str), (.attrs, .one (.msg .AttrGroup))]
  | .Symbol_Param => [(.key, .opt .str), (.value, .one .str)]
  | .Symbol => [(.name, .one .str), (.parameters, .rep (.msg .Symbol_Param)), (.positional, .rep .any)]
  | .ErrorSkipGroup => [(.skipped, .rep (.node .ErrorSkipToken))]
  | .RadioTarget => [(.words, .rep .str)]
  | .Link => [(.description, .opt (.node .Paragraph)), (.target, .one (.msg .LinkTarget))]
  | .BlockDynamicFallback => [(.name, .one .str)]
  | .BlockExport => [(.exporter, .one .str), (.content, .one .str)]
  | .BlockCodeEvalResult => [(.raw, .rep (.msg .OrgCodeEvalOutput)), (.node, .ref .any)]
  | .BlockCode => [
      (.lang, .opt .str), (.result, .rep (.node .BlockCodeEvalResult)), (.lines, .rep (.msg .BlockCodeLine)),
      (.switches, .one (.msg .AttrGroup))]
  | .SubtreeLog => [(.head, .one (.msg .SubtreeLogHead)), (.desc, .opt (.node .StmtList))]
  | .Subtree => [
      (.level, .one .num), (.treeId, .opt .str), (.todo, .opt .str), (.completion, .opt (.msg .SubtreeCompletion)),
      (.description, .opt (.node .Paragraph)), (.tags, .rep (.node .HashTag)), (.title, .ref (.node .Paragraph)),
      (.logbook, .rep (.node .SubtreeLog)), (.properties, .rep (.msg .NamedProperty)), (.closed, .opt (.node .Time)),
      (.deadline, .opt (.node .Time)), (.scheduled, .opt (.node .Time)), (.isComment, .one .num),
      (.isArchived, .one .num), (.priority, .opt .str)]
  | .Cell => [(.isBlock, .one .num)]
  | .Row => [(.cells, .rep (.node .Cell)), (.isBlock, .one .num)]
  | .Table => [(.rows, .rep (.node .Row)), (.isBlock, .one .num)]
  | .CmdAttr => [(.target, .one .str)]
  | .CmdExport => [(.exporter, .one .str), (.content, .one .str)]
  | .Call => [(.name, .one .str), (.attrs, .one (.msg .AttrGroup)), (.isCommand, .one .num)]
  | .ListItem => [(.checkbox, .one .num), (.header, .opt (.node .Paragraph)), (.bullet, .opt .str)]
  | .DocumentOptions => [
      (.initialVisibility, .one .num), (.properties, .rep (.msg .NamedProperty)),
      (.exportConfig, .one (.msg .DocumentExportConfig)), (.fixedWidthSections, .opt .num),
      (.startupIndented, .opt .num), (.category, .opt .str), (.setupfile, .opt .str),
      (.maxSubtreeLevelExport, .opt .num), (.columns, .opt (.msg .ColumnView)),
      (.todoKeywords, .rep (.msg .TodoKeyword)), (.doneKeywords, .rep (.msg .TodoKeyword))]
  | .DocumentFragment => [(.baseLine, .one .num), (.baseCol, .one .num)]
  | .CriticMarkup => [(.kind, .one .num)]
  | .Document => [
      (.title, .opt (.node .Paragraph)), (.author, .opt (.node .Paragraph)), (.creator, .opt (.node .Paragraph)),
      (.filetags, .rep (.node .HashTag)), (.email, .opt (.node .RawText)), (.language, .rep .str),
      (.options, .ref (.node .DocumentOptions)), (.exportFileName, .opt .str)]
  | .FileTarget => [
      (.path, .one .str), (.line, .opt .num), (.searchTarget, .opt .str), (.restrictToHeadlines, .one .num),
      (.targetId, .opt .str), (.regexp, .opt .str)]
  | .File => [
      (.relPath, .one .str), (.absPath, .one .str),
      (.data, .alts [(.msg .File_Document), (.msg .File_Attachment), (.msg .File_Source)])]
  | .Directory => [(.relPath, .one .str), (.absPath, .one .str)]
  | .Symlink => [(.isDirectory, .one .num), (.absPath, .one .str)]
  | .CmdInclude_Export => [(.language, .one .str)]
  | .CmdInclude_Custom => [(.blockName, .one .str)]
  | .CmdInclude_Src => [(.language, .one .str)]
  | .CmdInclude_OrgDocument => [
      (.onlyContent, .opt .num), (.subtreePath, .opt (.msg .SubtreePath)), (.minLevel, .opt .num),
      (.customIdTarget, .opt .str)]
  | .CmdInclude => [
      (.path, .one .str), (.firstLine, .opt .num), (.lastLine, .opt .num),
      (.data, .alts [(.msg .CmdInclude_Example), (.msg .CmdInclude_Export), (.msg .CmdInclude_Custom), (.msg .CmdInclude_Src), (.msg .CmdInclude_OrgDocument)])]
  | _ => []

/-- The statements of `write` – SemOrgSerdeDefinitions.cpp (the line of each function above its row) -/
def writes : Ty → List Stmt
  | .Org => [.rep .subnodes .subnodes .any, .kind .statickind]
  | .Stmt => [.rep .attached .attached .any]
  | .Cmd => [.one .attrs .attrs (.msg .AttrGroup)]
  | .Leaf => [.one .text .text .str]
  | .SourceFileId => [.one .id .id .num]
  | .SourceLoc => [
      .one .line .line .num, .one .column .column .num, .one .pos .pos .num, .one .file_id .file (.msg .SourceFileId)]
  | .UserTime => [.one .time .time .num, .opt .zone .zone .str, .one .align .align .num]
  | .OrgJson => [.one .raw .raw .str]
  -- 5
  | .LispCode_Call => [.one .name .name .str, .rep .args .args (.msg .LispCode)]
  -- 15
  | .LispCode_List => [.rep .items .items (.msg .LispCode)]
  -- 23
  | .LispCode_KeyValue => [.one .name .name .str, .rep .value .value (.msg .LispCode)]
  -- 33
  | .LispCode_Number => [.one .value .value .num]
  -- 41
  | .LispCode_Text => [.one .value .value .str]
  -- 49
  | .LispCode_Ident => [.one .name .name .str]
  -- 57
  | .LispCode_Boolean => [.one .value .value .num]
  -- 65
  | .LispCode_Real => [.one .value .value .num]
  -- 73
  | .LispCode => [
      .alts .data .data [(.call, (.msg .LispCode_Call)), (.list, (.msg .LispCode_List)), (.keyvalue, (.msg .LispCode_KeyValue)), (.number, (.msg .LispCode_Number)), (.text, (.msg .LispCode_Text)), (.ident, (.msg .LispCode_Ident)), (.boolean, (.msg .LispCode_Boolean)), (.real, (.msg .LispCode_Real))]]
  -- 143
  | .Tblfm_Expr_AxisRef_Position_Index => [.one .index .index .num]
  -- 151
  | .Tblfm_Expr_AxisRef_Position_Name => [.one .name .name .str]
  -- 159
  | .Tblfm_Expr_AxisRef_Position => [
      .alts .data .data [(.index, (.msg .Tblfm_Expr_AxisRef_Position_Index)), (.name, (.msg .Tblfm_Expr_AxisRef_Position_Name))]]
  -- 187
  | .Tblfm_Expr_AxisRef => [
      .one .col .col (.msg .Tblfm_Expr_AxisRef_Position), .opt .row .row (.msg .Tblfm_Expr_AxisRef_Position)]
  -- 201
  | .Tblfm_Expr_AxisName => [.one .name .name .str]
  -- 209
  | .Tblfm_Expr_IntLiteral => [.one .value .value .num]
  -- 217
  | .Tblfm_Expr_FloatLiteral => [.one .value .value .num]
  -- 225
  | .Tblfm_Expr_RangeRef => [
      .opt .first .first (.msg .Tblfm_Expr_AxisRef), .opt .last .last (.msg .Tblfm_Expr_AxisRef)]
  -- 243
  | .Tblfm_Expr_Call => [.one .name .name .str, .rep .args .args (.msg .Tblfm_Expr)]
  -- 253
  | .Tblfm_Expr_Elisp => [.one .value .value .str]
  -- 261
  | .Tblfm_Expr => [
      .alts .data .data [(.axisref, (.msg .Tblfm_Expr_AxisRef)), (.axisname, (.msg .Tblfm_Expr_AxisName)), (.intliteral, (.msg .Tblfm_Expr_IntLiteral)), (.floatliteral, (.msg .Tblfm_Expr_FloatLiteral)), (.rangeref, (.msg .Tblfm_Expr_RangeRef)), (.call, (.msg .Tblfm_Expr_Call)), (.elisp, (.msg .Tblfm_Expr_Elisp))]]
  -- 324
  | .Tblfm_Assign => [
      .one .target .target (.msg .Tblfm_Expr_AxisRef), .rep .expr .expr (.msg .Tblfm_Expr), .rep .flags .flags .num]
  -- 336
  | .Tblfm => [.rep .exprs .exprs (.msg .Tblfm_Assign)]
  -- 344
  | .AttrValue_DimensionSpan => [.one .first .first .num, .opt .last .last .num]
  -- 358
  | .AttrValue_TextValue => [.one .value .value .str]
  -- 366
  | .AttrValue_FileReference => [.one .file .file .str, .one .reference .reference .str]
  -- 376
  | .AttrValue_LispValue => [.one .code .code (.msg .LispCode)]
  -- 384
  | .AttrValue => [
      .opt .name .name .str, .opt .varname .varname .str, .rep .span .span (.msg .AttrValue_DimensionSpan),
      .one .isQuoted .isquoted .num,
      .alts .data .data [(.textvalue, (.msg .AttrValue_TextValue)), (.filereference, (.msg .AttrValue_FileReference)), (.lispvalue, (.msg .AttrValue_LispValue))]]
  -- 435
  | .HashTagFlat => [.rep .tags .tags .str]
  -- 443
  | .TodoKeyword => [
      .one .name .name .str, .opt .shortcut .shortcut .str, .one .onEnter .onenter .num, .one .onLeave .onleave .num]
  -- 461
  | .HashTagText => [.one .head .head .str, .rep .subtags .subtags (.msg .HashTagText)]
  -- 471
  | .SubtreePath => [.rep .path .path .str]
  -- 479
  | .LinkTarget_Raw => [.one .text .text .str]
  -- 487
  | .LinkTarget_Id => [.one .text .text .str]
  -- 495
  | .LinkTarget_CustomId => [.one .text .text .str]
  -- 503
  | .LinkTarget_SubtreeTitle => [.one .title .title (.msg .SubtreePath), .one .level .level .num]
  -- 513
  | .LinkTarget_Person => [.one .name .name .str]
  -- 521
  | .LinkTarget_UserProtocol => [.one .protocol .protocol .str, .one .target .target .str]
  -- 531
  | .LinkTarget_Internal => [.one .target .target .str]
  -- 539
  | .LinkTarget_Footnote => [.one .target .target .str]
  -- 547
  | .LinkTarget_File => [.one .file .file .str]
  -- 555
  | .LinkTarget_Attachment => [.one .file .file .str]
  -- 563
  | .LinkTarget => [
      .alts .data .data [(.raw, (.msg .LinkTarget_Raw)), (.id, (.msg .LinkTarget_Id)), (.customid, (.msg .LinkTarget_CustomId)), (.subtreetitle, (.msg .LinkTarget_SubtreeTitle)), (.person, (.msg .LinkTarget_Person)), (.userprotocol, (.msg .LinkTarget_UserProtocol)), (.internal, (.msg .LinkTarget_Internal)), (.footnote, (.msg .LinkTarget_Footnote)), (.file, (.msg .LinkTarget_File)), (.attachment, (.msg .LinkTarget_Attachment))]]
  -- 647
  | .SubtreeLogHead_Priority => [
      .opt .oldPriority .oldpriority .str, .opt .newPriority .newpriority .str, .one .on .on (.msg .UserTime),
      .one .action .action .num]
  -- 669
  | .SubtreeLogHead_Note => [.one .on .on (.msg .UserTime)]
  -- 677
  | .SubtreeLogHead_Refile => [.one .on .on (.msg .UserTime), .one .from_ .from_ (.msg .LinkTarget)]
  -- 687
  | .SubtreeLogHead_Clock => [.one .from_ .from_ (.msg .UserTime), .opt .to_ .to_ (.msg .UserTime)]
  -- 701
  | .SubtreeLogHead_State => [.one .from_ .from_ .str, .one .to_ .to_ .str, .one .on .on (.msg .UserTime)]
  -- 713
  | .SubtreeLogHead_Deadline => [
      .opt .from_ .from_ (.msg .UserTime), .one .to_ .to_ (.msg .UserTime), .one .on .on (.msg .UserTime)]
  -- 729
  | .SubtreeLogHead_Schedule => [
      .opt .from_ .from_ (.msg .UserTime), .one .to_ .to_ (.msg .UserTime), .one .on .on (.msg .UserTime)]
  -- 745
  | .SubtreeLogHead_Tag => [
      .one .on .on (.msg .UserTime), .one .tag .tag (.msg .HashTagText), .one .added .added .num]
  -- 765
  | .SubtreeLogHead => [
      .alts .log .log [(.priority, (.msg .SubtreeLogHead_Priority)), (.note, (.msg .SubtreeLogHead_Note)), (.refile, (.msg .SubtreeLogHead_Refile)), (.clock, (.msg .SubtreeLogHead_Clock)), (.state, (.msg .SubtreeLogHead_State)), (.deadline, (.msg .SubtreeLogHead_Deadline)), (.schedule, (.msg .SubtreeLogHead_Schedule)), (.tag, (.msg .SubtreeLogHead_Tag)), (.unknown, (.msg .SubtreeLogHead_Unknown))]]
  -- 842
  | .SubtreeCompletion => [.one .done .done .num, .one .full .full .num, .one .isPercent .ispercent .num]
  -- 854
  | .AttrList => [.rep .items .items (.msg .AttrValue)]
  -- 862
  | .AttrGroup => [.one .positional .positional (.msg .AttrList), .map .named .named (.msg .AttrList)]
  -- 872
  | .OrgCodeEvalInput_Var => [.one .name .name .str, .one .value .value (.msg .OrgJson)]
  -- 882
  | .OrgCodeEvalInput => [
      .one .blockAttrs .blockattrs (.msg .AttrGroup), .one .tangledCode .tangledcode .str,
      .opt .exportType .exporttype .str, .one .resultType .resulttype .num, .one .resultFormat .resultformat .num,
      .one .resultHandling .resulthandling .num, .one .language .language .str,
      .rep .argList .arglist (.msg .OrgCodeEvalInput_Var)]
  -- 908
  | .OrgCodeEvalOutput => [
      .one .stdoutText .stdouttext .str, .one .stderrText .stderrtext .str, .one .code .code .num,
      .opt .cmd .cmd .str, .rep .args .args .str, .one .cwd .cwd .str,
      .one .appliedHeaderArg .appliedheaderarg (.msg .AttrGroup)]
  -- 932
  | .ColumnView_Summary_CheckboxAggregate => [.one .kind .kind .num]
  -- 940
  | .ColumnView_Summary_MathAggregate => [
      .one .kind .kind .num, .opt .formatDigits .formatdigits .num, .opt .formatPrecision .formatprecision .num]
  -- 960
  | .ColumnView_Summary => [
      .alts .data .data [(.checkboxaggregate, (.msg .ColumnView_Summary_CheckboxAggregate)), (.mathaggregate, (.msg .ColumnView_Summary_MathAggregate))]]
  -- 988
  | .ColumnView_Column => [
      .opt .summary .summary (.msg .ColumnView_Summary), .opt .width .width .num, .opt .property .property .str,
      .opt .propertyTitle .propertytitle .str]
  -- 1018
  | .ColumnView => [.rep .columns .columns (.msg .ColumnView_Column)]
  -- 1026
  | .BlockCodeLine_Part_Raw => [.one .code .code .str]
  -- 1034
  | .BlockCodeLine_Part_Callout => [.one .name .name .str]
  -- 1042
  | .BlockCodeLine_Part_Tangle => [.one .target .target .str]
  -- 1050
  | .BlockCodeLine_Part => [
      .alts .data .data [(.raw, (.msg .BlockCodeLine_Part_Raw)), (.callout, (.msg .BlockCodeLine_Part_Callout)), (.tangle, (.msg .BlockCodeLine_Part_Tangle))]]
  -- 1085
  | .BlockCodeLine => [.rep .parts .parts (.msg .BlockCodeLine_Part)]
  -- 1093
  | .DocumentExportConfig_TaskExport => [.rep .taskWhitelist .taskwhitelist .str]
  -- 1101
  | .DocumentExportConfig_DoExport => [.one .exportToc .exporttoc .num]
  -- 1109
  | .DocumentExportConfig_ExportFixed => [.one .exportLevels .exportlevels .num]
  -- 1117
  | .DocumentExportConfig => [
      .opt .inlinetasks .inlinetasks .num, .opt .footnotes .footnotes .num, .opt .clock .clock .num,
      .opt .author .author .num, .opt .emphasis .emphasis .num, .opt .specialStrings .specialstrings .num,
      .opt .propertyDrawers .propertydrawers .num, .opt .statisticsCookies .statisticscookies .num,
      .opt .todoText .todotext .num, .opt .smartQuotes .smartquotes .num, .opt .fixedWidth .fixedwidth .num,
      .opt .timestamps .timestamps .num, .opt .preserveBreaks .preservebreaks .num,
      .opt .subSuperscripts .subsuperscripts .num, .opt .expandLinks .expandlinks .num, .opt .creator .creator .num,
      .opt .drawers .drawers .num, .opt .date .date .num, .opt .entities .entities .num, .opt .email .email .num,
      .opt .sectionNumbers .sectionnumbers .num, .opt .planning .planning .num, .opt .priority .priority .num,
      .opt .latex .latex .num, .opt .timestamp .timestamp .num, .opt .title .title .num, .opt .tables .tables .num,
      .opt .headlineLevels .headlinelevels .num, .one .brokenLinks .brokenlinks .num,
      .one .tagExport .tagexport .num, .one .taskFiltering .taskfiltering .num,
      .one .archivedTrees .archivedtrees .num,
      .alts .tocExport .tocexport [(.doexport, (.msg .DocumentExportConfig_DoExport)), (.exportfixed, (.msg .DocumentExportConfig_ExportFixed))]]
  -- 1321
  | .SubtreePeriod => [.one .kind .kind .num, .one .from_ .from_ (.msg .UserTime), .opt .to_ .to_ (.msg .UserTime)]
  -- 1337
  | .NamedProperty_Nonblocking => [.one .isBlocking .isblocking .num]
  -- 1345
  | .NamedProperty_ArchiveTime => [.one .time .time (.msg .UserTime)]
  -- 1353
  | .NamedProperty_ArchiveFile => [.one .file .file .str]
  -- 1361
  | .NamedProperty_ArchiveOlpath => [.one .path .path (.msg .SubtreePath)]
  -- 1369
  | .NamedProperty_ArchiveTarget => [.one .path .path (.msg .SubtreePath), .one .pattern .pattern .str]
  -- 1379
  | .NamedProperty_ArchiveCategory => [.one .category .category .str]
  -- 1387
  | .NamedProperty_ArchiveTodo => [.one .todo .todo .str]
  -- 1403
  | .NamedProperty_ExportLatexClass => [.one .latexClass .latexclass .str]
  -- 1411
  | .NamedProperty_CookieData => [.one .isRecursive .isrecursive .num, .one .source .source .num]
  -- 1421
  | .NamedProperty_ExportLatexClassOptions => [.rep .options .options .str]
  -- 1429
  | .NamedProperty_ExportLatexHeader => [.one .header .header .str]
  -- 1437
  | .NamedProperty_ExportLatexCompiler => [.one .compiler .compiler .str]
  -- 1445
  | .NamedProperty_Ordered => [.one .isOrdered .isordered .num]
  -- 1453
  | .NamedProperty_Effort => [.one .hours .hours .num, .one .minutes .minutes .num]
  -- 1463
  | .NamedProperty_Visibility => [.one .level .level .num]
  -- 1471
  | .NamedProperty_ExportOptions => [.one .backend .backend .str, .map .values .values .str]
  -- 1481
  | .NamedProperty_Blocker => [.rep .blockers .blockers .str]
  -- 1497
  | .NamedProperty_Created => [.one .time .time (.msg .UserTime)]
  -- 1505
  | .NamedProperty_RadioId => [.rep .words .words .str]
  -- 1513
  | .NamedProperty_HashtagDef => [.one .hashtag .hashtag (.msg .HashTagText)]
  -- 1521
  | .NamedProperty_CustomArgs => [.one .name .name .str, .opt .sub .sub .str, .one .attrs .attrs (.msg .AttrGroup)]
  -- 1537
  | .NamedProperty_CustomRaw => [.one .name .name .str, .one .value .value .str]
  -- 1547
  | .NamedProperty_CustomId => [.one .value .value .str]
  -- 1555
  | .NamedProperty_CustomSubtreeJson => [.one .name .name .str, .one .value .value (.msg .OrgJson)]
  -- 1565
  | .NamedProperty_CustomSubtreeFlags => [.one .name .name .str, .one .value .value (.msg .AttrGroup)]
  -- 1575
  | .NamedProperty => [
      .alts .data .data [(.nonblocking, (.msg .NamedProperty_Nonblocking)), (.archivetime, (.msg .NamedProperty_ArchiveTime)), (.archivefile, (.msg .NamedProperty_ArchiveFile)), (.archiveolpath, (.msg .NamedProperty_ArchiveOlpath)), (.archivetarget, (.msg .NamedProperty_ArchiveTarget)), (.archivecategory, (.msg .NamedProperty_ArchiveCategory)), (.archivetodo, (.msg .NamedProperty_ArchiveTodo)), (.trigger, (.msg .NamedProperty_Trigger)), (.exportlatexclass, (.msg .NamedProperty_ExportLatexClass)), (.cookiedata, (.msg .NamedProperty_CookieData)), (.exportlatexclassoptions, (.msg .NamedProperty_ExportLatexClassOptions)), (.exportlatexheader, (.msg .NamedProperty_ExportLatexHeader)), (.exportlatexcompiler, (.msg .NamedProperty_ExportLatexCompiler)), (.ordered, (.msg .NamedProperty_Ordered)), (.effort, (.msg .NamedProperty_Effort)), (.visibility, (.msg .NamedProperty_Visibility)), (.exportoptions, (.msg .NamedProperty_ExportOptions)), (.blocker, (.msg .NamedProperty_Blocker)), (.unnumbered, (.msg .NamedProperty_Unnumbered)), (.created, (.msg .NamedProperty_Created)), (.radioid, (.msg .NamedProperty_RadioId)), (.hashtagdef, (.msg .NamedProperty_HashtagDef)), (.customargs, (.msg .NamedProperty_CustomArgs)), (.customraw, (.msg .NamedProperty_CustomRaw)), (.customid, (.msg .NamedProperty_CustomId)), (.customsubtreejson, (.msg .NamedProperty_CustomSubtreeJson)), (.customsubtreeflags, (.msg .NamedProperty_CustomSubtreeFlags))]]
  -- 1778
  | .OrgDiagnostics_ParseTokenError => [
      .one .brief .brief .str, .one .detail .detail .str, .one .parserFunction .parserfunction .str,
      .one .parserLine .parserline .num, .one .tokenKind .tokenkind .num, .one .tokenText .tokentext .str,
      .one .loc .loc (.msg .SourceLoc), .one .errName .errname .str, .one .errCode .errcode .str]
  -- 1802
  | .OrgDiagnostics_ParseError => [
      .one .brief .brief .str, .one .detail .detail .str, .one .parserFunction .parserfunction .str,
      .one .parserLine .parserline .num, .one .errName .errname .str, .one .errCode .errcode .str,
      .opt .loc .loc (.msg .SourceLoc)]
  -- 1826
  | .OrgDiagnostics_IncludeError => [
      .one .brief .brief .str, .one .targetPath .targetpath .str, .one .workingFile .workingfile .str]
  -- 1838
  | .OrgDiagnostics_ConvertError => [
      .one .brief .brief .str, .one .detail .detail .str, .one .convertFunction .convertfunction .str,
      .one .convertLine .convertline .num, .one .convertFile .convertfile .str, .one .errName .errname .str,
      .one .errCode .errcode .str, .opt .loc .loc (.msg .SourceLoc)]
  -- 1864
  | .OrgDiagnostics_InternalError => [
      .one .message .message .str, .one .function .function .str, .one .line .line .num, .one .file .file .str,
      .opt .loc .loc (.msg .SourceLoc)]
  -- 1884
  | .OrgDiagnostics => [
      .alts .data .data [(.parsetokenerror, (.msg .OrgDiagnostics_ParseTokenError)), (.parseerror, (.msg .OrgDiagnostics_ParseError)), (.includeerror, (.msg .OrgDiagnostics_IncludeError)), (.converterror, (.msg .OrgDiagnostics_ConvertError)), (.internalerror, (.msg .OrgDiagnostics_InternalError))]]
  -- 1933
  | .NoNode => [.base .Org]
  -- 1941
  | .ErrorItem => [.base .Org, .one .diag .diag (.msg .OrgDiagnostics)]
  -- 1951
  | .ErrorGroup => [.base .Org, .rep .diagnostics .diagnostics (.node .ErrorItem)]
  -- 1961
  | .StmtList => [.base .Org]
  -- 1969
  | .Empty => [.base .Org]
  -- 1977
  | .CmdCaption => [.base .Cmd, .base .Stmt, .base .Org, .ref .text .text (.node .Paragraph)]
  -- 1993
  | .CmdCreator => [.base .Cmd, .base .Stmt, .base .Org, .ref .text .text (.node .Paragraph)]
  -- 2009
  | .CmdAuthor => [.base .Cmd, .base .Stmt, .base .Org, .ref .text .text (.node .Paragraph)]
  -- 2025
  | .CmdEmail => [.base .Cmd, .base .Stmt, .base .Org, .one .text .text .str]
  -- 2039
  | .CmdLanguage => [.base .Cmd, .base .Stmt, .base .Org, .one .text .text .str]
  -- 2053
  | .CmdColumns => [.base .Cmd, .base .Stmt, .base .Org, .one .view .view (.msg .ColumnView)]
  -- 2067
  | .CmdName => [.base .Cmd, .base .Stmt, .base .Org, .one .name .name .str]
  -- 2081
  | .CmdCustomArgs => [.base .Cmd, .base .Stmt, .base .Org, .one .name .name .str, .one .isAttached .isattached .num]
  -- 2097
  | .CmdCustomRaw => [
      .base .Stmt, .base .Org, .one .name .name .str, .one .isAttached .isattached .num, .one .text .text .str]
  -- 2113
  | .CmdCustomText => [
      .base .Stmt, .base .Org, .one .name .name .str, .one .isAttached .isattached .num,
      .ref .text .text (.node .Paragraph)]
  -- 2131
  | .CmdCall => [
      .base .Cmd, .base .Stmt, .base .Org, .one .name .name .str, .opt .fileName .filename .str,
      .one .insideHeaderAttrs .insideheaderattrs (.msg .AttrGroup), .one .callAttrs .callattrs (.msg .AttrGroup),
      .one .endHeaderAttrs .endheaderattrs (.msg .AttrGroup), .rep .result .result (.node .BlockCodeEvalResult)]
  -- 2159
  | .CmdTblfm => [.base .Cmd, .base .Stmt, .base .Org, .one .expr .expr (.msg .Tblfm)]
  -- 2173
  | .HashTag => [.base .Org, .one .text .text (.msg .HashTagText)]
  -- 2183
  | .InlineFootnote => [.base .Org, .one .tag .tag .str, .opt .definition .definition .any]
  -- 2199
  | .InlineExport => [.base .Org, .one .exporter .exporter .str, .one .content .content .str]
  -- 2211
  | .Time_Repeat => [.one .mode .mode .num, .one .period .period .num, .one .count .count .num]
  -- 2223
  | .Time_Static => [
      .rep .repeat .repeat (.msg .Time_Repeat), .opt .warn .warn (.msg .Time_Repeat),
      .one .time .time (.msg .UserTime)]
  -- 2239
  | .Time_Dynamic => [.one .expr .expr (.msg .LispCode)]
  -- 2247
  | .Time => [
      .base .Org, .one .isActive .isactive .num,
      .alts .time .time [(.static, (.msg .Time_Static)), (.dynamic, (.msg .Time_Dynamic))]]
  -- 2279
  | .TimeRange => [.base .Org, .ref .from_ .from_ (.node .Time), .ref .to_ .to_ (.node .Time)]
  -- 2295
  | .Macro => [.base .Org, .one .name .name .str, .one .attrs .attrs (.msg .AttrGroup)]
  -- 2307
  | .Symbol_Param => [.opt .key .key .str, .one .value .value .str]
  -- 2321
  | .Symbol => [
      .base .Org, .one .name .name .str, .rep .parameters .parameters (.msg .Symbol_Param),
      .rep .positional .positional .any]
  -- 2335
  | .Escaped => [.base .Leaf, .base .Org]
  -- 2345
  | .Newline => [.base .Leaf, .base .Org]
  -- 2355
  | .Space => [.base .Leaf, .base .Org]
  -- 2365
  | .Word => [.base .Leaf, .base .Org]
  -- 2375
  | .AtMention => [.base .Leaf, .base .Org]
  -- 2385
  | .RawText => [.base .Leaf, .base .Org]
  -- 2395
  | .Punctuation => [.base .Leaf, .base .Org]
  -- 2405
  | .Placeholder => [.base .Leaf, .base .Org]
  -- 2415
  | .BigIdent => [.base .Leaf, .base .Org]
  -- 2425
  | .TextTarget => [.base .Leaf, .base .Org]
  -- 2435
  | .ErrorSkipToken => [.base .Leaf, .base .Org]
  -- 2445
  | .ErrorSkipGroup => [.base .Org, .rep .skipped .skipped (.node .ErrorSkipToken)]
  -- 2455
  | .Bold => [.base .Org]
  -- 2463
  | .Underline => [.base .Org]
  -- 2471
  | .Monospace => [.base .Org]
  -- 2479
  | .MarkQuote => [.base .Org]
  -- 2487
  | .Verbatim => [.base .Org]
  -- 2495
  | .Italic => [.base .Org]
  -- 2503
  | .Strike => [.base .Org]
  -- 2511
  | .Par => [.base .Org]
  -- 2519
  | .RadioTarget => [.base .Org, .rep .words .words .str]
  -- 2529
  | .Latex => [.base .Org]
  -- 2537
  | .Link => [
      .base .Stmt, .base .Org, .opt .description .description (.node .Paragraph),
      .one .target .target (.msg .LinkTarget)]
  -- 2555
  | .BlockCenter => [.base .Cmd, .base .Stmt, .base .Org]
  -- 2567
  | .BlockQuote => [.base .Cmd, .base .Stmt, .base .Org]
  -- 2579
  | .BlockComment => [.base .Stmt, .base .Org]
  -- 2589
  | .BlockVerse => [.base .Cmd, .base .Stmt, .base .Org]
  -- 2601
  | .BlockDynamicFallback => [.base .Cmd, .base .Stmt, .base .Org, .one .name .name .str]
  -- 2615
  | .BlockExample => [.base .Cmd, .base .Stmt, .base .Org]
  -- 2627
  | .BlockExport => [.base .Cmd, .base .Stmt, .base .Org, .one .exporter .exporter .str, .one .content .content .str]
  -- 2643
  | .BlockAdmonition => [.base .Cmd, .base .Stmt, .base .Org]
  -- 2655
  | .BlockCodeEvalResult => [
      .base .Cmd, .base .Stmt, .base .Org, .rep .raw .raw (.msg .OrgCodeEvalOutput), .ref .node .node .any]
  -- 2673
  | .BlockCode => [
      .base .Cmd, .base .Stmt, .base .Org, .opt .lang .lang .str, .rep .result .result (.node .BlockCodeEvalResult),
      .rep .lines .lines (.msg .BlockCodeLine), .one .switches .switches (.msg .AttrGroup)]
  -- 2697
  | .SubtreeLog => [.base .Org, .one .head .head (.msg .SubtreeLogHead), .opt .desc .desc (.node .StmtList)]
  -- 2713
  | .Subtree => [
      .base .Org, .one .level .level .num, .opt .treeId .treeid .str, .opt .todo .todo .str,
      .opt .completion .completion (.msg .SubtreeCompletion), .opt .description .description (.node .Paragraph),
      .rep .tags .tags (.node .HashTag), .ref .title .title (.node .Paragraph),
      .rep .logbook .logbook (.node .SubtreeLog), .rep .properties .properties (.msg .NamedProperty),
      .opt .closed .closed (.node .Time), .opt .deadline .deadline (.node .Time),
      .opt .scheduled .scheduled (.node .Time), .one .isComment .iscomment .num, .one .isArchived .isarchived .num,
      .opt .priority .priority .str]
  -- 2785
  | .Cell => [.base .Cmd, .base .Stmt, .base .Org, .one .isBlock .isblock .num]
  -- 2799
  | .Row => [.base .Cmd, .base .Stmt, .base .Org, .rep .cells .cells (.node .Cell), .one .isBlock .isblock .num]
  -- 2815
  | .Table => [.base .Cmd, .base .Stmt, .base .Org, .rep .rows .rows (.node .Row), .one .isBlock .isblock .num]
  -- 2831
  | .Paragraph => [.base .Stmt, .base .Org]
  -- 2841
  | .ColonExample => [.base .Org]
  -- 2849
  | .CmdAttr => [.base .Cmd, .base .Stmt, .base .Org, .one .target .target .str]
  -- 2863
  | .CmdExport => [.base .Cmd, .base .Stmt, .base .Org, .one .exporter .exporter .str, .one .content .content .str]
  -- 2879
  | .Call => [
      .base .Org, .one .name .name .str, .one .attrs .attrs (.msg .AttrGroup), .one .isCommand .iscommand .num]
  -- 2893
  | .List => [.base .Stmt, .base .Org]
  -- 2903
  | .ListItem => [
      .base .Org, .one .checkbox .checkbox .num, .opt .header .header (.node .Paragraph), .opt .bullet .bullet .str]
  -- 2925
  | .DocumentOptions => [
      .base .Org, .one .initialVisibility .initialvisibility .num,
      .rep .properties .properties (.msg .NamedProperty),
      .one .exportConfig .exportconfig (.msg .DocumentExportConfig),
      .opt .fixedWidthSections .fixedwidthsections .num, .opt .startupIndented .startupindented .num,
      .opt .category .category .str, .opt .setupfile .setupfile .str,
      .opt .maxSubtreeLevelExport .maxsubtreelevelexport .num, .opt .columns .columns (.msg .ColumnView),
      .rep .todoKeywords .todokeywords (.msg .TodoKeyword), .rep .doneKeywords .donekeywords (.msg .TodoKeyword)]
  -- 2979
  | .DocumentFragment => [.base .Org, .one .baseLine .baseline .num, .one .baseCol .basecol .num]
  -- 2991
  | .CriticMarkup => [.base .Org, .one .kind .kind .num]
  -- 3001
  | .Document => [
      .base .Org, .opt .title .title (.node .Paragraph), .opt .author .author (.node .Paragraph),
      .opt .creator .creator (.node .Paragraph), .rep .filetags .filetags (.node .HashTag),
      .opt .email .email (.node .RawText), .rep .language .language .str,
      .ref .options .options (.node .DocumentOptions), .opt .exportFileName .exportfilename .str]
  -- 3047
  | .FileTarget => [
      .base .Org, .one .path .path .str, .opt .line .line .num, .opt .searchTarget .searchtarget .str,
      .one .restrictToHeadlines .restricttoheadlines .num, .opt .targetId .targetid .str, .opt .regexp .regexp .str]
  -- 3083
  | .TextSeparator => [.base .Org]
  -- 3091
  | .DocumentGroup => [.base .Org]
  -- 3123
  | .File => [
      .base .Org, .one .relPath .relpath .str, .one .absPath .abspath .str,
      .alts .data .data [(.document, (.msg .File_Document)), (.attachment, (.msg .File_Attachment)), (.source, (.msg .File_Source))]]
  -- 3164
  | .Directory => [.base .Org, .one .relPath .relpath .str, .one .absPath .abspath .str]
  -- 3176
  | .Symlink => [.base .Org, .one .isDirectory .isdirectory .num, .one .absPath .abspath .str]
  -- 3204
  | .CmdInclude_Export => [.one .language .language .str]
  -- 3212
  | .CmdInclude_Custom => [.one .blockName .blockname .str]
  -- 3220
  | .CmdInclude_Src => [.one .language .language .str]
  -- 3228
  | .CmdInclude_OrgDocument => [
      .opt .onlyContent .onlycontent .num, .opt .subtreePath .subtreepath (.msg .SubtreePath),
      .opt .minLevel .minlevel .num, .opt .customIdTarget .customidtarget .str]
  -- 3258
  | .CmdInclude => [
      .base .Org, .one .path .path .str, .opt .firstLine .firstline .num, .opt .lastLine .lastline .num,
      .alts .data .data [(.example_, (.msg .CmdInclude_Example)), (.export_, (.msg .CmdInclude_Export)), (.custom, (.msg .CmdInclude_Custom)), (.src, (.msg .CmdInclude_Src)), (.orgdocument, (.msg .CmdInclude_OrgDocument))]]
  | _ => []

/-- The statements of `read` – SemOrgSerdeDefinitions.cpp (the line of each function above its row) -/
def reads : Ty → List Stmt
  | .Org => [.rep .subnodes .subnodes .any, .opt .loc .loc (.msg .SourceLoc)]
  | .Stmt => [.rep .attached .attached .any]
  | .Cmd => [.oneIf .attrs .attrs (.msg .AttrGroup)]
  | .Leaf => [.one .text .text .str]
  | .SourceFileId => [.one .id .id .num]
  | .SourceLoc => [
      .one .pos .pos .num, .one .line .line .num, .one .column .column .num, .one .file_id .file (.msg .SourceFileId)]
  | .UserTime => [.one .time .time .num, .opt .zone .zone .str, .one .align .align .num]
  | .OrgJson => [.one .raw .raw .str]
  -- 10
  | .LispCode_Call => [.one .name .name .str, .rep .args .args (.msg .LispCode)]
  -- 19
  | .LispCode_List => [.rep .items .items (.msg .LispCode)]
  -- 28
  | .LispCode_KeyValue => [.one .name .name .str, .rep .value .value (.msg .LispCode)]
  -- 37
  | .LispCode_Number => [.one .value .value .num]
  -- 45
  | .LispCode_Text => [.one .value .value .str]
  -- 53
  | .LispCode_Ident => [.one .name .name .str]
  -- 61
  | .LispCode_Boolean => [.one .value .value .num]
  -- 69
  | .LispCode_Real => [.one .value .value .num]
  -- 102
  | .LispCode => [
      .alts .data .data [(.call, (.msg .LispCode_Call)), (.list, (.msg .LispCode_List)), (.keyvalue, (.msg .LispCode_KeyValue)), (.number, (.msg .LispCode_Number)), (.text, (.msg .LispCode_Text)), (.ident, (.msg .LispCode_Ident)), (.boolean, (.msg .LispCode_Boolean)), (.real, (.msg .LispCode_Real))]]
  -- 147
  | .Tblfm_Expr_AxisRef_Position_Index => [.one .index .index .num]
  -- 155
  | .Tblfm_Expr_AxisRef_Position_Name => [.one .name .name .str]
  -- 170
  | .Tblfm_Expr_AxisRef_Position => [
      .alts .data .data [(.index, (.msg .Tblfm_Expr_AxisRef_Position_Index)), (.name, (.msg .Tblfm_Expr_AxisRef_Position_Name))]]
  -- 194
  | .Tblfm_Expr_AxisRef => [
      .one .col .col (.msg .Tblfm_Expr_AxisRef_Position), .opt .row .row (.msg .Tblfm_Expr_AxisRef_Position)]
  -- 205
  | .Tblfm_Expr_AxisName => [.one .name .name .str]
  -- 213
  | .Tblfm_Expr_IntLiteral => [.one .value .value .num]
  -- 221
  | .Tblfm_Expr_FloatLiteral => [.one .value .value .num]
  -- 234
  | .Tblfm_Expr_RangeRef => [
      .opt .first .first (.msg .Tblfm_Expr_AxisRef), .opt .last .last (.msg .Tblfm_Expr_AxisRef)]
  -- 248
  | .Tblfm_Expr_Call => [.one .name .name .str, .rep .args .args (.msg .Tblfm_Expr)]
  -- 257
  | .Tblfm_Expr_Elisp => [.one .value .value .str]
  -- 287
  | .Tblfm_Expr => [
      .alts .data .data [(.axisref, (.msg .Tblfm_Expr_AxisRef)), (.axisname, (.msg .Tblfm_Expr_AxisName)), (.intliteral, (.msg .Tblfm_Expr_IntLiteral)), (.floatliteral, (.msg .Tblfm_Expr_FloatLiteral)), (.rangeref, (.msg .Tblfm_Expr_RangeRef)), (.call, (.msg .Tblfm_Expr_Call)), (.elisp, (.msg .Tblfm_Expr_Elisp))]]
  -- 330
  | .Tblfm_Assign => [
      .one .target .target (.msg .Tblfm_Expr_AxisRef), .rep .expr .expr (.msg .Tblfm_Expr), .rep .flags .flags .num]
  -- 340
  | .Tblfm => [.rep .exprs .exprs (.msg .Tblfm_Assign)]
  -- 351
  | .AttrValue_DimensionSpan => [.one .first .first .num, .opt .last .last .num]
  -- 362
  | .AttrValue_TextValue => [.one .value .value .str]
  -- 371
  | .AttrValue_FileReference => [.one .file .file .str, .one .reference .reference .str]
  -- 380
  | .AttrValue_LispValue => [.one .code .code (.msg .LispCode)]
  -- 406
  | .AttrValue => [
      .opt .name .name .str, .opt .varname .varname .str, .rep .span .span (.msg .AttrValue_DimensionSpan),
      .one .isQuoted .isquoted .num,
      .alts .data .data [(.textvalue, (.msg .AttrValue_TextValue)), (.filereference, (.msg .AttrValue_FileReference)), (.lispvalue, (.msg .AttrValue_LispValue))]]
  -- 439
  | .HashTagFlat => [.rep .tags .tags .str]
  -- 452
  | .TodoKeyword => [
      .one .name .name .str, .opt .shortcut .shortcut .str, .one .onEnter .onenter .num, .one .onLeave .onleave .num]
  -- 466
  | .HashTagText => [.one .head .head .str, .rep .subtags .subtags (.msg .HashTagText)]
  -- 475
  | .SubtreePath => [.rep .path .path .str]
  -- 483
  | .LinkTarget_Raw => [.one .text .text .str]
  -- 491
  | .LinkTarget_Id => [.one .text .text .str]
  -- 499
  | .LinkTarget_CustomId => [.one .text .text .str]
  -- 508
  | .LinkTarget_SubtreeTitle => [.one .title .title (.msg .SubtreePath), .one .level .level .num]
  -- 517
  | .LinkTarget_Person => [.one .name .name .str]
  -- 526
  | .LinkTarget_UserProtocol => [.one .protocol .protocol .str, .one .target .target .str]
  -- 535
  | .LinkTarget_Internal => [.one .target .target .str]
  -- 543
  | .LinkTarget_Footnote => [.one .target .target .str]
  -- 551
  | .LinkTarget_File => [.one .file .file .str]
  -- 559
  | .LinkTarget_Attachment => [.one .file .file .str]
  -- 598
  | .LinkTarget => [
      .alts .data .data [(.raw, (.msg .LinkTarget_Raw)), (.id, (.msg .LinkTarget_Id)), (.customid, (.msg .LinkTarget_CustomId)), (.subtreetitle, (.msg .LinkTarget_SubtreeTitle)), (.person, (.msg .LinkTarget_Person)), (.userprotocol, (.msg .LinkTarget_UserProtocol)), (.internal, (.msg .LinkTarget_Internal)), (.footnote, (.msg .LinkTarget_Footnote)), (.file, (.msg .LinkTarget_File)), (.attachment, (.msg .LinkTarget_Attachment))]]
  -- 658
  | .SubtreeLogHead_Priority => [
      .opt .oldPriority .oldpriority .str, .opt .newPriority .newpriority .str, .one .on .on (.msg .UserTime),
      .one .action .action .num]
  -- 673
  | .SubtreeLogHead_Note => [.one .on .on (.msg .UserTime)]
  -- 682
  | .SubtreeLogHead_Refile => [.one .on .on (.msg .UserTime), .one .from_ .from_ (.msg .LinkTarget)]
  -- 694
  | .SubtreeLogHead_Clock => [.one .from_ .from_ (.msg .UserTime), .opt .to_ .to_ (.msg .UserTime)]
  -- 707
  | .SubtreeLogHead_State => [.one .from_ .from_ .str, .one .to_ .to_ .str, .one .on .on (.msg .UserTime)]
  -- 721
  | .SubtreeLogHead_Deadline => [
      .opt .from_ .from_ (.msg .UserTime), .one .to_ .to_ (.msg .UserTime), .one .on .on (.msg .UserTime)]
  -- 737
  | .SubtreeLogHead_Schedule => [
      .opt .from_ .from_ (.msg .UserTime), .one .to_ .to_ (.msg .UserTime), .one .on .on (.msg .UserTime)]
  -- 751
  | .SubtreeLogHead_Tag => [
      .one .on .on (.msg .UserTime), .one .tag .tag (.msg .HashTagText), .one .added .added .num]
  -- 797
  | .SubtreeLogHead => [
      .alts .log .log [(.priority, (.msg .SubtreeLogHead_Priority)), (.note, (.msg .SubtreeLogHead_Note)), (.refile, (.msg .SubtreeLogHead_Refile)), (.clock, (.msg .SubtreeLogHead_Clock)), (.state, (.msg .SubtreeLogHead_State)), (.deadline, (.msg .SubtreeLogHead_Deadline)), (.schedule, (.msg .SubtreeLogHead_Schedule)), (.tag, (.msg .SubtreeLogHead_Tag)), (.unknown, (.msg .SubtreeLogHead_Unknown))]]
  -- 848
  | .SubtreeCompletion => [.one .done .done .num, .one .full .full .num, .one .isPercent .ispercent .num]
  -- 858
  | .AttrList => [.rep .items .items (.msg .AttrValue)]
  -- 867
  | .AttrGroup => [.one .positional .positional (.msg .AttrList), .map .named .named (.msg .AttrList)]
  -- 877
  | .OrgCodeEvalInput_Var => [.one .name .name .str, .one .value .value (.msg .OrgJson)]
  -- 895
  | .OrgCodeEvalInput => [
      .one .blockAttrs .blockattrs (.msg .AttrGroup), .one .tangledCode .tangledcode .str,
      .opt .exportType .exporttype .str, .one .resultType .resulttype .num, .one .resultFormat .resultformat .num,
      .one .resultHandling .resulthandling .num, .one .language .language .str,
      .rep .argList .arglist (.msg .OrgCodeEvalInput_Var)]
  -- 920
  | .OrgCodeEvalOutput => [
      .one .stdoutText .stdouttext .str, .one .stderrText .stderrtext .str, .one .code .code .num,
      .opt .cmd .cmd .str, .rep .args .args .str, .one .cwd .cwd .str,
      .one .appliedHeaderArg .appliedheaderarg (.msg .AttrGroup)]
  -- 936
  | .ColumnView_Summary_CheckboxAggregate => [.one .kind .kind .num]
  -- 950
  | .ColumnView_Summary_MathAggregate => [
      .one .kind .kind .num, .opt .formatDigits .formatdigits .num, .opt .formatPrecision .formatprecision .num]
  -- 971
  | .ColumnView_Summary => [
      .alts .data .data [(.checkboxaggregate, (.msg .ColumnView_Summary_CheckboxAggregate)), (.mathaggregate, (.msg .ColumnView_Summary_MathAggregate))]]
  -- 1003
  | .ColumnView_Column => [
      .opt .summary .summary (.msg .ColumnView_Summary), .opt .width .width .num, .opt .property .property .str,
      .opt .propertyTitle .propertytitle .str]
  -- 1022
  | .ColumnView => [.rep .columns .columns (.msg .ColumnView_Column)]
  -- 1030
  | .BlockCodeLine_Part_Raw => [.one .code .code .str]
  -- 1038
  | .BlockCodeLine_Part_Callout => [.one .name .name .str]
  -- 1046
  | .BlockCodeLine_Part_Tangle => [.one .target .target .str]
  -- 1064
  | .BlockCodeLine_Part => [
      .alts .data .data [(.raw, (.msg .BlockCodeLine_Part_Raw)), (.callout, (.msg .BlockCodeLine_Part_Callout)), (.tangle, (.msg .BlockCodeLine_Part_Tangle))]]
  -- 1089
  | .BlockCodeLine => [.rep .parts .parts (.msg .BlockCodeLine_Part)]
  -- 1097
  | .DocumentExportConfig_TaskExport => [.rep .taskWhitelist .taskwhitelist .str]
  -- 1105
  | .DocumentExportConfig_DoExport => [.one .exportToc .exporttoc .num]
  -- 1113
  | .DocumentExportConfig_ExportFixed => [.one .exportLevels .exportlevels .num]
  -- 1216
  | .DocumentExportConfig => [
      .opt .inlinetasks .inlinetasks .num, .opt .footnotes .footnotes .num, .opt .clock .clock .num,
      .opt .author .author .num, .opt .emphasis .emphasis .num, .opt .specialStrings .specialstrings .num,
      .opt .propertyDrawers .propertydrawers .num, .opt .statisticsCookies .statisticscookies .num,
      .opt .todoText .todotext .num, .opt .smartQuotes .smartquotes .num, .opt .fixedWidth .fixedwidth .num,
      .opt .timestamps .timestamps .num, .opt .preserveBreaks .preservebreaks .num,
      .opt .subSuperscripts .subsuperscripts .num, .opt .expandLinks .expandlinks .num, .opt .creator .creator .num,
      .opt .drawers .drawers .num, .opt .date .date .num, .opt .entities .entities .num, .opt .email .email .num,
      .opt .sectionNumbers .sectionnumbers .num, .opt .planning .planning .num, .opt .priority .priority .num,
      .opt .latex .latex .num, .opt .timestamp .timestamp .num, .opt .title .title .num, .opt .tables .tables .num,
      .opt .headlineLevels .headlinelevels .num, .one .brokenLinks .brokenlinks .num,
      .one .tagExport .tagexport .num, .one .taskFiltering .taskfiltering .num,
      .one .archivedTrees .archivedtrees .num,
      .alts .tocExport .tocexport [(.doexport, (.msg .DocumentExportConfig_DoExport)), (.exportfixed, (.msg .DocumentExportConfig_ExportFixed))]]
  -- 1329
  | .SubtreePeriod => [.one .kind .kind .num, .one .from_ .from_ (.msg .UserTime), .opt .to_ .to_ (.msg .UserTime)]
  -- 1341
  | .NamedProperty_Nonblocking => [.one .isBlocking .isblocking .num]
  -- 1349
  | .NamedProperty_ArchiveTime => [.one .time .time (.msg .UserTime)]
  -- 1357
  | .NamedProperty_ArchiveFile => [.one .file .file .str]
  -- 1365
  | .NamedProperty_ArchiveOlpath => [.one .path .path (.msg .SubtreePath)]
  -- 1374
  | .NamedProperty_ArchiveTarget => [.one .path .path (.msg .SubtreePath), .one .pattern .pattern .str]
  -- 1383
  | .NamedProperty_ArchiveCategory => [.one .category .category .str]
  -- 1391
  | .NamedProperty_ArchiveTodo => [.one .todo .todo .str]
  -- 1407
  | .NamedProperty_ExportLatexClass => [.one .latexClass .latexclass .str]
  -- 1416
  | .NamedProperty_CookieData => [.one .isRecursive .isrecursive .num, .one .source .source .num]
  -- 1425
  | .NamedProperty_ExportLatexClassOptions => [.rep .options .options .str]
  -- 1433
  | .NamedProperty_ExportLatexHeader => [.one .header .header .str]
  -- 1441
  | .NamedProperty_ExportLatexCompiler => [.one .compiler .compiler .str]
  -- 1449
  | .NamedProperty_Ordered => [.one .isOrdered .isordered .num]
  -- 1458
  | .NamedProperty_Effort => [.one .hours .hours .num, .one .minutes .minutes .num]
  -- 1467
  | .NamedProperty_Visibility => [.one .level .level .num]
  -- 1476
  | .NamedProperty_ExportOptions => [.one .backend .backend .str, .map .values .values .str]
  -- 1485
  | .NamedProperty_Blocker => [.rep .blockers .blockers .str]
  -- 1501
  | .NamedProperty_Created => [.one .time .time (.msg .UserTime)]
  -- 1509
  | .NamedProperty_RadioId => [.rep .words .words .str]
  -- 1517
  | .NamedProperty_HashtagDef => [.one .hashtag .hashtag (.msg .HashTagText)]
  -- 1529
  | .NamedProperty_CustomArgs => [.one .name .name .str, .opt .sub .sub .str, .one .attrs .attrs (.msg .AttrGroup)]
  -- 1542
  | .NamedProperty_CustomRaw => [.one .name .name .str, .one .value .value .str]
  -- 1551
  | .NamedProperty_CustomId => [.one .value .value .str]
  -- 1560
  | .NamedProperty_CustomSubtreeJson => [.one .name .name .str, .one .value .value (.msg .OrgJson)]
  -- 1570
  | .NamedProperty_CustomSubtreeFlags => [.one .name .name .str, .one .value .value (.msg .AttrGroup)]
  -- 1661
  | .NamedProperty => [
      .alts .data .data [(.nonblocking, (.msg .NamedProperty_Nonblocking)), (.archivetime, (.msg .NamedProperty_ArchiveTime)), (.archivefile, (.msg .NamedProperty_ArchiveFile)), (.archiveolpath, (.msg .NamedProperty_ArchiveOlpath)), (.archivetarget, (.msg .NamedProperty_ArchiveTarget)), (.archivecategory, (.msg .NamedProperty_ArchiveCategory)), (.archivetodo, (.msg .NamedProperty_ArchiveTodo)), (.trigger, (.msg .NamedProperty_Trigger)), (.exportlatexclass, (.msg .NamedProperty_ExportLatexClass)), (.cookiedata, (.msg .NamedProperty_CookieData)), (.exportlatexclassoptions, (.msg .NamedProperty_ExportLatexClassOptions)), (.exportlatexheader, (.msg .NamedProperty_ExportLatexHeader)), (.exportlatexcompiler, (.msg .NamedProperty_ExportLatexCompiler)), (.ordered, (.msg .NamedProperty_Ordered)), (.effort, (.msg .NamedProperty_Effort)), (.visibility, (.msg .NamedProperty_Visibility)), (.exportoptions, (.msg .NamedProperty_ExportOptions)), (.blocker, (.msg .NamedProperty_Blocker)), (.unnumbered, (.msg .NamedProperty_Unnumbered)), (.created, (.msg .NamedProperty_Created)), (.radioid, (.msg .NamedProperty_RadioId)), (.hashtagdef, (.msg .NamedProperty_HashtagDef)), (.customargs, (.msg .NamedProperty_CustomArgs)), (.customraw, (.msg .NamedProperty_CustomRaw)), (.customid, (.msg .NamedProperty_CustomId)), (.customsubtreejson, (.msg .NamedProperty_CustomSubtreeJson)), (.customsubtreeflags, (.msg .NamedProperty_CustomSubtreeFlags))]]
  -- 1790
  | .OrgDiagnostics_ParseTokenError => [
      .one .brief .brief .str, .one .detail .detail .str, .one .parserFunction .parserfunction .str,
      .one .parserLine .parserline .num, .one .tokenKind .tokenkind .num, .one .tokenText .tokentext .str,
      .one .loc .loc (.msg .SourceLoc), .one .errName .errname .str, .one .errCode .errcode .str]
  -- 1814
  | .OrgDiagnostics_ParseError => [
      .one .brief .brief .str, .one .detail .detail .str, .one .parserFunction .parserfunction .str,
      .one .parserLine .parserline .num, .one .errName .errname .str, .one .errCode .errcode .str,
      .opt .loc .loc (.msg .SourceLoc)]
  -- 1832
  | .OrgDiagnostics_IncludeError => [
      .one .brief .brief .str, .one .targetPath .targetpath .str, .one .workingFile .workingfile .str]
  -- 1851
  | .OrgDiagnostics_ConvertError => [
      .one .brief .brief .str, .one .detail .detail .str, .one .convertFunction .convertfunction .str,
      .one .convertLine .convertline .num, .one .convertFile .convertfile .str, .one .errName .errname .str,
      .one .errCode .errcode .str, .opt .loc .loc (.msg .SourceLoc)]
  -- 1874
  | .OrgDiagnostics_InternalError => [
      .one .message .message .str, .one .function .function .str, .one .line .line .num, .one .file .file .str,
      .opt .loc .loc (.msg .SourceLoc)]
  -- 1904
  | .OrgDiagnostics => [
      .alts .data .data [(.parsetokenerror, (.msg .OrgDiagnostics_ParseTokenError)), (.parseerror, (.msg .OrgDiagnostics_ParseError)), (.includeerror, (.msg .OrgDiagnostics_IncludeError)), (.converterror, (.msg .OrgDiagnostics_ConvertError)), (.internalerror, (.msg .OrgDiagnostics_InternalError))]]
  -- 1937
  | .NoNode => [.base .Org]
  -- 1946
  | .ErrorItem => [.base .Org, .one .diag .diag (.msg .OrgDiagnostics)]
  -- 1956
  | .ErrorGroup => [.base .Org, .rep .diagnostics .diagnostics (.node .ErrorItem)]
  -- 1965
  | .StmtList => [.base .Org]
  -- 1973
  | .Empty => [.base .Org]
  -- 1986
  | .CmdCaption => [.base .Cmd, .base .Stmt, .base .Org, .one .text .text (.node .Paragraph)]
  -- 2002
  | .CmdCreator => [.base .Cmd, .base .Stmt, .base .Org, .one .text .text (.node .Paragraph)]
  -- 2018
  | .CmdAuthor => [.base .Cmd, .base .Stmt, .base .Org, .one .text .text (.node .Paragraph)]
  -- 2032
  | .CmdEmail => [.base .Cmd, .base .Stmt, .base .Org, .one .text .text .str]
  -- 2046
  | .CmdLanguage => [.base .Cmd, .base .Stmt, .base .Org, .one .text .text .str]
  -- 2060
  | .CmdColumns => [.base .Cmd, .base .Stmt, .base .Org, .one .view .view (.msg .ColumnView)]
  -- 2074
  | .CmdName => [.base .Cmd, .base .Stmt, .base .Org, .one .name .name .str]
  -- 2089
  | .CmdCustomArgs => [.base .Cmd, .base .Stmt, .base .Org, .one .name .name .str, .one .isAttached .isattached .num]
  -- 2105
  | .CmdCustomRaw => [
      .base .Stmt, .base .Org, .one .name .name .str, .one .isAttached .isattached .num, .one .text .text .str]
  -- 2123
  | .CmdCustomText => [
      .base .Stmt, .base .Org, .one .name .name .str, .one .isAttached .isattached .num,
      .one .text .text (.node .Paragraph)]
  -- 2145
  | .CmdCall => [
      .base .Cmd, .base .Stmt, .base .Org, .one .name .name .str, .opt .fileName .filename .str,
      .one .insideHeaderAttrs .insideheaderattrs (.msg .AttrGroup), .one .callAttrs .callattrs (.msg .AttrGroup),
      .one .endHeaderAttrs .endheaderattrs (.msg .AttrGroup), .rep .result .result (.node .BlockCodeEvalResult)]
  -- 2166
  | .CmdTblfm => [.base .Cmd, .base .Stmt, .base .Org, .one .expr .expr (.msg .Tblfm)]
  -- 2178
  | .HashTag => [.base .Org, .one .text .text (.msg .HashTagText)]
  -- 2191
  | .InlineFootnote => [.base .Org, .one .tag .tag .str, .opt .definition .definition .any]
  -- 2205
  | .InlineExport => [.base .Org, .one .exporter .exporter .str, .one .content .content .str]
  -- 2217
  | .Time_Repeat => [.one .mode .mode .num, .one .period .period .num, .one .count .count .num]
  -- 2231
  | .Time_Static => [
      .rep .repeat .repeat (.msg .Time_Repeat), .opt .warn .warn (.msg .Time_Repeat),
      .one .time .time (.msg .UserTime)]
  -- 2243
  | .Time_Dynamic => [.one .expr .expr (.msg .LispCode)]
  -- 2260
  | .Time => [
      .base .Org, .one .isActive .isactive .num,
      .alts .time .time [(.static, (.msg .Time_Static)), (.dynamic, (.msg .Time_Dynamic))]]
  -- 2289
  | .TimeRange => [.base .Org, .one .from_ .from_ (.node .Time), .one .to_ .to_ (.node .Time)]
  -- 2301
  | .Macro => [.base .Org, .one .name .name .str, .one .attrs .attrs (.msg .AttrGroup)]
  -- 2314
  | .Symbol_Param => [.opt .key .key .str, .one .value .value .str]
  -- 2328
  | .Symbol => [
      .base .Org, .one .name .name .str, .rep .parameters .parameters (.msg .Symbol_Param),
      .rep .positional .positional .any]
  -- 2340
  | .Escaped => [.base .Leaf, .base .Org]
  -- 2350
  | .Newline => [.base .Leaf, .base .Org]
  -- 2360
  | .Space => [.base .Leaf, .base .Org]
  -- 2370
  | .Word => [.base .Leaf, .base .Org]
  -- 2380
  | .AtMention => [.base .Leaf, .base .Org]
  -- 2390
  | .RawText => [.base .Leaf, .base .Org]
  -- 2400
  | .Punctuation => [.base .Leaf, .base .Org]
  -- 2410
  | .Placeholder => [.base .Leaf, .base .Org]
  -- 2420
  | .BigIdent => [.base .Leaf, .base .Org]
  -- 2430
  | .TextTarget => [.base .Leaf, .base .Org]
  -- 2440
  | .ErrorSkipToken => [.base .Leaf, .base .Org]
  -- 2450
  | .ErrorSkipGroup => [.base .Org, .rep .skipped .skipped (.node .ErrorSkipToken)]
  -- 2459
  | .Bold => [.base .Org]
  -- 2467
  | .Underline => [.base .Org]
  -- 2475
  | .Monospace => [.base .Org]
  -- 2483
  | .MarkQuote => [.base .Org]
  -- 2491
  | .Verbatim => [.base .Org]
  -- 2499
  | .Italic => [.base .Org]
  -- 2507
  | .Strike => [.base .Org]
  -- 2515
  | .Par => [.base .Org]
  -- 2524
  | .RadioTarget => [.base .Org, .rep .words .words .str]
  -- 2533
  | .Latex => [.base .Org]
  -- 2546
  | .Link => [
      .base .Stmt, .base .Org, .opt .description .description (.node .Paragraph),
      .one .target .target (.msg .LinkTarget)]
  -- 2561
  | .BlockCenter => [.base .Cmd, .base .Stmt, .base .Org]
  -- 2573
  | .BlockQuote => [.base .Cmd, .base .Stmt, .base .Org]
  -- 2584
  | .BlockComment => [.base .Stmt, .base .Org]
  -- 2595
  | .BlockVerse => [.base .Cmd, .base .Stmt, .base .Org]
  -- 2608
  | .BlockDynamicFallback => [.base .Cmd, .base .Stmt, .base .Org, .one .name .name .str]
  -- 2621
  | .BlockExample => [.base .Cmd, .base .Stmt, .base .Org]
  -- 2635
  | .BlockExport => [.base .Cmd, .base .Stmt, .base .Org, .one .exporter .exporter .str, .one .content .content .str]
  -- 2649
  | .BlockAdmonition => [.base .Cmd, .base .Stmt, .base .Org]
  -- 2665
  | .BlockCodeEvalResult => [
      .base .Cmd, .base .Stmt, .base .Org, .rep .raw .raw (.msg .OrgCodeEvalOutput), .one .node .node .any]
  -- 2685
  | .BlockCode => [
      .base .Cmd, .base .Stmt, .base .Org, .opt .lang .lang .str, .rep .result .result (.node .BlockCodeEvalResult),
      .rep .lines .lines (.msg .BlockCodeLine), .one .switches .switches (.msg .AttrGroup)]
  -- 2705
  | .SubtreeLog => [.base .Org, .one .head .head (.msg .SubtreeLogHead), .opt .desc .desc (.node .StmtList)]
  -- 2750
  | .Subtree => [
      .base .Org, .one .level .level .num, .opt .treeId .treeid .str, .opt .todo .todo .str,
      .opt .completion .completion (.msg .SubtreeCompletion), .opt .description .description (.node .Paragraph),
      .rep .tags .tags (.node .HashTag), .one .title .title (.node .Paragraph),
      .rep .logbook .logbook (.node .SubtreeLog), .rep .properties .properties (.msg .NamedProperty),
      .opt .closed .closed (.node .Time), .opt .deadline .deadline (.node .Time),
      .opt .scheduled .scheduled (.node .Time), .one .isComment .iscomment .num, .one .isArchived .isarchived .num,
      .opt .priority .priority .str]
  -- 2792
  | .Cell => [.base .Cmd, .base .Stmt, .base .Org, .one .isBlock .isblock .num]
  -- 2807
  | .Row => [.base .Cmd, .base .Stmt, .base .Org, .rep .cells .cells (.node .Cell), .one .isBlock .isblock .num]
  -- 2823
  | .Table => [.base .Cmd, .base .Stmt, .base .Org, .rep .rows .rows (.node .Row), .one .isBlock .isblock .num]
  -- 2836
  | .Paragraph => [.base .Stmt, .base .Org]
  -- 2845
  | .ColonExample => [.base .Org]
  -- 2856
  | .CmdAttr => [.base .Cmd, .base .Stmt, .base .Org, .one .target .target .str]
  -- 2871
  | .CmdExport => [.base .Cmd, .base .Stmt, .base .Org, .one .exporter .exporter .str, .one .content .content .str]
  -- 2886
  | .Call => [
      .base .Org, .one .name .name .str, .one .attrs .attrs (.msg .AttrGroup), .one .isCommand .iscommand .num]
  -- 2898
  | .List => [.base .Stmt, .base .Org]
  -- 2914
  | .ListItem => [
      .base .Org, .one .checkbox .checkbox .num, .opt .header .header (.node .Paragraph), .opt .bullet .bullet .str]
  -- 2952
  | .DocumentOptions => [
      .base .Org, .one .initialVisibility .initialvisibility .num,
      .rep .properties .properties (.msg .NamedProperty),
      .one .exportConfig .exportconfig (.msg .DocumentExportConfig),
      .opt .fixedWidthSections .fixedwidthsections .num, .opt .startupIndented .startupindented .num,
      .opt .category .category .str, .opt .setupfile .setupfile .str,
      .opt .maxSubtreeLevelExport .maxsubtreelevelexport .num, .opt .columns .columns (.msg .ColumnView),
      .rep .todoKeywords .todokeywords (.msg .TodoKeyword), .rep .doneKeywords .donekeywords (.msg .TodoKeyword)]
  -- 2985
  | .DocumentFragment => [.base .Org, .one .baseLine .baseline .num, .one .baseCol .basecol .num]
  -- 2996
  | .CriticMarkup => [.base .Org, .one .kind .kind .num]
  -- 3025
  | .Document => [
      .base .Org, .opt .title .title (.node .Paragraph), .opt .author .author (.node .Paragraph),
      .opt .creator .creator (.node .Paragraph), .rep .filetags .filetags (.node .HashTag),
      .opt .email .email (.node .RawText), .rep .language .language .str,
      .one .options .options (.node .DocumentOptions), .opt .exportFileName .exportfilename .str]
  -- 3065
  | .FileTarget => [
      .base .Org, .one .path .path .str, .opt .line .line .num, .opt .searchTarget .searchtarget .str,
      .one .restrictToHeadlines .restricttoheadlines .num, .opt .targetId .targetid .str, .opt .regexp .regexp .str]
  -- 3087
  | .TextSeparator => [.base .Org]
  -- 3095
  | .DocumentGroup => [.base .Org]
  -- 3140
  | .File => [
      .base .Org, .one .relPath .relpath .str, .one .absPath .abspath .str,
      .alts .data .data [(.document, (.msg .File_Document)), (.attachment, (.msg .File_Attachment)), (.source, (.msg .File_Source))]]
  -- 3170
  | .Directory => [.base .Org, .one .relPath .relpath .str, .one .absPath .abspath .str]
  -- 3182
  | .Symlink => [.base .Org, .one .isDirectory .isdirectory .num, .one .absPath .abspath .str]
  -- 3208
  | .CmdInclude_Export => [.one .language .language .str]
  -- 3216
  | .CmdInclude_Custom => [.one .blockName .blockname .str]
  -- 3224
  | .CmdInclude_Src => [.one .language .language .str]
  -- 3243
  | .CmdInclude_OrgDocument => [
      .opt .onlyContent .onlycontent .num, .opt .subtreePath .subtreepath (.msg .SubtreePath),
      .opt .minLevel .minlevel .num, .opt .customIdTarget .customidtarget .str]
  -- 3286
  | .CmdInclude => [
      .base .Org, .one .path .path .str, .opt .firstLine .firstline .num, .opt .lastLine .lastline .num,
      .alts .data .data [(.example_, (.msg .CmdInclude_Example)), (.export_, (.msg .CmdInclude_Export)), (.custom, (.msg .CmdInclude_Custom)), (.src, (.msg .CmdInclude_Src)), (.orgdocument, (.msg .CmdInclude_OrgDocument))]]
  | _ => []

/-- `EACH_ANY_NODE_PROTO_FIELD` – SemOrgSerdeDeclarations.hpp:5-80: the field of `AnyNode` for each kind of node. -/
def anyTable : List (PF × Ty) := [
  (.nonode, .NoNode),
  (.erroritem, .ErrorItem),
  (.errorgroup, .ErrorGroup),
  (.stmtlist, .StmtList),
  (.empty, .Empty),
  (.cmdcaption, .CmdCaption),
  (.cmdcreator, .CmdCreator),
  (.cmdauthor, .CmdAuthor),
  (.cmdemail, .CmdEmail),
  (.cmdlanguage, .CmdLanguage),
  (.cmdcolumns, .CmdColumns),
  (.cmdname, .CmdName),
  (.cmdcustomargs, .CmdCustomArgs),
  (.cmdcustomraw, .CmdCustomRaw),
  (.cmdcustomtext, .CmdCustomText),
  (.cmdcall, .CmdCall),
  (.cmdtblfm, .CmdTblfm),
  (.hashtag, .HashTag),
  (.inlinefootnote, .InlineFootnote),
  (.inlineexport, .InlineExport),
  (.time, .Time),
  (.timerange, .TimeRange),
  (.macro_, .Macro),
  (.symbol, .Symbol),
  (.escaped, .Escaped),
  (.newline, .Newline),
  (.space, .Space),
  (.word, .Word),
  (.atmention, .AtMention),
  (.rawtext, .RawText),
  (.punctuation, .Punctuation),
  (.placeholder, .Placeholder),
  (.bigident, .BigIdent),
  (.texttarget, .TextTarget),
  (.errorskiptoken, .ErrorSkipToken),
  (.errorskipgroup, .ErrorSkipGroup),
  (.bold, .Bold),
  (.underline, .Underline),
  (.monospace, .Monospace),
  (.markquote, .MarkQuote),
  (.verbatim, .Verbatim),
  (.italic, .Italic),
  (.strike, .Strike),
  (.par, .Par),
  (.radiotarget, .RadioTarget),
  (.latex, .Latex),
  (.link, .Link),
  (.blockcenter, .BlockCenter),
  (.blockquote, .BlockQuote),
  (.blockcomment, .BlockComment),
  (.blockverse, .BlockVerse),
  (.blockdynamicfallback, .BlockDynamicFallback),
  (.blockexample, .BlockExample),
  (.blockexport, .BlockExport),
  (.blockadmonition, .BlockAdmonition),
  (.blockcodeevalresult, .BlockCodeEvalResult),
  (.blockcode, .BlockCode),
  (.subtreelog, .SubtreeLog),
  (.subtree, .Subtree),
  (.cell, .Cell),
  (.row, .Row),
  (.table, .Table),
  (.paragraph, .Paragraph),
  (.colonexample, .ColonExample),
  (.cmdattr, .CmdAttr),
  (.cmdexport, .CmdExport),
  (.call, .Call),
  (.list, .List),
  (.listitem, .ListItem),
  (.documentoptions, .DocumentOptions),
  (.documentfragment, .DocumentFragment),
  (.criticmarkup, .CriticMarkup),
  (.document, .Document),
  (.filetarget, .FileTarget),
  (.textseparator, .TextSeparator),
  (.documentgroup, .DocumentGroup),
  (.file, .File),
  (.directory, .Directory),
  (.symlink, .Symlink),
  (.cmdinclude, .CmdInclude)]

end Verif.Proto

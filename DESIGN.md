# Formal model of haxorg in Lean 4

The model lives in `lean/Verif/`.  It is written by reading `/repo` (nothing of
the project is compiled or run).  Every definition that models code carries a
comment with the file and lines it models and what was simplified.

## Layout

One directory per area of the code base.  Each area has

* `Model.lean`  – the code, function by function, as total computable Lean
  functions.  Exceptions, undefined behaviour and non-termination are separate
  outcomes (`Except`, `Option`, or a fuel argument), never totalised away.
* `Spec.lean`   – small independent vocabulary in which the property is stated
  (when the property needs more than core Lean notions).
* `Lemmas.lean` – helper lemmas.
* `Props.lean`  – the property theorems and, beside each, a concrete
  non-trivial instance meeting its hypotheses.

Where the code violates a property the full property is stated as a definition
(`…Statement`), its negation is proved from a concrete witness, and the part
that does hold is proved in a theorem with suffix `_partial`.

## Trusted base

* Lean 4.33.0's kernel.
* Axioms: only `propext`, `Classical.choice`, `Quot.sound` (checked with
  `#print axioms` for each theorem named in MANIFEST.json).  No axioms are
  added; no `sorry`, `native_decide`, `bv_decide`, `implemented_by`.
* The hand translation from C++ into Lean (each definition cites its lines).
* Library behaviour assumed rather than modelled: `std::vector`, `std::string`,
  `std::unordered_map/set`, `immer` persistent containers, `boost::bimap` (used
  as finite sequences / maps / sets with their documented meaning);
  `std::sort` (only: result is *some* sorted permutation, when the comparator is
  a strict weak order).
* Not modelled at all: logging/tracing, formatting for humans, memory
  management, graphviz/Qt/python/wasm bindings, the bytes of protobuf and msgpack.

## What is modelled

| area | code in `/repo/src` | left out |
|------|---------------------|----------|
| `RangeTree` | `RangeTree.hpp`, `RangeSegmentation.{hpp,cpp}` | – |
| `NodeGroup` | `haxorg/parse/Node.cpp`, `NodeStore.hpp`, group building of `OrgParserUtils.cpp` | printing |
| `Outline` | `OrgParser::extendSubtreeTrails` and its helpers (`OrgParser.cpp:2589-2761`) | – |
| `Token`, `BaseLexer` | `base_token.hpp`, `base_token_tokenize.cpp` | the lexy patterns: an arbitrary matcher with stated facts |
| `Tokenizer` | `OrgTokenizer.cpp` 98-103, 572-1247, 1325-1340 (lines, groups, indentation) | trace output |
| `Recombine` | `OrgTokenizer.cpp` 106-566, 1341-1359 (kinds of markup characters, commands, quoted arguments) | trace output |
| `Pipeline` | `ParseContext.cpp` 255-287 (text → base tokens → tokens → parse tree) | fragments, callbacks, conversion to the sem tree |
| `Lexer` | `hstd` token `Lexer`, `getInside` | printing |
| `Parser` | `OrgParser.cpp` (block and inline parsers), `OrgParser.hpp`, `OrgParserUtils.cpp` | tracing |
| `Dod` | `dod_base.hpp`, `dod_base_intern.hpp`, `SourceManager`, `bimap_wrap.hpp`, packing of `ImmId` | – |
| `Diff` | `diffs.cpp`, `ShiftedDiff` of `diffs.hpp` | formatted output, `FuzzyMatcher` |
| `Strs`, `Base` | `strutils.cpp`, `Str`, `Span`, `Vec`, `Slice`, `IntSet`, `Time`, `basic_templates.hpp` (functions named in the comments) | the rest of these files |
| `Imm` | `ImmOrg.cpp`, `ImmOrgStore.cpp`, `ImmOrgEdit.cpp` 11-80, 210-269: store, conversion, edits, cascading, tracked parents, paths | the fields of the individual node kinds (a node has a kind, a payload and named child fields); tracking of names, ids, footnotes is in `Track` |
| `Radio` | `getSubnodeGroups`, `tryRadioTargetSearch` (`ImmOrg.cpp:1252-1458`, `SemBaseApi.cpp:474-588`) | hashtag flattening |
| `Select` | `ImmOrgEdit.cpp:311-585` | tracing |
| `MapGraph` | `ImmOrgGraph.cpp:63-224, 292-682` | how the unresolved links of one node are collected and which nodes a link names (an environment) |
| `Graph` | `hstd/ext/graph/base`: `graph_edge.{hpp,cpp}`, `graph_hierarchy.{hpp,cpp}`, `graph_port.{hpp,cpp}`, vertices and serialisation of `graph_base.cpp`, `UnorderedIncrementalStore` | the bytes of messages, layout, attributes, trackers; the hash of stable ids is an arbitrary function |
| `Layout` | `hstd/ext/textlayouter.{hpp,cpp}`: blocks, solutions, their combination, layout to text | `layoutCache` (never cleared), debug output; costs are over any arithmetic (C75) or exact rationals (C76) |
| `Sem` | `SemConvert.cpp` (conversion of paragraphs, markup, lists, headlines), `SemOrgFormat.cpp` (the same kinds), `ParseContext.cpp:255-300` | links, times, tables, blocks, commands, drawers, properties and logs of headlines; locations and parents of sem nodes |
| `Api` | `SemOrgApi.cpp:35-258`, `SemOrgSharedApi.cpp` (properties, attributes, attached lines, paragraphs, periods, clean text), `SemBaseApi.cpp:139-222, 308-470` | exports of attributes to numbers and booleans, ranges of lists of attributes, times are numbers |
| `Proto` | `serde/SemOrgSerde.hpp`, `serde/SemOrgSerde.cpp`, `serde/SemOrgSerdeDefinitions.cpp` (all functions), the members of `sem/SemOrgTypes.hpp`, `sem/SemOrgSharedTypes.hpp` | protobuf's own encoding; numbers, booleans and enumerators are one kind of value; times are seconds |
| `Serde` | `hstd/stdlib/JsonSerde.hpp`, `OptSerde.hpp`, `VariantSerde.hpp`, `MapSerde.hpp`, `SetSerde.hpp`, `IntSetSerde.hpp`, `hstd/ext/bimap_wrap_serde.hpp`, `imm/ImmOrgBaseSerde.hpp` | the text of JSON (nlohmann), conversions of floating point numbers, the order of unordered containers |
| `AstDiff` | `hstd/ext/astdiff/common.hpp`, `astdiff_eager.hpp`, `astdiff_eager.cpp`, `astdiff.hpp`, `astdiff.cpp` (tree, matching, changes), `haxorg/sem/SemAstDiff.cpp` (options and `getEdits` of immutable trees) | logging and printing; `getChange`; stores are finite trees with numbered nodes; costs are whole numbers |
| `Verif/Dir` | src/haxorg/api/ParseContext.cpp:293-556 (parseDirectoryOpts, parseFileWithIncludes, parsePathImpl, parseDirectoryImpl, parseFileImpl, postProcessFileReferences, resolvePath) | the file system and the parser are oracles that do not change during the run; std::filesystem path functions are modelled on POSIX paths as character lists; the texts of errors; logging |
| `Verif/Eval` | src/haxorg/api/EvalContext.cpp: `sliceJson`, `convertInput` (words, code, variables), `setOutput`, `evalAll` | traces, debug files, `getTargetBlock` and the lookup of values (`getAttrValue`), `convertOutput` (parsing the output) |
| `Demote` | src/haxorg/imm/ImmOrgEdit.cpp:82-208 (`demoteSubtree`), `SubtreeMove`, `newSubnodes`, `getParent`, `getAdjacentNode` | `promoteSubtree` is not implemented in the code; `moveSubnode*`; levels are unbounded |
| `Drawer` | src/haxorg/sem/SemConvert.cpp:662-905 (`convertPropertyList`), src/haxorg/sem/SemOrgFormat.cpp:1204-1398, property lines of base_token_tokenize.cpp:1088-1155 | values that are arguments or paragraphs; texts of dates and JSON are parameters; `stoi` without `errno` |
| `Track` | src/haxorg/imm/ImmOrg.cpp:609-750 (`updateTracking`), `Stmt_getName`, `getFootnoteName`, with `add`, `setNode` and the cascade of the Imm area | flattening of tag definitions (`getFlatHashes`); the order of the hash maps |
| `Stamp` | src/haxorg/sem/SemConvert.cpp: 165-250, 1028-1143; src/hstd/stdlib/Time.cpp: 42-82; src/haxorg/sem/SemOrgFormat.cpp: 26-31, 912-958; with the lexer and parser of `BaseLexer` and `Parser` | times given by code (`<%%(...)>`); named time zones; `cctz` is modelled by its documentation |
| `Verif/Log` | `convertSubtreeLog` (SemConvert.cpp:347-603), the part of `convertSubtreeDrawer` for logbooks, `Formatter::toString(SubtreeLog)` (SemOrgFormat.cpp:1410-1545) | times given by code, the statements after the first paragraph, how descriptions are laid out; reading is proved for the paragraph of an entry, whole documents are computed examples |
| `Link` | Links: SemConvert.cpp `convertLink`; SemOrgFormat.cpp writers of links and targets; documents of words and links from the text on | Markup inside of descriptions, attached properties, nodes of kind `RawLink`, the layout of long paragraphs |
| `Code (source blocks)` | SemConvert.cpp: convertBlockCode, convertAttrs, convertAttr; SemOrgFormat.cpp: toString(BlockCode); with the lexer, tokenizer and parser of the pipeline | results, arguments in lisp and ranges of cells, callouts; writing of arguments |
| `Raw` | `convertBlockExample`, `convertBlockExport`, `toString(BlockExample)`, `toString(BlockExport)`, with the lexer, tokenizer and parser of `Pipeline` | arguments of export blocks when written; anything else in the document |
| `Grid` | `convertTable`, `toString(Table)`, `toString(Paragraph)`, `toString(Link)`, with the lexer, tokenizer and parser of `Pipeline` | tables with arguments, `#+begin_table`, markup in cells; paragraphs of more than one line in the theorems |
| `Lists` | `convertList`, `convertListItem`, `toString(List)`, `toString(ListItem)`, `toString(Newline)`, with the lexer, tokenizer and parser of `Pipeline` | items with headers, attributes, items of more than one line or with other blocks in them (read by the model, not in the theorems) |
| `Fuzzy` | src/hstd/stdlib/diffs.cpp:724-924, diffs.hpp:582-642 (`FuzzyMatcher`) | the lifetime of the configuration of `getLinearScore`; overflow of scores |
| `Sets` | src/hstd/stdlib/IntSet.hpp, SetCommon.hpp, IntSetSerde.hpp; src/hstd/system/reflection.hpp:264-282 (`value_domain`) | inclusion of ranges; enumerations with negative numbers |
| `Term` | src/hstd/stdlib/ColText.cpp, ColText.hpp (`ColText`, `ColStream`, escape sequences, chunks for JSON, HTML) | `hshow`; numbers put into a stream; the text of the tags |
| `Comments` | src/haxorg/api/ParseContext.cpp:18-108, 157-241, src/haxorg/sem/SemConvert.cpp:2998-3023 | what a fragment adds to the options of the document; traces |
| `Keywords` | src/haxorg/sem/SemConvert.cpp:1379-1404, 2749-2995, src/haxorg/sem/SemOrgFormat.cpp:176-387, 745-795; names without another meaning through the lexer, tokenizer and parser | title, author, columns, file tags, properties, latex and other lines with a meaning of their own; text between the lines |
| `JsonText` | src/hstd/stdlib/Json.cpp | floating point numbers, binary values, texts that are not well-formed; `json::dump` is taken from its documentation |
| `Structural` | src/haxorg/imm/ImmOrgEdit.cpp:271-297, src/haxorg/imm/ImmOrg.cpp:411-423, src/haxorg/imm/ImmOrg.hpp:976-992 | which kinds are statements is a parameter |
| `Xml` | src/hstd/stdlib/Xml.cpp, src/hstd/stdlib/Xml.hpp | streams; attributes and subnodes of comments and character data |
| `Enumerate` | src/hstd/stdlib/Enumerate.hpp | iterators that are not random access |
| `Bits` | src/hstd/stdlib/strutils.cpp (565-622) | the bound of 64 bits |
| `Window` | src/hstd/stdlib/Span.hpp (moving a window), src/hstd/stdlib/algorithms.hpp (partition) | overflow of `int`; release builds without assertions |
| `Columns` | src/hstd/stdlib/strutils.cpp (624-690) | streams, overflow of `int` |
| `Trail` | src/hstd/stdlib/RecursivePathTracker.hpp | shared pointers, arithmetic of iterators |
| `Bimap` | src/hstd/ext/bimap_wrap.hpp | the maps of the library, hashes, the order of unordered maps, messages |
| `Report` | src/hstd/ext/error_write.cpp (704-746, 875-932, 1317-1373), error_write.hpp | margins, arrows, labels of many lines, colours, the cache of sources, reading of files |
| `Mkdir` | src/hstd/stdlib/Filesystem.cpp (58-89) | links, `.` and `..`, rights, other processes, messages |
| `Maps` | src/hstd/stdlib/Map.hpp, src/hstd/system/reflection.hpp (44-48) | the maps of the library, `operator[]`, adapters, messages |
| `Cache` | src/hstd/ext/error_write.cpp (1390-1410) | reading of files that fails |
| `Geometry` | src/hstd/ext/geometry/hstd_geometry.hpp (61-140, 327-435, 468-640), hstd_geometry.cpp (54-96) | rounding and infinities of `double`, polygons, JSON, `FromLimitBoundaries` |
| `Constraint` | src/hstd/ext/geometry/kiwi_ir.hpp, kiwi_ir.cpp (32-38, 127-226, 245-836) | rounding of `double`, strengths, the solver, `describe_edges`, text and pictures of layouts |
| `Picture` | src/hstd/ext/geometry/kiwi_ir.cpp (895-1060) | rounding of `double`, the texts, colours |
| `Fields` | src/haxorg/lexbase/AstSpec.hpp (21-138, 429-442, 643-726) | `validateAst`, `findMissing`, `resolveNodeFields`, messages |
| `Vecs` | src/hstd/stdlib/Vec.hpp (43-245, 295-345), src/hstd/stdlib/Array.hpp (34), src/hstd/stdlib/sequtils.hpp | `TypArray`, `Splice`, `SmallVec` (the same functions), hashes of vectors |
| `Agenda` | src/app/org_viewer/shared_org_logic.cpp, src/app/org_viewer/file_agenda_table.cpp (23-122) | the windows, `getOrgFileTimes` and the cache of times, colors and fonts of cells, reading of files |
| `Editor` | src/app/org_imgui/gui_lib/im_org_ui_common.{hpp,cpp}: `EditableOrgDocGroup` | widgets, `replaceNode` (edits of trees: `Imm`), the bits of `DocRootId` (`Dod`) |
| `TraceView` | src/app/log_viewer/trace_log_viewer.{hpp,cpp}: `build_event_hierarchy`, drawing of rows, `get_hierarchy` | cells, state rows, widgets, names of events (stored in the open frames and never compared) |
| `Tracer` | src/hstd/stdlib/TraceBase.{hpp,cpp}: messages, scopes, `scopeTrace` | location and layout of messages, streams, files beside the trace, stack traces |
| `Explorer` | src/app/org_imgui/gui_lib/dir_explorer.cpp: `from_dir`, `getFileNode` | inotify, widgets, contents of files (`ContentNode`), links, order of directory entries |
| `Logger` | src/hstd/ext/logger.cpp: stack of sinks, fields of metadata, `log_differential_sink` | formatters, filters, threads (each function is one critical section), `moved` scopes |
| `Attrs` | src/hstd/ext/graph/base/graph_attribute.hpp: `IAttributeObject`, `TrivialAttributeObject` | serial form, `getRepr`, trackers; classes are a relation |
| `CallGraph` | src/hstd/ext/log_graph_tracker.cpp: `graphviz_processor` | names with ` -> ` in them, signals and slots of Qt, the picture, other processors |
| `RenderTrace` | src/app/org_imgui/gui_lib/imgui_utils.cpp: `ImRenderTraceRecord` | functions, names and places of a record are one text; fonts and other functions of the file |

Not modelled: exporters, geometry, Python/wasm bindings, the bytes of protobuf messages and msgpack
serialisation, tracing and logging.

## Plan per property

| id | model | proof idea |
|----|-------|-----------|
| C01 | `buildRec` with fuel (C++ recursion), sort as arbitrary permutation | induction on fuel/length; the range owning the median endpoint stays in the node, so both recursive calls shrink; search-path argument for exactness |
| C02 | `annotateSequence` over C01's tree | loop invariant; negation: last one-element chunk is dropped |
| C03 | `IntSet` as bit vector of domain size N | refinement to `Finset`-like membership predicate |
| C04, C45 | `Id` on bit vectors of any width | div/mod arithmetic |
| C05 | `Store` as list | induction over history |
| C06 | `InternStore` as list + association map | invariant by induction over history |
| C07, C08 | `myersDiff` (frontier map, history) | furthest-reaching-path invariant |
| C09 | `levenshteinDistance` matrix + back-trace | DP table = recursive distance; script validity by induction |
| C10 | LCS matrix + back-trace | sound pairs proved; maximality fails (witness) |
| C11 | `ShiftedDiff` constructors | loop invariant |
| C12 | `validate_utf8` byte machine | equivalence with grammar by strong induction on length |
| C13 | `split`, `split_keep_separator` | induction; witness for trailing separator, empty delimiter |
| C14 | `Slice` | omega |
| C15–C17 | `NodeGroup` as list of nodes with extents + pending stack | forest encoding; builder invariant; parent() fuel model |
| C18–C20 | `to_lines`, `to_groups`, `rec_convert_groups` | list induction; stack invariant |
| C21, C58 | `textFold`, `parseText`, `parseParagraph`, top loop (`Parser/Inline`, `Parser/Block`) | inductive grammar of markup (`MarkupSpec`); every text has a reading; the fold computes it (big-step lemmas) |
| C22 | `extendSubtreeTrails` over the flat node list | forest rebuild |
| C23, C24 | `Lexer`, `getInside` | list induction |
| C25–C28 | intern store, sem/imm conversion, `setNode`, `recurseUpdateSubnodes`, `setNewSubnodes` (`Imm/Model`) | `Reads` relation between ids and documents, monotone in the store; every operation is a sequence of stored values (`Evolves`); recursion on the document for cascading |
| C29 | edit operations | list lemmas; a changed list changes the interned id |
| C30, C31 | parent-tracking map and path enumeration | invariant over histories (`Sound`, `ExactBut`); induction from the top of the store for paths |
| C32 | `getSubnodeGroups`, `tryRadioTargetSearch` (`Radio`) | list induction on the children left |
| C33 | id packing | arithmetic |
| C34 | `MapGraphState::addNode` | invariant over insertion sequences |
| C35 | saturating arithmetic | omega |
| C36, C61 | `recMatches`, `getMatches`, the ready-made checks (`Select`) | induction on conditions and tree; with a visited set: visited positions are closed under parents and all chains from them are reported (`Covers`) |
| C37 | `SourceManager` | invariant over histories |
| C38, C39 | string utilities | induction |
| C40 | time equality | witness (minute is not compared) + partial |
| C41 | `rec_convert_groups` for list groups | stack invariant; witness for an item left of the first one |
| C42–C44 | the whole base lexer (`base_token_tokenize.cpp`), lexy patterns as an arbitrary matcher with a few stated facts and one concrete matcher | step relation `Tiles` (new tokens = consumed text) composed through all branches |
| C46–C50 | strip, alignment, `wrap_text`, `format_integer_bits`, `escape_for_write` | list induction, loop invariant; witnesses |
| C51, C52 | `getSpan`, `at(HSlice)` of vectors and strings; `itemwise_less_than` | case analysis; witnesses |
| C53 | line kinds, grouping and indentation stack on list items | induction over a forest of items; the stack is the list of open levels |
| C54 | lookahead of `Lexer` and `SubLexer` (same model as C23) | the tokens still to be read as a list; witness for non-consecutive selections |
| C55, C56, C59 | all parse functions of OrgParser.cpp in a state/failure/exception monad | compositional invariant `GoodFrom` (nodes appended form a forest, cursor advances, leaves in order), proved for every function |
| C57 | `parseFull` = parser + outline pass | C55/C56 give the hypotheses of C22; witness for headlines inside of quotes |
| C60 | parser with fuel | total correctness for text documents; non-termination proved for all fuel |
| C62 | `IEdgeCollection`, `TrivialEdgeCollection` with association lists | invariant over histories (`Run`): incidence lists hold each live edge once under its ends |
| C63, C64 | `IVertexHierarchy` with an arbitrary hash of stable ids | invariant over histories; parent chains exist and are unique, so removal collects exactly the subtree |
| C65, C66 | `getCrossings`, `getParentChain`, `getCommonAncestor` with fuel | ancestor lists of two vertices share exactly a suffix; exact result of each loop on such lists |
| C67 | `IGraph::trackVertex/untrackVertex` over any list of collections and hierarchies | invariant; witness for the order of removal |
| C68 | `IPortCollection` | ghost history of owners and connections, exact agreement of every query |
| C69 | `AutoSegmentingCollection` over the models of C62, C65, C68 | loop invariant over windows of the path; sorted permutation of distinct indices is unique |
| C70 | `Recombine.recombine`: the state machine over the tokens with one token of look-back | induction on the fuel against the relation `Kept` (one constructor per permitted change) |
| C71 | the same | streams without commands: equal to a function of the neighbours (`byNeighbours`); counterexamples by evaluation |
| C72 | the same, exceptions as outcomes | only `out_of_range` can occur; regular streams return, by induction along suffixes |
| C73 | `Pipeline.parse` = lexer, tokenizer, parser one after another | composition of C42, C20, C70, C55; the kinds of base tokens are an invariant of the lexer |
| C74 | `Pipeline.parse` on the text of a list of pieces (`ProseSpec.lean`) and of a tree (`TreeSpec.lean`) | one step of the lexer per piece, no structure for the tokenizer, C71 for the kinds, C21 for the tree; induction over the tree |
| C75 | `Layout.toString`: solutions as lists of entries over an arbitrary arithmetic | relation `Shows` between blocks and pictures; every entry of every solution holds a layout of such a picture, by induction on blocks and on the loops |
| C76 | the same with exact rationals; loops with fuel, `diverges` as outcome | invariant: the entries of a solution cover all margins, costs are at least those of the end of the line; the margin grows in every round and stays below the right margin |
| C77 | `Sem.format`: blocks for all nodes, then `Layout.toString` with exact rationals | the block of a node is a stack of the lines of the node (`lines` in Spec.lean), with C75 and C76 for fixed blocks; texts by induction on nodes |
| C78 | `Sem.resave` = parse, outline pass, conversion, format | C74 gives the tree, the conversion is a map on trees without headlines, the visible characters of the lines are those of the leaves |
| C79 | the same | for tidy documents the lines of the tree, joined, are the document: induction over the grammar of paragraphs |
| C80 | `Sem.load` on `Outline.chunks`: lexer, recombination, parser, outline pass, conversion | the lexer and the recombination on the written chunks (`OutlineLex`), the parser with its own small logic of consumed tokens (`Parser/Does`, `Parser/Head`), then the outline pass and the conversion; nesting by takeWhile/dropWhile on levels |
| C81 | `Sem.resave` on outlines | C80 and C77; the visible characters of the lines of each entry are those of the entry |
| C82 | the same | for neat entries the lines, each with a line break, are the written entries |
| C83, C84 | attribute groups and their reading (`Api/Attr`) | invariant of the reading loop (`Holds`): every name maps to the attributes that belong to it |
| C85, C86 | properties of subtrees and of chains of subtrees (`Api/Attr`) | case analysis over the kinds; fold over the chain with the last filled list as specification |
| C87 | `HashTagText` (`Api/HashTag`) | mutual structural induction; walks as specification |
| C88 | attached lines, statements, commands (`Api/Stmt`) | C83 and list lemmas |
| C89 | lead nodes and body (`Api/Lead`) | list induction |
| C90 | `eachSubnodeRec`, `getCleanText` (`Api/Clean`) on the sem nodes of `Sem` | mutual induction; with C80 for titles read from a file |
| C91 | `getTimePeriods`, `getCreationTime` (`Api/Period`) | list lemmas |
| C92 | `getSubnodeGroups` of the mutable tree (`Radio/Sem`) | the loop of C32 with its bounds check; induction on the subnodes left; agreement with C32 step by step |
| C93 | `getAstTrackingMap` (`Api/Track`) | mutual induction over the tree: what each node adds to each map (`Adds`) |
| C94 | list editing (`Api/Lists`) | list lemmas |
| C95 | `newSemTimeStatic`, `getBreakdown` (`Api/NewTime`), with the normalization of `cctz::civil_second` | case analysis over the parts given |
| C96 | tables of the members and of the 200 generated pairs of functions `write`/`read` (`Proto/Tables`, extracted from the sources), an interpreter of their statements (`Proto/Model`) | the three tables agree (checked per class by the kernel), one message by two folds, values by induction over their typing |
| C97 | the specializations of `JsonSerde` as cases over a type of types (`Serde/Model`), described records by number so that they may be recursive | induction over the typing of a value, with the number of recursive calls as a bound that is chosen last |
| C98 | the same functions on arbitrary JSON values | induction over the bound, for any set of types closed under parts |
| C99 | `getEdits` over trees with numbered nodes, the recursion bounded by the height of the source (`AstDiff/EagerModel`); what edits mean is a separate function from the source tree and the edits (`AstDiff/EagerSpec`) | the loop over the destination subnodes as a relation (each is inserted or matched with an unused subnode); induction over the height with the edits of a pair being the ones that mention nodes below it |
| C100 | the same | the only candidate for the subnode at an index is the one at the same index |
| C101 | `SyntaxTree` as the list of nodes made by the preorder visitor, both phases of `ASTDiff`, the candidates and the algorithm of Zhang and Shasha with its tables and its way back (`AstDiff/TreeModel`); loops have a number of turns | the nodes are the preorder list with ranges of descendants (`Flat`); linked nodes of the first phase are whole subtrees (`TreeTop`); the way back stays inside of the table and a forbidden pair costs more than everything else (`TreeZs`, `TreePost`) |
| C102 | `computeChangeKinds` as four folds | each pair is marked once in the last loop; the breadth first order lists every node once (`TreeBfs`, `TreeChanges`) |
| C103 | `findPositionInParent` with shifts | positions are numbers of unshifted siblings before the node; without moves both lists of paired siblings have the same positions (`TreeOrder`, `TreeChanges`); the general claim is refuted by a computed example |
| C104 | the same | equal trees have equal nodes up to numbers; the first phase links all of them at once; in the second one the diagonal of the tables is zero and the way back stays on it (`TreeSame`) |
| C105 | `getEdits` of `ImmNodeDiff` with an out of range index as a failure (`AstDiff/ImmModel`) | refuted by a computed example; for equal trees from C104 |
| C106 | `Verif/Dir`: the file system as oracles, paths as character lists, parsing with bounded recursion | Lemmas.steps: what one call adds to visited and parsed; `parse_once`, `parseFileOnce_false` |
| C107 | as C106 | `reachable_once`: visited is closed under reachability; Count.counts: documents in the result = documents parsed |
| C108 | as C106 | Halt.halts: measure of unvisited paths of a closed finite set; `parseReturns_false`: the run of `./a.org` |
| C109 | as C106 | `resolves`: the visited document without includes is the parsed one with resolved links; witnesses for nested includes |
| C110 | `Verif/Eval/Model.lean`: `evaluate` over the model of the immutable store (`Verif/Imm`): blocks collected once, `setOutput` with the replacement keyed by the first root, `cascade` | invariant of the loop: before the first change the version stands for the document, after it for the document with that one result (replacements keyed by another root match nothing); counterexample with two blocks |
| C111 | the same; `collect` over the store | induction over the document: the collected positions are those of the blocks in preorder, without repetition |
| C112 | `sliceJson` over the JSON values of `Verif/Serde` | the recursion by index paths equals taking the parts level by level; counterexample with rows of different lengths |
| C113 | `flags`, `tangledCode`, `argList`; names and values of variables are parameters | inductions over the lists; counterexample: default without name |
| C114 | `demoteVersion`: `aux`, `reparent`, `physical` and the cascade of the Imm area; the document as the list of its lines with levels | invariant of the edits over the recursion; cascade of edits below one node; the lines of a tree with one part replaced; nesting from levels; counterexamples for each kind of move |
| C115 | `writeBody`: the lines of the formatter; `readBody`: the kind of each line from the lexer model, then the conversion; time and JSON texts as parameters | round trip per kind of property; lines of the body; per kind which shapes the reader gives at all |
| C116 | as C115 | the values the reader gives have the form required by the round trip; counterexample |
| C117 | `readLine`, `readLines` | names up to spelling, values up to spaces; induction over the lines |
| C118 | `Verif/Track/Model.lean`: `updateTracking`, `addTree` with the names; `Names` as maps; names of nodes specified by an inductive relation (`Named`) | adding a document as a list of events, one for each of its nodes; invariant of the maps over the events |
| C119 | `setNode`, `recurse`, `cascade` with the names; versions and histories as inductive relations (`Work`, `NewVersion`, `History`) | a new version as a list of events, each of them at the position of an affected node; what is made is in the new version, what is removed has been replaced at its position; counterexamples computed |
| C120 | `Verif/Stamp/Model.lean`: `ConvertToTimeZone`, `ParseUserTime`, `convertTime`, `convertTimeRange` on the nodes of the parser of `Parser` and the tokens of `BaseLexer`; `cctz::parse` by its documentation; documents and what they say in `Verif/Stamp/Spec.lean` | each part of a timestamp through the lexer, the recombination of tokens and the parser; induction over the items of the document; then the texts of the tokens in the nodes |
| C121 | as C120; `Stamp.Real` is the calendar | the formats of `ParseUserTime` one by one on a date and a time of two digits each |
| C122 | `UserTime::format`, `Formatter::toString(Time)` (`Verif/Stamp/Model.lean`) | what is written is the text of a timestamp (`canon`), then C121; counterexamples computed |
| C123 | `FormatTimeDelta` (`Verif/Stamp/Model.lean`) | division with remainder |
| C124 | `convertSubtreeLog` on the result of lexer, tokenizer, parser and the conversion of leaves and times (`Verif/Log/Model.lean`) | the nodes of an entry from the theorem on documents with timestamps (C120), then the search for names and times after a word, case by case; counterexamples computed |
| C125 | `Formatter::toString(SubtreeLog)` (`Verif/Log/Model.lean`) | what is written is the text of an entry with the timestamps of C122, then C124 |
| C126 | `convertSubtreeLog` with its exceptions (`Verif/Log/Model.lean`) | case analysis on the words of the first line; the search after a word against its declarative description (`FoundAfter`) |
| C127 | `convertSubtreeLog` and `Formatter::toString(SubtreeLog)` (`Verif/Log/Model.lean`) | induction on the number of rounds: the first line is the same, the number of words doubles |
| C128 | the same | the head depends only on the words of the first line |
| C129 | the end of `convertSubtreeLog` (`Verif/Log/Model.lean`) | lists cut at the first double backslash |
| C130 | `Verif.Link`: conversion of links on top of the lexer and the parser; a specification of how links are written | Units of the lexer for each kind of link, the parser run on the tokens with its sub-parsers for targets and descriptions, conversion of the nodes; induction over the items of the paragraph |
| C131 | The writer of links, and the item that is written for each item | The text that is written is again a paragraph of the specification, for which C130 holds; witnesses for the two defects |
| C132 | As C130, with any protocol | As C130; witness for the lost target |
| C133 | `Verif/Code`: lexer, tokenizer and parser of `Verif.Pipeline`, `convertBlockCode` and `convertAttrs` | each stage on a document of blocks: one step of the lexer for each piece, groups and indentation, parser by induction on lines and arguments, conversion of the nodes |
| C134 | the formatter of blocks, on the layout engine of `Verif.Layout` | lines of the layout; the written text is a document of blocks in a normal form, then C133 |
| C135 | as C133 | any line is cut in pieces, then C133; counterexample by evaluation |
| C136 | `Raw/Model.lean`: lexer, tokenizer and parser of `Pipeline`, `convertBlockExample`, `convertBlockExport` | text of a document of blocks (`Raw/Spec.lean`) → lexemes → lines and groups → tokens → nodes → blocks, each by induction over lines and blocks |
| C137 | as C136, and the two writers on the layout engine of `Layout` | the layout prints the lines (`Raw/Again.lean`); the printed text is again a document of blocks, so C136 applies |
| C138 | as C137 | as C137; the number of lines by induction over the rounds |
| C139 | `Grid/Model.lean`: lexer, tokenizer and parser of `Pipeline`, `convertTable` | text of a document of tables and paragraphs (`Grid/Spec.lean`) → lexemes (`Lex.lean`) → nodes (`Parse.lean`) → tables (`Convert.lean`), each by induction over lines, cells and items |
| C140 | as C139, and the writers of tables, paragraphs and links on the layout engine of `Layout` | each row is a single line of the layout, and not larger than its text; the layout prints the lines (`Grid/Again.lean`) |
| C141 | as C140 | the printed text with a final line end is the text of a canonical document, which is valid, so C139 applies |
| C142 | `Lists/Model.lean`: lexer, tokenizer (with the indentation groups) and parser of `Pipeline`, `convertList`, `convertListItem` | text of a tree of items (`Lists/Spec.lean`) → lexemes and indentation tokens (`Lex.lean`) → nodes (`Parse.lean`) → items (`Convert.lean`), each by induction over the tree |
| C143 | as C142, and the writers of lists, items, paragraphs, line breaks and links on the layout engine of `Layout` | the picture of an item is its lead with the picture of its body beside it; the spaces of empty lines are stripped (`Lists/Again.lean`) |
| C144 | as C143 | the printed text with a final line end is the text of a canonical tree, which is valid, so C142 applies |
| C145 | `fuzzy_match`, `fuzzy_match_recursive` as recursion over the string with the counter of the calls | induction over the string: an invariant of the loop that says which positions were found and what the branches found |
| C146 | as C145 | the loop with unlimited calls is the maximum over all matches; the calls are counted by 2 to the length of the string |
| C147 | as C145, with `getLinearScore` | from C145; the score of a match is bounded below by the length of the string |
| C148 | `IntSet` as bits, `value_domain::ord` as a search in the list of enumerators, the operators | induction over how the set was made: bit k says whether the enumerator at k is a member |
| C149 | as C148, and the iterator as its loops | the loop visits the positions of the bits in increasing order; with C148 |
| C150 | as C149, and the names of the enumerators | induction over the names that are read |
| C151 | `to_colored_string`, `ansiDiff`, `ansiEsc` as functions to characters; specification: a terminal as a state machine over the characters | every escape sequence leaves the terminal in text mode without writing; induction over the runes |
| C152 | as C151 | invariant: the rendition of the terminal is the one for the style of the last rune |
| C153 | the loop of `to_formatting_json` | induction over the runes with the style and text collected |
| C154 | the loop of `to_colored_html` as a list of tags and texts; specification: a stack | invariants: the font tag is open if a colour is set; one tag for each style that is set |
| C155 | `ColStream` with its active style, buffer and output | cases of the operations; induction over them; C152 for the parts |
| C156 | `split`, `join`, `leftAligned`, `rightAligned`, `write_indented_after_first` | induction over the text |
| C157 | `Net` with the writers and readers of graphs on messages as structures (`Graph/SerialModel.lean`) | the place of a vertex in the sorted list is its new id; induction over the vertices read |
| C158 | the same, with the collections of `EdgeModel` | induction over the edges read; the ids of the edges that are read are below their number |
| C159 | the same, with the hierarchies of `HierModel` | induction over the parents and sub-vertices read; consistency of hierarchies (C63) |
| C160 | the same | immediate from the model |
| C161 | `extractCommentBlocks` as its loops (`Comments/Model.lean`); specification: maximal blocks of lines | loop invariant: the closed blocks are those that end before the line, and the open one |
| C162 | the same | as C161, with the texts collected; splitting what was joined |
| C163 | the same | as C162 for the first line |
| C164 | `parseStringOpts` with fragments, the parser as a parameter | induction over the fragments |
| C165 | keyword lines through lexer, tokenizer, parser and `updateDocument` (`Keywords/Model.lean`); specification: entries with words | the text is followed through all stages; then induction over the lines |
| C166 | the same, `convertDocumentOptions`; specification: the last value for each key | as C165; what a list of items changes composes |
| C167 | the same | as C165 |
| C168 | the same, and the formatter of a document | the text that is written is the text of other entries, to which C165-C167 apply |
| C169 | `to_compact_json`, with any sizes and any order of the fields (`JsonText/Model.lean`); specification: a reader of the JSON grammar | mutual induction over the value: what is written is read with enough steps; fields in any order give the same object |
| C170 | `filterFields`; specification: the value at a path | induction over the path |
| C171 | `moveSubnodeStructural` over the model of the immutable store (`Structural/Model.lean`); specification: the first place in the direction that is no space | induction over the loop, then C29 for the exchange |
| C172 | trees and `serialize_impl` (`Xml/Model.lean`); specification: a reader for XML 1.0 (`Xml/Spec.lean`) | what is read from the text of a node before any rest is its item; induction over the tree |
| C173 | `set_attr` (`Xml/Model.lean`); specification: lookup, the list of names | induction over the attributes |
| C174 | `enumerator` and its iterator (`Enumerate/Model.lean`); specification: the elements and their positions | induction over the rest of the sequence |
| C175 | `next` and `prev` (`Enumerate/Model.lean`); specification: the neighbour at an offset | case analysis over the bounds; witnesses |
| C176 | `format_integer_bits` (`Bits/Model.lean`); specification: a number read from its digits, where marks are | induction over the digits |
| C177 | `moveStart`, `moveEnd`, `clampSize` (`Window/Model.lean`); specification: the positions a window covers | linear arithmetic; witnesses |
| C178 | `partition` (`Window/Model.lean`); specification: windows one after the other with values | induction over the rest of the sequence with the current window |
| C179 | `format_table` (`Columns/Model.lean`); specification: smallest widths, heights, what stands at a column of a line | induction over the columns and the rows; a witness |
| C180 | `RecursivePathTracker` (`Trail/Model.lean`); specification: a list | induction over the history |
| C181 | the wrappers of maps (`Bimap/Model.lean`); specification: a function from keys to values | invariants of reachable maps, by induction over the history |
| C182 | `StableNto1Bimap` (`Bimap/Model.lean`); specification: the list of keys | the invariants of C181 |
| C183 | `Source`, `get_offset_line` (`Report/Model.lean`); specification: how many line ends are before an offset | induction over the lines; witnesses |
| C184 | `get_line_range` (`Report/Model.lean`) | from C183; a witness |
| C185 | `get_source_groups` (`Report/Model.lean`); specification: filters of the list of labels, smallest spans | induction over the labels |
| C186 | `collect_inline_labels` (`Report/Model.lean`) | from C183; witnesses |
| C187 | `createDirectory` on a disk, a function from paths to what is there (`Mkdir/Model.lean`) | induction over the names of the path; witnesses |
| C188 | `MapBase` (`Maps/Model.lean`); specification: a function from keys to values | simulation, by induction over the history |
| C189 | `std_kv_tuple_iterator_hash` (`Maps/Model.lean`) | maps with the same pairs are permutations of each other; a sorted list is determined by its elements |
| C190 | `StrCache` (`Cache/Model.lean`); specification: the list of the accepted sources | simulation, by induction over the history; witnesses |
| C191 | `Rect::extend` (`Geometry/Model.lean`), with the conversions to `int`; specification: the smallest box with some points in it | order of rational numbers; a witness |
| C192 | `Rect` (`Geometry/Model.lean`); specification: the points in a box | arithmetic of rational numbers |
| C193 | `Path` (`Geometry/Model.lean`); specification: relations for the last command and the begin of the last subpath | induction over the commands; a witness |
| C194 | `fold_expr`, `to_kiwi` (`Constraint/Model.lean`); specification: the value of an expression, and where a product of variables is in it | structural induction |
| C195 | the `build` functions (`Constraint/Model.lean`); specification: the places of anchors | induction over the boxes; arithmetic of rational numbers |
| C196 | the constructors and `build` functions (`Constraint/Model.lean`) | induction over the boxes |
| C197 | `sort_rectangles_for_svg` (`Picture/Model.lean`), with the sorts of the library as relations; specification: the points inside boxes | every edge goes along one linear order, so there is no cycle; arithmetic of rational numbers |
| C198 | the size of the picture (`Picture/Model.lean`) | induction over the boxes; a witness |
| C199 | `AstRange`, `getSingleSubnode`, `getMultipleSubnode` (`Fields/Model.lean`); specification: the positions in a range | case analysis; induction over the positions; a witness |
| C200 | `fieldName` (`Fields/Model.lean`) | induction over the fields; a witness |
| C201 | `IndexedBase`, `Array::has` (`Vecs/Model.lean`); undefined behaviour is an outcome | case analysis of the position; a witness |
| C202 | `resize_at`, `pop_back_v`, `push_back_idx`, `insert`, `indexOf` (`Vecs/Model.lean`) | lists before and after a position; induction for `indexOf`; a witness |
| C203 | loops over `EnumerateState` (`Vecs/Model.lean`), with the iterator in the object | induction over the elements; a witness |
| C204 | `buildAgendaTree`, `getRecursiveCompletion` (`Agenda/Model.lean`); specification: the keywords of a tree in order | mutual induction over trees |
| C205 | `getClockPeriods`, `getClockedSeconds` (`Agenda/Model.lean`) | mutual induction over trees; a witness |
| C206 | `getAgeDisplay` (`Agenda/Model.lean`); specification: the greatest unit in a number of seconds | induction over the units |
| C207 | `filterAcceptsRow` (`Agenda/Model.lean`) | the counts of C204; witnesses |
| C208 | `lessThan`, with a stable sort (`Agenda/Model.lean`) | the comparison is total and transitive; sortedness of the sort |
| C209 | `EditableOrgDocGroup` (`Editor/Model.lean`); specification: what each step makes of a tree, one after the other | invariant: each version is linked to the next one; induction over the steps of the user and of `migrate` |
| C210 | `migrate` with a version, `getLatest`, `resetWith` (`Editor/Model.lean`) | the same invariant; witnesses |
| C211 | `build_event_hierarchy` on kinds of events, drawing as a big-step relation (`TraceView/Model.lean`) | invariant: the open spans are a path of last children, so a new event is drawn after all others; induction over the events |
| C212 | the same; specification: number of open spans after a prefix, the innermost open span | invariant on the stack and the tables, induction over the events |
| C213 | `get_hierarchy` with the static object as a slot (`TraceView/Model.lean`) | witness with two viewers |
| C214 | `OperationsTracer` and programs of messages, scopes and exceptions (`Tracer/Model.lean`); specification: messages with the number of scopes around them | mutual induction over programs |
| C215 | the events of the tracer, and the viewer of `TraceView` | mutual induction over programs: a part of a program is balanced; C212 |
| C216 | the tracer with the trace off | mutual induction for text; witness for structured traces |
| C217 | `from_dir` on trees of entries (`Explorer/Model.lean`); specification: org files at paths in directories that are not hidden | mutual induction over entries and lists of entries; witness for hidden directories |
| C218 | `getFileNode` on sequences of calls (`Explorer/Model.lean`) | induction over the calls; witnesses |
| C219 | `log_sink_manager` and programs of pushes, pops, scopes and exceptions (`Logger/Model.lean`) | invariant: the sinks are those a synchronisation would give; mutual induction over programs |
| C220 | `metadata` with a field (`Logger/Model.lean`) | induction over the fields; witness |
| C221 | the destructor of `log_differential_sink` on lists of lines (`Logger/Model.lean`) | induction over the runs; witness |
| C222 | lists of attributes with dynamic types, `getUniqueAttribute`, `getOptionalAttribute`, `getAllAttributes` (`Attrs/Model.lean`) | induction over the list, with the variable of the loop |
| C223 | `addUniqueAttribute`, `addOrResetUniqueAttribute` (`Attrs/Model.lean`) | witnesses; what is done instead, for all lists; induction over added attributes |
| C224 | `graphviz_processor` on programs of calls, scopes and jumps (`CallGraph/Model.lean`) | induction over programs: what a part adds to an edge; witness with a jump |
| C225 | nodes and clusters of `graphviz_processor` (`CallGraph/Model.lean`) | invariant: what is on the stack has a node; induction over programs; witness |
| C226 | `ImRenderTraceRecord` on frames of windows and items (`RenderTrace/Model.lean`) | induction over frames, for any window on top of the stack |

Status and disagreements found between the code and the properties are recorded
below as they are proved.

## Disagreements between code and properties

Each of these is a theorem with a concrete witness; the part that holds is the
`_partial` theorem beside it.

* **C01** the sort comparator of the range tree answers "less" for two equal
  slices, which is undefined behaviour (`rangeTree_exact_false`); a slice with
  `last < first` makes construction recurse forever.
* **C02** the last chunk is dropped when it is one element long
  (`RangeSegmentation.cpp:83`, `<` instead of `<=`).
* **C16** the parent lookup never advances over a node without subnodes
  (`Node.cpp:82-91`), so it hangs for most nodes.
* **C41** a list item indented less than the first item of its list is emitted
  outside of the list's start/end tokens (`OrgTokenizer.cpp:1113-1135`).
* **C43** the lexer hangs on `#+name: :` at the end of the text, fails an
  assertion when the text ends in a word `h`, in a time or in a four-byte
  character, terminates the process on a source block that is not closed and
  reads an empty optional on a `[[file:` link that is not closed.
* **C44** an indented table rule takes the indentation's number of characters too
  many (`base_token_tokenize.cpp:1098`).
* **C04, C45** an id type without mask bits cannot be built with
  `FromMaskedIdx` (assertion) and its mask cannot be read (shift by the full
  width); `++` on the last id changes the mask; `setUnmasked` moves the mask into
  the index part.
* **C05** `Store::at` converts the index to `int`, so an id with index 2^32 reads
  element 0 although `contains` denies it; `Store::insert` past the end does
  nothing.
* **C06** (outside of the claim) `InternStore::insert` leaves the old value
  registered (`intern_insert_false`).
* **C33** `getNodeIndex` gives the index plus one; a default constructed id is not
  nil.
* **C35** `saturating_add` with a negative change gives the largest value; with a
  change of a wider type it wraps; for signed types it overflows before
  checking.
* **C10** the alignment found so far is thrown away when the backtracking reaches
  a prefix without matches (`diffs.cpp:43`, `:71-77`): `[1,0]` and `[2,0]` give the
  empty alignment.
* **C11** a replacement in an edit script pushes only the old line
  (`diffs.cpp:293-297`), so the replacing line of the target is not listed.
* **C13** `split(str, char)` loses a separator at the end (`std::getline`);
  `split(str, "")` never returns.
* **C39** `Str::replaceAll("")` never returns (`replace_all` has a guard).
* **C47** padding after a truncated UTF-8 sequence counts as part of it.
* **C48** `wrap_text` counts a space for every word including the first of a line
  (`strutils.cpp:389`), so `a b` is broken at width 3.
* **C50** `escape_for_write` does not escape the backslash.
* **C03** `IntSet` of a signed integral type rejects negative members; iteration
  over a set of enumerators makes them from bit positions, so enumerations with
  gaps or not starting at zero yield wrong values (`IntSet.hpp:24-27`).
* **C14** `overlap` uses `<` (`Slice.hpp`), so slices sharing exactly one point do
  not overlap; `narrow` to a disjoint slice changes nothing; `sliceT<char>()`
  throws because `char(255)` is -1.
* **C40** `UserTimeBreakdown::operator==` does not compare the minute.
* **C51** vector parts with positions in the wrong order become views with a size
  close to 2^64; `Str::at(HSlice)` passes the end position as the length.
* **C52** `itemwise_less_than` answers true as soon as any item is less, so it is
  neither asymmetric nor transitive.
* **C24** `getInside` counts a run of openers (closers) as one bracket: for `(a (b))` the final `)` is returned with the content and the search goes on to the end of the stream. An opener without closer returns everything to the end; an opener run at the very end throws.
* **C54** `SubLexer::tok(offset)` reads the group at `pos + offset`, not the selection: for a sub-lexer over tokens 1 and 3, `at(kind, 1)` looks at token 2.
* **C57** A headline inside of a quote block takes everything up to the next headline, also what follows the quote; the final check of `extendSubtreeTrails` (`assertValidStructure`) then fails.
* **C58** `*a /b*` is not bold: the unclosed `/` is the innermost open markup when `*` comes (textFold's `_end` only looks at `pending()`).
* **C59** `parseSymbol` pops the content of `[` without checking for the end; the leaf has the nil token.
* **C60** `textFold` calls `parseLink` for a `LinkProtocol` token; it fails without reading, and the loop never ends. Exceptions: `[fn::]` and other empty selections (`SubLexer::start`), `{{{a b}}}` (assertions of `parseMacro`), `#+` or an indentation at the end (`lex.kind(+1)`, `lex.tok()`). Further endless loops seen when reading, not proved: `parseLink` default case and the table cell loop at the end of input, `parseAngleTarget` on nested `<<`.
* **C25** Interning ignores locations (`ImmOrgHash.cpp:29-42`): a document that is equal to a stored one reads back with the locations of the stored one.
* **C28** The updated children are sorted by field name with `std::sort` (`ImmOrgStore.cpp:137-149`), which need not keep the order within one field; vectors are then overwritten in the order found.
* **C29** `setSubnodes` asks for the value of the replacement (`ImmOrgStore.cpp:52`), which is missing when the list does not change; `setSubnode`, `insertSubnode`, `dropSubnode`, `swapSubnode` pass positions out of range to `immer` without a check.
* **C30, C31** An update removes the replaced node from the parents of its children (`ImmOrg.cpp:559-572`) although the same node may occur elsewhere: of two equal paragraphs one is edited, the children of the other one lose their parent and their paths.
* **C32** `tryRadioTargetSearch` reads `sub.at(groupingIdx + sourceOffset)` (`ImmOrg.cpp:1267-1269`), which throws for a paragraph that ends with the beginning of a tracked target of several words.
* **C36** `recMatches` (`ImmOrgEdit.cpp:351-466`) does not look for matches inside a match; after a direct or field link it goes on to deeper nodes when the child does not match; with indirect links nodes may come out of document order.
* **C61** `searchSubtreeId` (`ImmOrgEdit.cpp:525-556`) tests `maxLevel` the wrong way round: without a level it reads the missing value and throws on every subtree, with a level it ignores it.
* **C34** `addNode` (`ImmOrgGraph.cpp:192-224`) drops links: the set of edges already made (`MapEdge` ordered by `ImmUniqId`, `ImmOrg.hpp:204-207, 244`) treats all nodes of one document as equal, so one insertion adds at most one edge per document and the other links it completes are lost; a link to several positions is forgotten after the first one is there; a second node with equal content throws because vertices are keyed by the printed node id.
* **C62** `untrackEdge` (`graph_edge.cpp`) erases every occurrence of the source from the incoming list of the target, so a parallel edge is lost from `getIncoming` and survives the removal of its target; `source_target` and `stableIdMap` are not cleared, so `isTrackingEdge` throws for a removed edge and adding it again fails an assertion; `getInNodes` asks for the targets of the incoming edges (`graph_edge.cpp:168-173`); `IdOnlyEdgeCollection::trackEdge` dereferences the null edge object.
* **C63** `trackSubVertexRelation` does not look for cycles: 1 below 2 and 2 below 1 are both accepted.
* **C64** The edge of a removed relation stays listed; nesting the same pair again throws after the relation was recorded; a collision of the hashed edge ids leaves a relation without edge.
* **C65** When the source is an ancestor of the target the crossings come out upwards instead of downwards; a source deeper than the target, or in another tree, throws.
* **C66** `getParentChainUntil` ignores its second argument; `getCommonAncestor` takes the first vertex of an unordered set as a special case, so its answer depends on the order of the set.
* **C67** `IGraph::untrackVertex` untracks the vertex before it asks the hierarchies, which then throws; stable ids are never freed; `trackVertex` throws on a duplicate stable id after it has recorded the vertex.
* **C69** Segments get the stable id `source-target`, so a second edge across the same boundary fails the assertion of `trackEdge` and leaves a part of its segments behind; the port at a crossing is connected as start of the segment that ends there and as end of the one that starts there (`graph_hierarchy.cpp:482-483`), so `getTargetPort` and `getSourcePort` do not find it.
* **C71** `=` and `~` with a space on both sides are taken for an opening character (`OrgTokenizer.cpp:316-321`), so `a = b` starts verbatim text; `/`, `*`, `_` count as blanks, so the outer stars of `*/a/*` are undecided.
* **C72** `lex.tok(+1)` and friends throw `out_of_range` at the end of the stream: a command without name, an argument with an unclosed quote at the end, a property with text without a line end.
* **C75** `doOptLayout` of an empty block returns no solution also when there is a rest of the line, so an empty block in a line takes away everything to its right; a verbatim block dereferences a null pointer (`textlayouter.cpp:630-664`).
* **C76** `minSolution` (`textlayouter.cpp:106-135`) takes the first of the alternatives with the least value without looking at the gradient; if another one with the same value has a smaller gradient the crossover is the current margin, and the loop does not end (`tie_never`, default options). Reading the code, the same happens in `vSumSolution` when the right margin is larger than 4096, because infinity is recognised only up to 4096 away.
* **C77** `Formatter::toString` of a list item looks at the header only inside of the loop over the subnodes (`SemOrgFormat.cpp:1007-1041`), so the header of an item without body is lost (`writesText_false`). Many other kinds of nodes are written as the name of the C++ function (`__PRETTY_FUNCTION__`).
* **C79** Line breaks are written only for newline nodes directly in a paragraph; one inside of bold or italic text is written as nothing, so `*a⏎b*` becomes `*ab*` (`resave_false`). Each save takes one of the empty lines at the start of a document, and all spaces at the ends of lines.
* **C81** `Formatter::toString` writes `ARCHIVE` before all other tags, so `* a :x:ARCHIVE:` becomes `* a :ARCHIVE:x:` (`outlineText_false`). Outside of the class of C80: a colon at the end of a title is read as (empty) tags and lost, `* Important:` becomes `* Important`.
* **C82** All line breaks after a headline are dropped on reading, and one empty line is written between a headline and what is below it (`outlineExact_false`).
* **C84** `AttrGroup::getNamed` and `getFirstNamed` (`SemOrgApi.cpp:79-93`) do not normalize the name, so attributes written with capitals, dashes or underscores are not found in the written spelling (`attrLookup_false`).
* **C85** `removeProperty` (`SemOrgApi.cpp:206-213`) compares names exactly and by the name of the C++ kind, `getProperty` by normal form: setting `owner` over `Owner` keeps the old value in front, a property with arguments is not removed by its name, and setting one property with arguments removes all the others of that kind.
* **C86** `Org_combinePropertyStack` asserts that all properties of the chain have one kind and (with arguments) one name, so two spellings of one property in nested subtrees end the program (`finalProperty_false`, `finalProperty_spelling`).
* **C87** `getFlatHashes` marks a path as visited only for tags with subtags, so `#a##[b, b##c]` lists `a##b` twice.
* **C88** `isBoolFalse(AttrGroup)` uses the general template, which is always false (`basic_templates.hpp:92-95`), so `Cmd_getFirstAttr` never looks at attached lines (`firstAttr_false`).
* **C89** `Paragraph_dropAdmonitionNodes` drops a link at the start of a paragraph as if it were a footnote, and the second of two admonitions is dropped without being reported.
* **C90** `eachSubnodeRec` visits the fields of the base class first, so the title of a subtree comes after everything below it.
* **C91** `Subtree_getTimePeriodsImpl` does not look at the kinds asked for when it reads the title and the properties, so `getCreationTime` returns the first time of the title also when a creation time is recorded.
* **C93** `AstTrackingMap::getFootnotePath` looks in `names`, which nothing is ever written to (`SemBaseApi.hpp:229-232`), so footnotes are never found; radio targets inside of bold text or in the header of a list item are not tracked (`getAllSubnodes` has no case for `Opt`).
* **C94** `insertListItemBody` and `insertDescriptionListItem` do not check the index; `-1`, the answer of `getListHeaderIndex` for a header that is not there, is undefined behaviour. `isNumberedList` is true for lists with dashes.
* **C95** `newSemTimeStatic` passes 0 for missing months and days (`SemBaseApi.cpp:318-324`), which `cctz` normalizes to the end of the year or month before.
* **C96** The locations of nodes are not written (`#if false` in `SemOrgSerde.hpp:437-444`), so they are lost. Nil nodes are left out when written, but read unconditionally: a nil title comes back as an empty paragraph, and a time range with a nil time is written to a message that cannot be read.
* **C97** `JsonSerde<std::variant>::from_json` has no `return` (`VariantSerde.hpp:23-28`); `ImmSet` and `immer::map` are read by `result.insert(…)`, whose result is dropped, so they come back empty (`ImmOrgBaseSerde.hpp:62-67, 85-92`); an optional holding an empty optional (or null pointer, or the JSON null) comes back empty; `char const*` is read as null; with `JsonSerdeDescribedRecordBaseEx` an empty field comes back with its default; an enumerator without a name is written as `<unnamed>`, which is not read.
* **C98** Pairs, slices, map entries and ids are read by `operator[]` of a constant JSON value, which is undefined if the key is not there (`JsonSerde.hpp:16-17, 46-47, 195-196`, …).
* **C99** `diffSubnodes` returns early when the kinds of the two nodes differ (`astdiff_eager.cpp:266-272`), which happens for the roots only: no edit tells about their subnodes. (The test suite has a `FIXME` for applying the edits one after the other; the indices are positions in the two trees, not in the tree edited so far.)
* **C100** `findBestMatch` prefers an equal node at another index to the equal node at the same index (`astdiff_eager.cpp:135-143`): the diff of `(a a)` with itself is two moves.
* **C101** A negative `MinHeight` makes the first phase loop forever: with both lists empty the height 0 is still larger (`mapping_false`). The greedy first phase defines a function and never calls it.
* **C103** R[P[x y] Q[z]] becomes R[P[z y x] Q[]]: only z is reported as moved, although x and y changed their places (`unmovedKeepOrder_false`).
* **C104** A node with a hundred leaves, compared with itself with the default options, is reported as all leaves deleted and inserted (`equalTrees_false`).
* **C105** `getMapped` is called with the source tree for nodes of the destination and the other way round. Inserting a subnode before another one makes `getEdits` ask for a node that does not exist, and deleting the first of two subnodes is reported as deleting the second (`immEdits_false`).
* **C106** `parseFileWithIncludes` (src/haxorg/api/ParseContext.cpp) does not put its own file into the visited paths: an include that leads back to it parses it again (`parseFileOnce_false`).
* **C108** `resolvePath` joins the include path to the directory without normalising it: `#+include: ./a.org` in `a.org` gives `/d/./a.org`, `/d/././a.org`, ... — each a new path; the recursion never ends (`parseReturns_false`).
* **C109** `postProcessFileReferences` walks the document with `eachSubnodeRec`, which also visits the nodes its callback has just added. The links of an included document are resolved again from the directory of the including one and get a second `File` node (`linkOnce_false`); its includes are looked up there too and, when not found, get an error next to the content they already have (`includeOk_false`). Includes of kind src, example and export always fail an assertion (`incl.as<BlockCode>()` on a `CmdInclude`; modelled as the outcome `assertion`).
* **C110** `evalAll` collects the blocks as ids with paths from the first root and never renews them. `cascadeUpdate` looks the replacements up by root, path and id; after the first change the root is another one, so no later replacement matches, the root stays, and the results of all later blocks are lost. `results_kept_false` shows it for two blocks. (The tests only look at the inputs of the evaluator.)
* **C112** `sliceJson` takes the lengths of the dimensions from the first elements; with rows of different lengths `operator[]` of a const array is called out of range.
* **C113** `var.varname.value()` of a default `:var` without a name throws `bad_optional_access`.
* **C114** `demoteSubtree` (ImmOrgEdit.cpp:82-208): `aux` updates every subnode as a subtree, so a headline with a paragraph below it gives an exception; `getSelfIndex` and `dropSubnode` take the first subnode with the id, so the second one of equal headlines is not put below the first one; `EnsureLevels` is handled as `ForceLevels` (`* a`, `*** b` gives `** a`, `**** b`); `Physical` inserts the headlines that are no longer below before the demoted one (`* a`, `** b` gives `** b`, `** a`) and does not put it below the previous headline.
* **C115** `convertPropertyList` (SemConvert.cpp:662-905) knows no `unnumbered`, `ordered`, `nonblocking`, `trigger`, `blocker` or LaTeX property and requires a second name for `export_options`; the formatter (SemOrgFormat.cpp:1209-1396) writes them under these names, so they come back as custom properties, and `export_options:backend` too. `archive_time` is written in brackets the reader of dates does not accept; JSON is written by `dump(0)`, which starts a new line for every element.
* **C116** `:cookie_data: todo` is read and written as `:cookie:`, which is read as a custom property.
* **C118** `updateTracking` takes `words.at(0)` of a radio target (`ImmOrg.cpp:611-643`): a headline with an empty `:RADIO_ID:` property ends with an exception when the document is added.
* **C119** Removing the names of the replaced node and making those of the new one is done edit by edit (`ImmOrgStore.cpp:77-78`): when an id moves from headline A to headline B and B is replaced first, replacing A removes the id of B. The names of nodes that are dropped from the document stay, and the definition of a tag is inserted again where it should be removed (`ImmOrg.cpp:718-720`). A paragraph with the same radio target twice has it once in the list, so removing it twice fails an assertion (`ImmOrg.cpp:632-643`).
* **C120** `isTimeRange` of `parseTimeRange` (`OrgParser.cpp:978-1035`) looks past the end of the first timestamp as long as there are words, numbers, spaces and timestamps, so in `<2024-01-01> <2024-01-02>--<2024-01-03>` the first timestamp becomes a range with one time, and its conversion throws. `-03` as zone is a sign token the parser does not expect: the zone is dropped; so is the end of `10:00-11:00`. `+1d2w` is read as one week and `+1day` as one year (`SemConvert.cpp:1093-1095` take the last character).
* **C121** `convertTimeRange` calls `.value()` on the two times, so a range with a date like 30 February throws where a single timestamp gives an error node.
* **C122** `UserTime::format` (`Time.cpp:63-75`) writes the whole offset in minutes with four digits: +05:30 is written `+0330` and read as three and a half hours. `%Y` is written without zeros: year 999 is not a date for the lexer.
* **C123** `FormatTimeDelta` (`SemOrgFormat.cpp:26-31`) gives hours and minutes a sign of their own: `-1:-30`, `0:-30`.
* **C124** `convertSubtreeLog` (`SemConvert.cpp:535-541`) looks for the removed priority after the word `from`, which an entry `Priority A removed on […]` does not have; states and priorities are found only if they are `BigIdent`s (all capitals): `State "Done" …` is an error node, `from "Todo"` is read as no old state, `Priority 1 added` as no priority.
* **C125** What was read from `Priority A removed on […]` has no old priority; `Formatter::toString` takes it with `value()` (`SemOrgFormat.cpp:1500-1520`) and throws.
* **C126** `words.at(1)` (`SemConvert.cpp:452`), `times.at(0)` (419, 486) and the last `else` for priorities (547) end the conversion of the whole document for `- Tag #work`, `- !`, `- Refiled here` and `- Priority raised to A`.
* **C127** An unknown entry has its whole paragraph as its description (`SemConvert.cpp:557-563`), and the formatter writes the description as the line of the entry and again below it (`SemOrgFormat.cpp:1527-1545`): the entry doubles every time it is saved.
* **C128** For the word `deadline` (`SemConvert.cpp:504-510`) nothing is stored; the formatter writes such an entry by its description, and throws if there is none.
* **C131** A link to a title `[[**A]]` is written as `[[*A]]` (SemOrgFormat.cpp:616-672 writes one star), so its level changes. `([[http://x]])` is written as `(http://x)` (SemOrgFormat.cpp:674-706), and read as a link to `http://x)`.
* **C132** The target of a link with a user protocol is not read at all (SemConvert.cpp:1264-1293 sets only the protocol): `[[my:thing]]` becomes `[[my:]]`. The tests for known protocols in the lexer compare the start of the name only: `[[fileserver:x]]` is a link to the file `server:x`.
* **C134** Spaces at the ends of lines of code in a source block are lost when the document is written (the layout engine strips them).
* **C135** A line with `<<` followed by another `<<` and then `>>`, as in `a << b << c >> d`, is taken for a reference and the parser stops with an exception; nothing of the document is read.
* **C136** `#+begin_example` directly followed by `#+end_example`: the body is the range {1, 0} of subnodes, which is an error (`makeMissingSlice`), and `convertBlockExample` does not catch it (`raw_read_false`). `#+begin_export` without an exporter stops the parser (`bare_export_fatal`). The arguments of an example are not converted (`sample_args_lost`).
* **C137** The layout engine drops spaces at the ends of lines, also in the content of an export block (`export_again_false`).
* **C138** The subnodes of an example are its lines and the line breaks between them, and `toString(BlockExample)` puts each of them on a line of its own; a line break is thereby two more lines. An example of k+1 lines has 3^n·k+1 lines after it was saved n times (`sample_grows`, `sample_again_false`).
* **C139** Two tables with empty lines between them are read as one table, because the loop over the rows of a table skips line ends (`grid_read_false`, `tables_joined`). A row without its last bar takes in the next line (`open_row`). A table of nothing but rules makes the conversion throw (`rules_fatal`).
* **C140** The rules of a table are not written (`lines_false`).
* **C141** The stars of a link to a title are not written, so that the link in a cell changes (`grid_again_false`).
* **C142** A line with a mark which is indented less than the item before it, and unlike all the items above it, is read as a paragraph that starts with the mark (`lists_read_false`, `dedent_words`).
* **C144** An empty line with spaces on it between two items is written as several empty lines, one for each character, and these end the list: it is read as two lists (`lists_again_false`).
* **C145** An empty pattern is never found, although it is in every text: `fuzzy_match_recursive` returns at once if one of the ranges is not valid (`match_found_false`).
* **C146** The limit of the recursion counts all calls, so the first branches use it up: with the default limit of 10 a string of 12 elements has a better match than the one reported (`match_best_false`).
* **C147** `get_score` returns -1 if there is no match, but -1 is also the score of a match, for example of one letter in a text of 87 characters (`score_false`). The agenda of the viewer drops all items with score at most 0; and the configuration it passes to `getLinearScore` is captured by reference and gone when the score is computed, which is not modelled.
* **C149** `value_from_bitset_index` converts the position of a bit to a value, although the position was computed by `value_domain::ord`; for an enumeration that does not start at 0, like `Style`, a loop over a set gives other values than were put in (`loop_false`, `loop_positions`). The complement of a set contains the positions of no enumerator (`complement_extra`).
* **C150** A set of styles is written to JSON with the wrong names, and `{Bright}` with a name that cannot be read (`json_false`, `json_dim`).
* **C152** Because of C149 every style is shown as the style before it and `Bright` not at all (`style_shown`); the colours start at 1 but are compared with 7 and 15, so white is bright white (`white_shown`); `Default` is written as 99, which terminals ignore, so that in a formatted diff unchanged text keeps the colour of the change before it (`default_shown`). The sequences to end `Bright` and `BlinkRapid` would be 21 and 26, which do not end them.
* **C153** The numbers of the styles are one too small, again because of C149 (`chunks_false`).
* **C154** A text that is red, then red and underlined, then underlined gives `<font>…<i>…</font>…</i>` (`html_false`); a `<` in the text is written as it is (`html_raw`); the colour white has no `#`.
* **C155** `operator<<` of a colour adds it to the active style, where the colour that is there wins: `os << Red << "a" << Green << "b"` writes both in red (`stream_false`).
* **C158** `IEdge::writeSerial` (`graph_edge.cpp:195-202`) does not write the attributes that `TrivialEdge::readSerial` reads (`edge_attrs_false`). `TrivialEdgeCollection::readSerial` calls `edgeStore.add(edge)` without the id of the collection, so unless it is 0 `getSource`, `getTarget` and `writeSerial` of the graph that was read fail an assertion (`edges_unreachable`, `rewrite_fails`).
* **C159** `IVertexHierarchy::readSerial` (`graph_hierarchy.cpp:304-312`) throws for a root that is not in the nesting map, and `writeSerial` writes such roots: a hierarchy with a vertex that has neither parent nor sub-vertices is written but cannot be read (`lone_unreadable`). `edgeTracker` is not restored: `hasEdge` is false for all pairs and `getOutgoing` throws (`nest_edges_lost`).
* **C160** `IGraph::writeSerial` writes no ports, and the functions of `IPortCollection` for this are empty (`ports_false`).
* **C162** The second loop of `extractCommentBlocks` (ParseContext.cpp:74-103) reads the lines again with `getline`, which does not give an empty last line: the empty comment at the end of a block is lost (`empty_lost`). It also removes a prefix at the start of the later lines, which are already without theirs: `// // b` after another comment gives `b` (`text_false` and the examples beside it).
* **C163** `baseCol` is the column of the prefix; the text starts after it (`position_false`).
* **C164** `convertDocumentFragments` takes `fragments.front()` (SemConvert.cpp:3001) also if there are none: a source file without comments (`no_comments`).
* **C165** `show4levels` is tested twice and `show5levels` never (SemConvert.cpp:2931-2948): the document cannot be read (`startup_false`). `indent` is only looked for in the second piece of the text split at single spaces (`indent_wide`).
* **C166** Keys are compared without signs (SemConvert.cpp:145-147), so `-`, `'`, `:`, `<`, `^` and `|` are all taken for `*` (`options_minus`), and the empty piece before the first space for `:` (`options_false`). `tasks:done` is not known, and `tasks:todo` stands for it (`options_done`).
* **C167** The name of a custom command is the text of its token, with the colon (`nodes_false`).
* **C168** The formatter writes a colon after the name, which already has one; it is read as part of the text (`again_false`). Of the options only `broken-links` is written (SemOrgFormat.cpp:303-321), `ignore` with a word that is not read.
* **C169** `null` which does not fit into the width falls into the default case and nothing is written (Json.cpp:97-100, `compact_false`). Keys are written without escapes (Json.cpp:90), so a key with a quote gives a text that cannot be read (`compact_key_false`).
* **C171** The position of a node is looked up by its id (ImmOrg.hpp:985-992), which equal siblings share, so the first of them is moved or nothing happens (`structural_false`). For a node in a field, as a title, the position is -1, which is passed to `swapSubnode` and written to without a check (`structural_field`). The argument `position` is not used.
* **C172** `serialize_impl` (Xml.cpp:39-87) has no case for raw nodes: they are written as elements with an empty tag, with escaped text (`raw_false`). Character data are not split at `]]>` (`xml_cdata_false`). In comments `--` becomes `-&#45;`, which no reader decodes, and a dash at the end is written twice (`xml_comment_false`). Line breaks in attributes and carriage returns are not escaped (`xml_attr_false`, `xml_cr_false`).
* **C174** The positions of begin and end are clamped on their own (Enumerate.hpp), so with overlapping parts begin is after end, and the loop, which compares with `!=`, runs out of the sequence (`loop_exact`, `loop_false`). Negative numbers are taken for begin and end as zero, but counted in the size (`loop_negative`).
* **C175** `prev` checks `index + offset` as `next` does, and reads at `index - offset` (Enumerate.hpp:36-48): in the first step it reads before the sequence (`prev_false`), in the last one it throws (`prev_late`).
* **C177** `moveEnd` with a fixed size moves the data and adds the steps to the size (Span.hpp:103-105), so the size is not fixed (`end_fixed_false`). `dataAtOffset` accepts negative offsets (Span.hpp:40): `moveStart` back leaves the array (`start_back_false`) or fails its assertion (`start_back_aborts`).
* **C179** `format_table` writes `inter_row_spacing` between the parts of the line below a row (strutils.cpp:680-683), so unless it is as long as `inter_cell_spacing` the parts are not below the columns (`rule_false`).
* **C183** `Source` counts one more character than its text has (error_write.cpp:1317-1373): the end of a source that ends with a line end is given as a place in the line before, and the offset one after the end has a place (`offset_false`, `offset_past_false`).
* **C184** `get_line_range` ends with the index after that of the last line, although its slice includes its end (error_write.hpp:133-136), so that the last index need not be a line (`range_false`).
* **C186** `collect_inline_labels` (error_write.cpp:704-746) never draws a label for a line end (`drawn_never_false`) and draws a label that reaches the end of the source on lines before it too (`drawn_twice_false`).
* **C187** `createDirectory` looks for the parent of a relative path of one name, which is the empty path and no directory (Filesystem.cpp:75-84): with `parents` nothing is created and nothing thrown (`mkdir_false`), without it throws (`mkdir_throws_false`).
* **C190** `StrCache::add` stores the source before `add_unique` refuses a name that is used by another identifier (error_write.cpp:1400-1403), so that a source without a name stays (`cache_refused_false`); `add_path` takes the hash of a path for the path (1406-1410), so that a second path with the same hash gets the text of the first (`paths_false`).
* **C191** `Rect::extend` stores the new sides in `int` (hstd_geometry.hpp:421-435), so that a box extended by a point with a fraction need not cover it (`extend_false`), and is undefined for coordinates that `int` cannot hold.
* **C193** A path that does not begin with `moveTo` begins at the origin, which `operator+` and `operator-` do not move (`position_move_false`).
* **C198** `Layout::to_svg` takes the largest sides for the size of the picture, but not the smallest: boxes at negative places are cut off (`canvas_false`).
* **C199** `AstRange::toSlice` gives nothing for an empty range (AstSpec.hpp:127-131), so `getMultipleSubnode` throws for a node without subnodes of the field, as a table without rows (`many_false`).
* **C200** `AstRange::toSlice` allows the last position to be the number of subnodes (AstSpec.hpp:127), so the position after the last subnode has the name of a field (`name_false`).
* **C201** `Array::has` does not compare with zero (Array.hpp:34), so it is true for all negative positions (`array_has_false`).
* **C202** `Vec::insert` with a position does not check it (Vec.hpp:295), unlike all other access by position (`insert_false`).
* **C203** the iterators of `EnumerateState` point to the one in the object (sequtils.hpp:38-39), so a loop moves it, and a second loop over the object sees only the elements after it, with indices from zero (`loop_false`).
* **C205** the function in `getClockPeriods` reads `data` of the node it was called for instead of `node->data` (shared_org_logic.cpp:89), so the time of nodes below is not counted, and that of the node once for each node (`clock_false`, `clock_actual`).
* **C207** `a && b && c || (completed == total)` (file_agenda_table.cpp:51-53) hides rows with completed tasks only, whatever the options are (`shown_false`); `isCompletedTask` has two keywords and `COMPLETED_TASK_SET` four (file_agenda_table.hpp:152-159, shared_org_logic.cpp:6-11), so canceled tasks are shown although completed tasks are hidden (`done_hidden_false`).
* **C210** `migrate` goes on while the version is at most the greatest one (im_org_ui_common.cpp:191-192), so it ends one after it (`migrate_max_false`); `getLatest` makes an id of `id.getMask()` instead of `id.getIndex()` (im_org_ui_common.cpp:180; `latest_false`); `resetWith` clears the history, and `addRoot` needs its last version (im_org_ui_common.hpp:165-168; `reset_false`).
* **C213** `get_hierarchy` returns a reference to a static object which all viewers share (trace_log_viewer.cpp:25-30), so the hierarchy of a viewer becomes that of another one (`hierarchy_false`).
* **C216** `begin_scope_event` and `end_scope_event` do not look at `TraceState` in a structured trace (TraceBase.cpp:195-202, 214-221), so scopes are written while the trace is off (`off_false`).
* **C217** the test for hidden directories is about the path from the root (dir_explorer.cpp:198), so a hidden directory below another one is shown (`hidden_false`).
* **C218** `dir_explorer_loop` does not set `parseContext` (dir_explorer.cpp:326-330), which `getFileNode` uses (`explorer_false`); `registerFile` (dir_explorer.cpp:46-48) is not called, so each file is parsed at each change (`cached_false`).
* **C220** `metadata` with a field makes the object if there is none, and does not set the field then (logger.cpp:410-421; `field_false`).
* **C221** records which are in both runs are written without splitting them into lines (logger.cpp:325), so their other lines have no mark (`differ_false`).
* **C223** `addUniqueAttribute` and `addOrResetUniqueAttribute` compare `typeid(attr.get())`, the types of two pointers and not of the attributes (graph_attribute.hpp:123, 142): a second attribute of a class is added without an error, and setting one does nothing (`add_false`, `reset_false`, `unique_actual`).
* **C224** a call with another description than the last starts the number on an edge again at one (log_graph_tracker.cpp:212-215; `count_false`).
* **C225** a function which is called again gets a new node, and its cluster is lost (log_graph_tracker.cpp:103; `cluster_false`).

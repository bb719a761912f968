{"id": "C01", "title": "RangeTree point query returns exactly the covering ranges", "statement": "For every list of slices with first <= last, building a RangeTree and calling getRanges(p) returns every input slice that contains p exactly once (with its original index) and no slice that does not contain p; the construction terminates.", "quantifier": "all lists of valid slices (any length, overlapping, duplicated, touching), all query points, all orders the internal sort may leave equal elements in", "why_tests_cant": "The tree shape depends on medians of all endpoints; a wrong split comparison loses ranges only for particular endpoint coincidences.", "anchors": ["src/hstd/stdlib/RangeTree.hpp: RangeTree::buildRec, RangeTree::build, Node::getAllNodes, RangeTree::getRanges"]}
{"id": "C02", "title": "annotateSequence covers every annotated point with the right annotation", "statement": "annotateSequence(groups, first, last) returns disjoint, increasing, non-empty chunks inside [first,last]; every point of a chunk carries exactly the (group kind, sorted segment kinds) annotations of the chunk; and every point in [first,last] that lies in some segment is in some chunk.", "quantifier": "all groups, segments and bounds", "why_tests_cant": "Boundary behaviour at the last element depends on how segments line up with the end of the sequence.", "anchors": ["src/hstd/stdlib/RangeSegmentation.cpp: annotateSequence", "src/hstd/stdlib/RangeSegmentation.hpp"]}
{"id": "C03", "title": "IntSet implements finite set algebra", "statement": "For every sequence of incl/excl/union/intersection/difference operations an IntSet answers contains exactly as the mathematical set would, size() is the number of members, < and <= are proper inclusion and inclusion, and iteration visits every member exactly once in increasing order and terminates.", "quantifier": "all operation histories over any enumeration/char domain size", "why_tests_cant": "Membership for every value after every history is an infinite family; iteration bugs only show at the first/last bit.", "anchors": ["src/hstd/stdlib/IntSet.hpp: IntSet", "src/hstd/stdlib/SetCommon.hpp"]}
{"id": "C04", "title": "Masked integer ids round-trip", "statement": "For every index below the unmasked capacity and every mask that fits, an id built from (index, mask) returns that index from getIndex and that mask from getMask, is not nil, and two ids are equal iff index and mask agree; masks that do not fit are rejected.", "quantifier": "all 64-bit ids, all mask widths, all indices and masks", "why_tests_cant": "The value space is 2^64 per mask width; shift/mask slips only show at boundary bits.", "anchors": ["src/hstd/stdlib/dod_base.hpp: Id::FromMaskedIdx, Id::getIndex, Id::getMask, Id::getUnmasked, Id::setMask"]}
{"id": "C05", "title": "Store ids are stable handles", "statement": "In a dod store an id returned by add always reads back the added value after any number of further adds; different adds give different ids; contains/at accept exactly the ids handed out so far.", "quantifier": "all histories of add / insert / at operations", "why_tests_cant": "Quantifies over every later history of the store.", "anchors": ["src/hstd/stdlib/dod_base.hpp: Store"]}
{"id": "C06", "title": "Interning store is a bijection between contents and ids", "statement": "After any history of add operations on an InternStore, add(v) of a value already present returns the id it had, at(add(v)) = v, two ids are equal iff their contents are equal, and previously returned ids never change meaning.", "quantifier": "all histories of add", "why_tests_cant": "Structural identity of immutable documents relies on it for every history.", "anchors": ["src/hstd/stdlib/dod_base_intern.hpp: InternStore", "src/haxorg/imm/ImmOrg.hpp: ImmAstKindStore"]}
{"id": "C07", "title": "Myers diff yields a valid edit script", "statement": "Applying the script computed by myersDiff(lhs, rhs) (keep/delete on lhs, insert from rhs) consumes lhs completely and produces exactly rhs.", "quantifier": "all pairs of sequences over any element type with decidable equality", "why_tests_cant": "All pairs of sequences of any length.", "anchors": ["src/hstd/stdlib/diffs.hpp: myersDiff"]}
{"id": "C08", "title": "Myers diff is minimal", "statement": "The number of insertions and deletions in the script computed by myersDiff is the least possible over all scripts that turn lhs into rhs without replacements.", "quantifier": "all pairs of sequences and all competing edit scripts", "why_tests_cant": "Optimality compares with every other script.", "anchors": ["src/hstd/stdlib/diffs.hpp: myersDiff"]}
{"id": "C09", "title": "Levenshtein distance is the true minimum edit distance and its script is valid", "statement": "levenshteinDistance returns as distance the minimum number of insert/delete/replace operations turning the source into the target, and the returned operations transform source to target.", "quantifier": "all pairs of sequences", "why_tests_cant": "Optimality compares with every other script.", "anchors": ["src/hstd/stdlib/diffs.hpp: levenshteinDistance"]}
{"id": "C10", "title": "longestCommonSubsequence returns a longest common subsequence", "statement": "Every alignment returned pairs strictly increasing positions holding equal elements on both sides and has the maximal length possible.", "quantifier": "all pairs of sequences", "why_tests_cant": "Maximality quantifies over all common subsequences.", "anchors": ["src/hstd/stdlib/diffs.hpp: longestCommonSubsequence"]}
{"id": "C11", "title": "ShiftedDiff aligns every line exactly once", "statement": "A ShiftedDiff built from an alignment lists every lhs line and every rhs line exactly once in order; rows marked keep pair the aligned lines.", "quantifier": "all sequences and all valid alignments / edit scripts", "why_tests_cant": "Every possible alignment shape.", "anchors": ["src/hstd/stdlib/diffs.cpp: ShiftedDiff::ShiftedDiff"]}
{"id": "C12", "title": "validate_utf8 accepts exactly well-formed UTF-8", "statement": "validate_utf8 reports success iff the byte string is a concatenation of well-formed UTF-8 sequences (no overlongs, no surrogates, nothing above U+10FFFF), and otherwise reports the offset of the first ill-formed sequence.", "quantifier": "all byte strings", "why_tests_cant": "Infinitely many byte strings; boundary lead/continuation bytes.", "anchors": ["src/hstd/stdlib/strutils.cpp: validate_utf8"]}
{"id": "C13", "title": "split/join round trips", "statement": "Joining the pieces returned by split(delimiter) with the delimiter gives back the original string and no piece contains the delimiter; split_keep_separator's pieces concatenate to the input.", "quantifier": "all strings, all delimiters (including empty, multi-character, self-overlapping)", "why_tests_cant": "All strings and delimiters.", "anchors": ["src/hstd/stdlib/strutils.cpp: split, split_keep_separator"]}
{"id": "C14", "title": "Slice algebra", "statement": "contains/expand/expanded/narrow/overlap of inclusive slices agree with the corresponding sets of points, iteration over a slice yields every member once in order even when the slice spans the whole value domain, and slice construction rejects first > last.", "quantifier": "all slices and points", "why_tests_cant": "Boundary-touching slices, full-domain iteration.", "anchors": ["src/hstd/stdlib/Slice.hpp: Slice, slice, getSpan"]}
{"id": "C15", "title": "Flat parse tree is always well nested", "statement": "For any sequence of startTree/endTree/token calls with every endTree matched, the flat node group is a well-nested forest: each node's extent covers exactly the nodes created between its start and its end, so the direct children reported for a node partition its extent in order and the ranges of two nodes are nested or disjoint.", "quantifier": "all balanced histories of builder calls, of any depth", "why_tests_cant": "All histories of any depth.", "anchors": ["src/haxorg/lexbase/NodeStore.hpp: NodeGroup", "src/haxorg/lexbase/Node.cpp: startTree, endTree, subnodesOf, allSubnodesOf"]}
{"id": "C16", "title": "Parent lookup inverts child enumeration", "statement": "In a well-nested node group parent(n) returns p exactly when n is one of the direct subnodes of p, and returns nothing for a root; the lookup terminates.", "quantifier": "all well-nested node groups and all nodes", "why_tests_cant": "Depends on the shape of everything before the node.", "anchors": ["src/haxorg/lexbase/Node.cpp: NodeGroup::parent"]}
{"id": "C17", "title": "Child access by index agrees with child enumeration", "statement": "subnode(n, i) returns the i-th direct child of n, size(n) is the number of direct children, and an index outside 0..size-1 is rejected with an error.", "quantifier": "all well-nested node groups, nodes and indices", "why_tests_cant": "All shapes and indices.", "anchors": ["src/haxorg/lexbase/Node.cpp: NodeGroup::subnode, NodeGroup::size"]}
{"id": "C18", "title": "Line splitting loses no token", "statement": "Splitting a token stream into lines keeps every token exactly once in order, every line is non-empty, and every line except possibly the last ends at the first end-of-line token in it.", "quantifier": "all token streams", "why_tests_cant": "All token streams.", "anchors": ["src/haxorg/parse/OrgTokenizer.cpp: TokenVisitor::to_lines"]}
{"id": "C19", "title": "Line grouping loses no line", "statement": "Grouping of lines into blocks/lists/paragraph groups terminates and the lines of the groups, flattened in order, are exactly the input lines; unterminated blocks swallow only following lines and nothing is duplicated.", "quantifier": "all sequences of lines of all kinds, any nesting of begin/end lines", "why_tests_cant": "Arbitrary nesting depth and unbalanced blocks.", "anchors": ["src/haxorg/parse/OrgTokenizer.cpp: TokenVisitor::to_groups"]}
{"id": "C20", "title": "Generated indentation tokens are balanced", "statement": "In the token stream produced for any list of groups, every Dedent matches an earlier Indent, the stream ends at depth zero, and removing the synthetic tokens gives back the original tokens in order, the only change being that the content lines of a source block lose their common leading spaces.", "quantifier": "all group lists (any indentation sequence)", "why_tests_cant": "Every sequence of indentations of every length.", "anchors": ["src/haxorg/parse/OrgTokenizer.cpp: GroupVisitorState::rec_convert_groups, rec_add_line"]}
{"id": "C21", "title": "Inline markup is parsed according to its grammar", "statement": "For every document made of words, punctuation, bold/italic/underline/strike tokens and line breaks, the parser returns exactly the tree of the grammar: paragraphs go to the next blank line, a closing token closes the innermost open markup if it is of its kind and is punctuation otherwise, an opening token that is never closed is punctuation; every token is in the tree. The depth of the tree is restored at the end of every text.", "quantifier": "all sequences of such tokens", "why_tests_cant": "All interleavings of open/close markers.", "anchors": ["src/haxorg/parse/OrgParser.cpp: OrgParser::textFold, OrgParser::parseText, OrgParser::parseParagraph, OrgParser::parseStmtListItem, OrgParser::parseTop"]}
{"id": "C22", "title": "Outline nesting follows headline levels", "statement": "After the outline pass, a headline is nested under the closest preceding headline of strictly smaller level, headlines keep document order, and no node is lost or duplicated.", "quantifier": "all documents: any sequence of headline levels and bodies", "why_tests_cant": "All sequences of levels.", "anchors": ["src/haxorg/parse/OrgParser.cpp: extendSubtreeTrailsImpl, extendSubtreeTrails"]}
{"id": "C23", "title": "Lexer navigation primitives", "statement": "skip/expect consume exactly one token of the expected kind or fail without moving; pop/next advance by one; iterating next visits each remaining token once in order and stops.", "quantifier": "all token streams, positions and expected kinds", "why_tests_cant": "All streams and positions.", "anchors": ["src/haxorg/lexbase/Lexer.hpp: LexerCommon, Lexer"]}
{"id": "C24", "title": "Balanced extraction returns the inner tokens of the matching pair", "statement": "getInside(open, close) on a stream positioned at an opener returns precisely the tokens between the opener and its matching closer, leaving the position after the closer; an unmatched opener is reported as an error.", "quantifier": "all token streams with arbitrary nesting", "why_tests_cant": "Nesting depth is unbounded.", "anchors": ["src/haxorg/lexbase/Lexer.hpp: LexerCommon::getInside"]}
{"id": "C25", "title": "Conversion to the immutable store and back is lossless", "statement": "Adding a mutable document to the immutable store and converting the resulting id back gives a document equal to the original, whatever was stored before.", "quantifier": "all documents (trees of any size) and all earlier store contents", "why_tests_cant": "All trees and all store histories.", "anchors": ["src/haxorg/imm/ImmOrgStore.cpp: ImmSemSerde, ImmAstStore::add, ImmAstStore::get"]}
{"id": "C26", "title": "Immutable ids identify structure", "statement": "Two subtrees added to the same store receive the same id iff they are structurally equal.", "quantifier": "all pairs of trees and store histories", "why_tests_cant": "All pairs of trees.", "anchors": ["src/haxorg/imm/ImmOrgStore.cpp: ImmAstKindStore::add", "src/hstd/stdlib/dod_base_intern.hpp"]}
{"id": "C27", "title": "Edits never change older versions", "statement": "After any sequence of edits every id obtained earlier still denotes the same subtree, so every previously obtained document version reads back unchanged.", "quantifier": "all edit histories", "why_tests_cant": "All later histories.", "anchors": ["src/haxorg/imm/ImmOrgStore.cpp: ImmAstStore::setNode, cascadeUpdate", "src/haxorg/imm/ImmOrg.hpp"]}
{"id": "C28", "title": "Cascading a replacement rewrites exactly the replaced nodes and their ancestors", "statement": "After an edit that replaces nodes at given positions, the new root denotes the old document with exactly those positions substituted; all positions not below or above an edit keep their content.", "quantifier": "all documents, all sets of replaced positions", "why_tests_cant": "All trees and all sets of positions (nested edits, shared subtrees).", "anchors": ["src/haxorg/imm/ImmOrgStore.cpp: recurseUpdateSubnodes, getUpdatedSubnodes, groupUpdatedSubnodes, setNewSubnodes, cascadeUpdate"]}
{"id": "C29", "title": "Subnode edit operations have list semantics", "statement": "insertSubnode/insertSubnodes/appendSubnode/dropSubnode/popSubnode/setSubnode/moveSubnode/swapSubnode produce the children list one expects from the list operation of that name, reject out of range positions, and report a replacement.", "quantifier": "all nodes, positions, offsets and inserted lists", "why_tests_cant": "All positions including first/last/out of range, repeated children.", "anchors": ["src/haxorg/imm/ImmOrgEdit.cpp"]}
{"id": "C30", "title": "Parent tracking agrees with the document", "statement": "After adding documents and editing nodes, the tracked parents of a node are exactly the nodes whose children contain it (among tracked kinds), each listed once.", "quantifier": "all histories of adds and node updates", "why_tests_cant": "All histories.", "anchors": ["src/haxorg/imm/ImmOrg.cpp: ImmAstTrackingMapTransient::setAsParentOf, removeAllSubnodesOf, insertAllSubnodesOf"]}
{"id": "C31", "title": "Every reported path leads to the node", "statement": "Every path returned for a node, resolved from its root, leads to that node, and each occurrence of the node below a root is reported exactly once.", "quantifier": "all stores with acyclic structure and all nodes", "why_tests_cant": "All DAG shapes.", "anchors": ["src/haxorg/imm/ImmOrg.cpp: ImmAstTrackingMap::getPathsFor, getParentsFor", "src/haxorg/imm/ImmOrgStore.cpp: ImmAstContext::at"]}
{"id": "C32", "title": "Radio target grouping partitions the paragraph", "statement": "Grouping a paragraph's children into radio-target runs, hashtags and single nodes yields groups which concatenate to the children, each radio group spelling its target's words (spaces ignored).", "quantifier": "all paragraphs and all tracked radio targets", "why_tests_cant": "All child sequences, in particular targets that run past the end of the paragraph.", "anchors": ["src/haxorg/imm/ImmOrg.cpp: getSubnodeGroups, tryRadioTargetSearch"]}
{"id": "C33", "title": "Node kind and index are recoverable from an immutable id", "statement": "For every node kind and every index an id packs them so that getKind and getNodeIndex return them, distinct pairs give distinct ids, and only index zero of kind zero is nil.", "quantifier": "all kinds and 32-bit indices", "why_tests_cant": "2^32 indices times all kinds.", "anchors": ["src/haxorg/imm/ImmOrg.cpp: ImmId::combineMask, combineFullValue", "src/haxorg/imm/ImmOrgBase.cpp"]}
{"id": "C34", "title": "Mind-map link resolution is insertion-order complete", "statement": "After adding any sequence of nodes to the map graph, every edge joins two registered nodes, a node is listed as unresolved iff it still has unresolved links, and every link whose target is registered has become an edge.", "quantifier": "all sequences of node insertions in all orders", "why_tests_cant": "All insertion orders.", "anchors": ["src/haxorg/imm/ImmOrgGraph.cpp: MapGraphState::addNode, getResolvedNodeInsert, updateUnresolvedNodeTracking"]}
{"id": "C35", "title": "Saturating arithmetic never wraps", "statement": "saturating_add/saturating_sub return the exact result when it is representable and otherwise the nearest bound, for every integer width.", "quantifier": "all integers of all widths", "why_tests_cant": "2^128 argument pairs for the 64-bit instance.", "anchors": ["src/hstd/system/basic_templates.hpp: saturating_add, saturating_sub"]}
{"id": "C36", "title": "Document selectors return exactly the matching nodes", "statement": "A selector path returns the target-marked nodes for which the whole chain of conditions matches along the requested links, each reported in document order.", "quantifier": "all documents and selector paths", "why_tests_cant": "All trees and condition chains.", "anchors": ["src/haxorg/imm/ImmOrgEdit.cpp: recMatches, OrgDocumentSelector::getMatches"]}
{"id": "C37", "title": "Source registry is a bijection", "statement": "After any history of addSource calls, getPath(getId(p)) = p, getSourceContent(addSource(p,c)) = c, registering the same path with the same content is idempotent and with different content is rejected.", "quantifier": "all histories of addSource", "why_tests_cant": "All histories.", "anchors": ["src/haxorg/lexbase/SourceManager.cpp", "src/hstd/ext/bimap_wrap.hpp: Unordered1to1Bimap"]}
{"id": "C38", "title": "Code point chunking loses no byte", "statement": "rune_chunks of a valid UTF-8 string returns one chunk per code point whose concatenation is the input, and rune_length is their number; truncated input is handled without reading past the end.", "quantifier": "all byte strings", "why_tests_cant": "All strings.", "anchors": ["src/hstd/stdlib/strutils.cpp: rune_length, rune_chunks"]}
{"id": "C39", "title": "String replacement", "statement": "replaceAll/replace_all replaces every non-overlapping occurrence left to right, leaves a string with no occurrence unchanged, and terminates for every pattern.", "quantifier": "all strings, patterns and replacements", "why_tests_cant": "All strings.", "anchors": ["src/hstd/stdlib/Str.cpp: Str::replaceAll", "src/hstd/stdlib/strutils.cpp: replace_all"]}
{"id": "C40", "title": "Time equality and conversion", "statement": "Two time breakdowns compare equal iff all their components agree; converting to a unix timestamp is exact in the representable range and rejected outside it.", "quantifier": "all time breakdowns", "why_tests_cant": "All component combinations.", "anchors": ["src/hstd/stdlib/Time.hpp: UserTimeBreakdown", "src/hstd/stdlib/Time.cpp"]}
{"id": "C41", "title": "List items lie inside an open indentation level", "statement": "In the token stream handed to the parser the marker of every list item is enclosed by an Indent that is not yet closed, whatever the indentation of the items.", "quantifier": "all token streams / all sequences of item indentations", "why_tests_cant": "The property ranges over every sequence of item indentations; the tests use a handful of regular lists.", "anchors": ["src/haxorg/parse/OrgTokenizer.cpp: GroupVisitorState::rec_convert_groups"]}
{"id": "C42", "title": "Lexing loses nothing", "statement": "Whenever the lexer returns, the texts of its tokens put together in order are the document byte for byte, and the offset recorded in each token is the number of bytes before it.", "quantifier": "all documents (all byte strings) and all answers of the pattern library", "why_tests_cant": "The lexer has some hundred branches that each move the cursor by hand-computed counts; losslessness must hold for every combination of them.", "anchors": ["src/haxorg/base_lexer/base_token_tokenize.cpp: tokenize, switch_regular_char, switch_command, Cursor::token_cb"]}
{"id": "C43", "title": "Lexing always returns", "statement": "For every document the lexer returns a token sequence: it does not hang, throw, abort or read an empty optional.", "quantifier": "all documents", "why_tests_cant": "Requires all byte strings; tests feed finished, well-formed documents only.", "anchors": ["src/haxorg/base_lexer/base_token_tokenize.cpp: tokenize, switch_cmd_argument, Cursor::is_iat, Cursor::advance_guard"]}
{"id": "C44", "title": "A table rule token is the rule", "statement": "A table separator token contains only the rule's own characters and its indentation, for any indentation.", "quantifier": "all documents with table rules", "why_tests_cant": "Depends on the indentation, which tests leave at zero.", "anchors": ["src/haxorg/base_lexer/base_token_tokenize.cpp: is_at_table_separator, switch_regular_char"]}
{"id": "C45", "title": "Id arithmetic keeps the mask and saturates inside the index part", "statement": "Moving an id forward or backward changes its index by exactly that amount, keeps its mask, and stops at the first and last index its unmasked part can hold.", "quantifier": "all masked ids, all distances", "why_tests_cant": "Ranges over all 64-bit ids and all distances, in particular the ones at the capacity limit.", "anchors": ["src/hstd/stdlib/dod_base.hpp: Id::operator+, operator++, operator--, operator-, setUnmasked"]}
{"id": "C46", "title": "Stripping removes exactly the outer characters", "statement": "strip removes the longest run of leading-set characters at the front and the longest run of trailing-set characters at the back of what remains, and nothing else.", "quantifier": "all strings and character sets", "why_tests_cant": "All strings and pairs of sets; strings consisting of stripped characters only.", "anchors": ["src/hstd/stdlib/strutils.cpp: strip, lstrip, rstrip", "src/hstd/stdlib/Span.hpp: moveStart, moveEnd"]}
{"id": "C47", "title": "Alignment pads to the requested width", "statement": "left_aligned/right_aligned only add ASCII padding after/before the text, and the result has the requested number of code points, or the text's own if that is larger.", "quantifier": "all byte strings and widths", "why_tests_cant": "All strings, including those ending in the middle of a UTF-8 sequence.", "anchors": ["src/hstd/stdlib/strutils.cpp: left_aligned, right_aligned, rune_length"]}
{"id": "C48", "title": "Text wrapping keeps the words and respects the width", "statement": "wrap_text puts the words on lines in order; several words share a line only if they fit into the width; a word starts a new line only if it does not fit on the previous one; a justified line of several words is exactly as wide as requested, with gaps of at least one space differing by at most one.", "quantifier": "all word lists and widths", "why_tests_cant": "All word lengths; off-by-one at the width limit.", "anchors": ["src/hstd/stdlib/strutils.cpp: wrap_text"]}
{"id": "C49", "title": "Formatted integers read back", "statement": "format_integer_bits prints prefix, digits and digit group separators from which the value can be read back, padded to the requested number of digits and grouped by four from the right.", "quantifier": "all values, formats and paddings", "why_tests_cant": "All 64-bit values.", "anchors": ["src/hstd/stdlib/strutils.cpp: format_integer_bits"]}
{"id": "C50", "title": "Escaped text is unambiguous", "statement": "escape_for_write produces text without raw tabs or newlines, and two different strings have different escaped forms.", "quantifier": "all strings", "why_tests_cant": "Injectivity ranges over pairs of strings.", "anchors": ["src/hstd/stdlib/strutils.cpp: escape_for_write"]}
{"id": "C51", "title": "Parts of vectors and strings", "statement": "Taking the part of a vector, span or string between two positions (counted from the front or the back) gives the elements from the first through the last position, and is rejected when a position is outside of the container or they are in the wrong order.", "quantifier": "all containers and pairs of positions", "why_tests_cant": "All lengths and index pairs, including the ones at the ends and in the wrong order.", "anchors": ["src/hstd/stdlib/Span.hpp: getSpan", "src/hstd/stdlib/Vec.hpp: at(HSlice)", "src/hstd/stdlib/Str.hpp: at(HSlice)"]}
{"id": "C52", "title": "Ordering of vectors is a strict order", "statement": "Comparing vectors of strictly ordered items is irreflexive and transitive, as sorting and ordered containers require.", "quantifier": "all vectors and item orders", "why_tests_cant": "Transitivity ranges over triples of vectors.", "anchors": ["src/hstd/stdlib/Vec.hpp: itemwise_less_than, itemwiseLess"]}
{"id": "C53", "title": "List nesting follows the indentation", "statement": "For a list whose items are indented consistently (same indentation on a level, more for nested items), tokenization produces the items in order, nested lists bracketed after the text of the item that contains them, and separator tokens between items; a single-line item followed by several empty lines ends the list.", "quantifier": "all lists, any nesting depth, any number of lines per item", "why_tests_cant": "Any depth and any combination of closing several levels at once.", "anchors": ["src/haxorg/parse/OrgTokenizer.cpp: LineToken, to_groups, rec_convert_groups"]}
{"id": "C54", "title": "Looking ahead sees the tokens that will be read", "statement": "Asking a token cursor about the token n positions ahead tells about the n-th of the tokens that will be read, and searching ahead finds the first match among them, for the cursor over a whole group and for the cursor over a selection of tokens.", "quantifier": "all token streams, selections, positions and distances", "why_tests_cant": "All selections and distances.", "anchors": ["src/haxorg/lexbase/Lexer.hpp: LexerCommon::at, find, hasNext, SubLexer"]}
{"id": "C55", "title": "Parsing builds one balanced tree", "statement": "For every token stream, well-formed or not, parsing never fails an assertion about the tree under construction; when it returns, the whole stream has been read, no tree is left open, there is one tree for the document, and its leaves are tokens of the stream in stream order, each at most once.", "quantifier": "all token streams", "why_tests_cant": "All malformed and truncated inputs, all recursion depths.", "anchors": ["src/haxorg/parse/OrgParser.cpp: all parse functions, textFold, NodeGuard::end", "src/haxorg/parse/OrgParserUtils.cpp"]}
{"id": "C56", "title": "Every headline has all its parts", "statement": "Every headline node of a parsed document, wherever it occurs and however malformed the headline is, consists of the star token, then todo keyword, priority, title, completion, tags, times and drawer (each of its kind or an empty node), then the list for its section.", "quantifier": "all token streams", "why_tests_cant": "All malformed headlines; later passes address the parts by position.", "anchors": ["src/haxorg/parse/OrgParser.cpp: OrgParser::parseSubtree"]}
{"id": "C57", "title": "Parsed documents have an outline", "statement": "When parsing returns, the outline pass succeeds, keeps all nodes, and nests every headline under the closest preceding headline with fewer stars.", "quantifier": "all token streams", "why_tests_cant": "All mixtures of headlines and block elements.", "anchors": ["src/haxorg/parse/OrgParser.cpp: OrgParser::parseFull, extendSubtreeTrails"]}
{"id": "C58", "title": "Text between bold markers is bold", "statement": "Text between an opening and a closing bold marker without bold markers and paragraph breaks in between is bold, whatever other markup it contains.", "quantifier": "all texts", "why_tests_cant": "All combinations of markup in the text.", "anchors": ["src/haxorg/parse/OrgParser.cpp: OrgParser::textFold"]}
{"id": "C59", "title": "Every leaf of the parse tree has a token", "statement": "Every leaf made for a token refers to a token of the stream, so that its text can be asked for.", "quantifier": "all token streams", "why_tests_cant": "Inputs that end in the middle of an element.", "anchors": ["src/haxorg/parse/OrgParser.cpp: OrgParser::parseSymbol"]}
{"id": "C60", "title": "Parsing returns", "statement": "For every token stream parsing ends and returns a tree; malformed input is reported in the tree.", "quantifier": "all token streams", "why_tests_cant": "Termination and absence of exceptions over all malformed inputs.", "anchors": ["src/haxorg/parse/OrgParser.cpp: OrgParser::parseTop"]}
{"id": "C61", "title": "Ready-made searches find the subtrees asked for", "statement": "Searching a document by the words of a subtree title, by a subtree id (optionally up to a maximal level) or by node kinds returns the matching nodes in document order and nothing else, and never throws.", "quantifier": "all documents, titles, ids, levels and kinds", "why_tests_cant": "All trees and all settings; the level has to be respected at every depth.", "anchors": ["src/haxorg/imm/ImmOrgEdit.cpp: searchSubtreePlaintextTitle, searchSubtreeId, searchAnyKind"]}
{"id": "C62", "title": "Edge collections report exactly the edges they hold", "statement": "After any history of adding and removing edges and vertices, the edges listed by a collection are those added and not removed since (by themselves or with one of their ends); the outgoing (incoming) edges of a vertex are those that start (end) there; the neighbours are the other ends; and an edge that was removed is reported as not tracked and can be added again.", "quantifier": "all histories of addEdge, trackEdge, untrackEdge, trackVertex, untrackVertex, all iteration orders of the sets involved", "why_tests_cant": "Parallel edges, loops and removals in any order.", "anchors": ["src/hstd/ext/graph/base/graph_edge.cpp: IEdgeCollection::trackEdge, untrackEdge, untrackVertex, getOutgoing, getIncoming, getEdges, getInNodes", "src/hstd/ext/graph/base/graph_edge.hpp: isTrackingEdge, TrivialEdgeCollection::addEdge"]}
{"id": "C63", "title": "A vertex hierarchy is a forest", "statement": "After any history of tracking vertices and nesting relations, a vertex is a sub-vertex of its parent and of no other vertex, the root vertices are exactly the tracked vertices without parent, and following parents from any vertex ends at a root.", "quantifier": "all histories of calls, including calls that throw", "why_tests_cant": "Cycles appear only for particular orders of calls.", "anchors": ["src/hstd/ext/graph/base/graph_hierarchy.cpp: IVertexHierarchy::trackVertex, trackSubVertexRelation, untrackSubVertexRelation, getRootVertices, getSubVertices, getParentVertex"]}
{"id": "C64", "title": "Removing a vertex from a hierarchy removes its whole subtree and nothing else", "statement": "untrackVertex returns exactly the vertex and everything nested below it; afterwards none of these is tracked, all other vertices and relations are unchanged, and no edge of a removed vertex is listed.", "quantifier": "all forests, all vertices, all iteration orders of the set of removed vertices", "why_tests_cant": "The order in which the hash set is walked is not under the control of a test.", "anchors": ["src/hstd/ext/graph/base/graph_hierarchy.cpp: IVertexHierarchy::untrackVertex"]}
{"id": "C65", "title": "Boundary crossings of an edge", "statement": "For two vertices of a hierarchy the crossings are the vertices strictly between the source and the lowest common ancestor going up, followed by those strictly between it and the target going down.", "quantifier": "all forests, all pairs of vertices", "why_tests_cant": "All shapes of trees and all relative depths.", "anchors": ["src/hstd/ext/graph/base/graph_hierarchy.cpp: IVertexHierarchy::getHierarchyCrossings"]}
{"id": "C66", "title": "Ancestor queries of a hierarchy", "statement": "getParentChain lists the proper ancestors from the parent to the root; getParentChainUntil those strictly between start and finish; getCommonAncestor returns the lowest vertex that is an ancestor of (or equal to) all given ones, whatever the order of the set, and nothing iff there is none; getMaxNestingLevel is the number of vertices on the longest way from a root down.", "quantifier": "all forests, all vertices and sets of vertices, all iteration orders", "why_tests_cant": "Set order and tree shape.", "anchors": ["src/hstd/ext/graph/base/graph_hierarchy.cpp: getParentChain, getParentChainUntil, getCommonAncestor, getMaxNestingLevel"]}
{"id": "C67", "title": "Removing a vertex from a graph", "statement": "IGraph::untrackVertex of a tracked vertex returns; afterwards the vertex is not tracked, is in no collection or hierarchy, and a vertex with the same stable id can be added; stable ids always lead to the vertex that carries them.", "quantifier": "all graphs with any number of collections and hierarchies, all histories", "why_tests_cant": "Combination of several collections and hierarchies.", "anchors": ["src/hstd/ext/graph/base/graph_base.cpp: IGraph::trackVertex, untrackVertex, getVertexIDByStableId"]}
{"id": "C68", "title": "Ports of vertices and edges", "statement": "After any history of adding, connecting and deleting ports, every port belongs to the one vertex it was added to, every connection names a registered port, queries by vertex, by edge and by port agree with the connections made and not deleted, and a new port never takes the id of an existing one.", "quantifier": "all histories of addPort, addEdgeToPort, delPort", "why_tests_cant": "Deletions between insertions.", "anchors": ["src/hstd/ext/graph/base/graph_port.cpp: IPortCollection::addPort, connectPort, getPortsForEdge, getPortForConnection, isSourcePort", "src/hstd/ext/graph/base/graph_port.hpp: delPort"]}
{"id": "C69", "title": "An edge is split at the boundaries it crosses", "statement": "AutoSegmentingCollection::addEdge creates segments that form a path from the source through all crossings to the target; getSegments lists them in this order and every segment leads back to its edge. At each crossing a port connects the two segments that meet there, as the end of the first and the start of the second.", "quantifier": "all forests, all sequences of edges", "why_tests_cant": "Depth of nesting and edges that share a boundary.", "anchors": ["src/hstd/ext/graph/base/graph_hierarchy.cpp: AutoSegmentingCollection::addEdge, getSegments, getSegmentationPorts"]}
{"id": "C70", "title": "The conversion of tokens loses, invents and moves nothing", "statement": "Between the lexer and the parser the tokens are converted. Whatever the stream is, if the conversion returns, the result is the given tokens one by one in the same order, each with its location; a token changes its kind only to one that fits (a word to a keyword, a markup character to opening, closing, undecided or punctuation) and its text only by taking off notation characters. Left out are the end of file, the spaces before a title and the line break that ends the first line of a source block; put together are the pieces of a quoted argument; added are command markers and the begin of the content.", "quantifier": "all streams of tokens", "why_tests_cant": "The state machine looks ahead and back; a lost token depends on the combination of neighbours.", "anchors": ["src/haxorg/parse/OrgTokenizer.cpp: RecombineState::recombine_impl, recombine_markup, map_line_command, map_interpreted_token", "src/haxorg/parse/OrgTokenizer.cpp: OrgTokenizer::convert, recombine"]}
{"id": "C71", "title": "Markup characters are decided by their neighbours", "statement": "In a stream without commands the kind of a markup character depends only on the token before it and the token after it: with a blank before and none after it opens, with none before and a blank after it closes. With a blank on both sides it opens nothing.", "quantifier": "all streams of tokens without commands, all positions", "why_tests_cant": "All combinations of neighbours in all contexts.", "anchors": ["src/haxorg/parse/OrgTokenizer.cpp: RecombineState::recombine_markup"]}
{"id": "C72", "title": "The conversion of tokens returns", "statement": "The conversion of a stream of tokens returns: it neither loops nor throws.", "quantifier": "all streams of tokens", "why_tests_cant": "Any stream; the failures are at ends of streams and inside of commands.", "anchors": ["src/haxorg/parse/OrgTokenizer.cpp: RecombineState::recombine_impl, map_line_command, map_interpreted_token"]}
{"id": "C73", "title": "The leaves of the parse tree are pieces of the document", "statement": "If the parser returns for a text, the result is one tree; its leaves stand for tokens in the order of the document, the recorded places do not decrease, and the text of a leaf is a piece of the text at the place recorded for it.", "quantifier": "all texts", "why_tests_cant": "The whole chain from characters to the tree has to agree for every text.", "anchors": ["src/haxorg/api/ParseContext.cpp: ParseContext::parseStringOpts", "src/haxorg/parse/OrgTokenizer.cpp: OrgTokenizer::convert", "src/haxorg/parse/OrgParser.cpp: OrgParser::parseTop"]}
{"id": "C74", "title": "A document written from a tree of paragraphs is read back as that tree", "statement": "Take any tree of paragraphs made of words, numbers, spaces, punctuation, characters outside of ASCII, line breaks, and bold and italic text nested to any depth, and write it as an org document. Parsing the document does not fail and gives exactly this tree: the same paragraphs, the same nesting of markup around the same pieces, one leaf for every piece with the text of the piece. Any sequence of such pieces, nested properly or not, parses to its reading by the grammar of paragraphs and markup.", "quantifier": "all trees of paragraphs of any size and depth; all sequences of pieces", "why_tests_cant": "The number of documents is unbounded and a piece may be read in another way because of any piece before it.", "anchors": ["src/haxorg/api/ParseContext.cpp: ParseContext::parseStringOpts", "src/haxorg/parse/OrgTokenizer.cpp: OrgTokenizer::convert", "src/haxorg/parse/OrgParser.cpp: OrgParser::parseTop, parseParagraph", "src/haxorg/base_lexer/base_token_tokenize.cpp: tokenize, switch_regular_char"]}
{"id": "C75", "title": "The layouter prints what the block says", "statement": "Whatever the margins and costs are, the text returned by toString for a block is one of the pictures of the block: elements of a line side by side (lines after the first moved to the right by the same amount), elements of a stack below each other, one of the alternatives of a choice, the elements of a wrapped list broken into rows at separators; no text is lost, repeated or reordered, and only spaces at the ends of lines are removed.", "quantifier": "all blocks of any depth, all options, all arithmetic of costs", "why_tests_cant": "The layout depends on margins and costs through piecewise linear functions; any text may be dropped or moved for some combination.", "anchors": ["src/hstd/ext/textlayouter.cpp: SimpleStringStore::toString, BlockStore::toLayout, doOptLayout, formatEvents", "src/hstd/ext/textlayouter.hpp: Solution, Block, Options"]}
{"id": "C76", "title": "The layouter returns", "statement": "With non-negative costs and a left margin in front of the right margin, toString returns for every block that has something to show, however large and deeply nested it is.", "quantifier": "all blocks, all options", "why_tests_cant": "The loops over margins and crossovers end only if every step makes progress.", "anchors": ["src/hstd/ext/textlayouter.cpp: minSolution, vSumSolution, hPlusSolution, Solution::moveToMargin, Solution::add"]}
{"id": "C77", "title": "The formatter writes all texts of a document", "statement": "formatToString of a document returns, and what it writes contains the characters of all texts of the document in their order, whatever the margins of the layout are. For paragraphs, lists, headlines and markup the result is line by line the org notation of the nodes.", "quantifier": "all documents of any size and depth, all layout options", "why_tests_cant": "A text is dropped or moved only for particular combinations of nodes.", "anchors": ["src/haxorg/sem/SemOrgFormat.cpp: Formatter::toString, format, add", "src/hstd/ext/textlayouter.cpp: SimpleStringStore::toString"]}
{"id": "C78", "title": "Reading a document and writing it again keeps its text", "statement": "Parsing a document of paragraphs and markup and formatting the result returns, and the result has the same visible characters in the same order.", "quantifier": "all documents of paragraphs of words, numbers, punctuation, spaces, line breaks and bold and italic characters, properly nested or not", "why_tests_cant": "The chain from characters to tokens, tree, sem tree, blocks and lines has to keep every character for every text.", "anchors": ["src/haxorg/api/ParseContext.cpp: ParseContext::parseString", "src/haxorg/sem/SemConvert.cpp: OrgConverter::toDocument", "src/haxorg/sem/SemOrgFormat.cpp: Formatter::format"]}
{"id": "C79", "title": "Reading a document and writing it again does not change it", "statement": "Parsing a document of paragraphs and markup and formatting the result gives the document, apart from the line break at its end.", "quantifier": "the documents of C78", "why_tests_cant": "The same as C78, with all spaces and line breaks.", "anchors": ["src/haxorg/api/ParseContext.cpp: ParseContext::parseString", "src/haxorg/sem/SemConvert.cpp: OrgConverter::toDocument", "src/haxorg/sem/SemOrgFormat.cpp: Formatter::format"]}
{"id": "C80", "title": "A document with headlines is read with its outline", "statement": "Write a document of text and headlines: stars, an optional todo keyword and priority, a title with words, numbers, punctuation, bold and italic text, tags, and paragraphs below, nested by their levels to any depth. Loading it does not fail and gives exactly these headlines, with these levels, keywords, priorities, titles and tags, with the paragraphs below their headline and every headline inside of the closest one with fewer stars before it.", "quantifier": "all outlines of any size and depth, with any jumps of levels, in any spacing", "why_tests_cant": "All combinations of parts of headlines, of texts and of sequences of levels.", "anchors": ["src/haxorg/api/ParseContext.cpp: ParseContext::parseString", "src/haxorg/sem/SemConvert.cpp: OrgConverter::convertSubtree, convertDocument", "src/haxorg/parse/OrgParser.cpp: OrgParser::parseSubtree, extendSubtreeTrails"]}
{"id": "C81", "title": "Reading a document with headlines and writing it again keeps its text", "statement": "Loading a document with headlines and formatting the result returns, and the result has the same visible characters in the same order.", "quantifier": "the documents of C80", "why_tests_cant": "Any part of a headline may be lost or moved for some combination of parts.", "anchors": ["src/haxorg/api/ParseContext.cpp: ParseContext::parseString", "src/haxorg/sem/SemConvert.cpp: OrgConverter::convertSubtree", "src/haxorg/sem/SemOrgFormat.cpp: Formatter::toString(SemId<Subtree>)"]}
{"id": "C82", "title": "Reading a document with headlines and writing it again does not change it", "statement": "Loading a document with headlines and formatting the result gives the document, apart from the line break at its end.", "quantifier": "the documents of C80", "why_tests_cant": "The same as C81, with all spaces and line breaks.", "anchors": ["src/haxorg/api/ParseContext.cpp: ParseContext::parseString", "src/haxorg/sem/SemConvert.cpp: OrgConverter::convertSubtree", "src/haxorg/sem/SemOrgFormat.cpp: Formatter::toString(SemId<Subtree>)"]}
{"id": "C83", "title": "Attributes are found as they were written", "statement": "After reading the attributes of a command, block or property, the positional ones are those before the first name, asking for a name in any spelling (case, dashes and underscores do not matter) gives exactly the attributes that belong to it in the written order, asking for all gives each attribute once, and the sizes count them.", "quantifier": "all lists of attributes, all names in all spellings", "why_tests_cant": "Names may repeat, in any spelling and in any order.", "anchors": ["src/haxorg/sem/SemConvert.cpp: OrgConverter::convertAttrs", "src/haxorg/sem/SemOrgApi.cpp: AttrGroup::getAttrs, getFlatArgs, setNamedAttr, setPositionalAttr, atVarNamed", "src/haxorg/sem/SemOrgSharedTypes.hpp: AttrGroup"]}
{"id": "C84", "title": "All ways to ask for an attribute agree", "statement": "getNamed, getFirstNamed and getAttrs of an attribute group give the same attributes for the same name, and setting the attributes of a name is seen by all of them and changes no other name.", "quantifier": "all groups of attributes, all names", "why_tests_cant": "All spellings of names.", "anchors": ["src/haxorg/sem/SemOrgApi.cpp: AttrGroup::getAttrs, getNamed, getFirstNamed, setNamedAttr"]}
{"id": "C85", "title": "Properties of a subtree can be set and removed", "statement": "A property that was set on a subtree is got back, a property that was removed is not found any more, and neither changes a property of another name.", "quantifier": "all subtrees with any properties, all names and values", "why_tests_cant": "Kinds of properties, spellings of names and several properties of one name in any combination.", "anchors": ["src/haxorg/sem/SemOrgSharedApi.cpp: subtreeGetPropertiesImpl, subtreeGetPropertyImpl", "src/haxorg/sem/SemOrgApi.cpp: Subtree::setProperty, removeProperty, setPropertyStrValue, NamedProperty::getName, getSubKind, isMatching"]}
{"id": "C86", "title": "The property in force", "statement": "The value of a property under a chain of nested subtrees can always be asked for; it is the value of the innermost subtree that has the property, and for properties with arguments each argument has the value it was given innermost.", "quantifier": "all chains of subtrees, all properties, names and sub-kinds", "why_tests_cant": "Any depth and any mix of properties along the chain.", "anchors": ["src/haxorg/sem/SemOrgSharedApi.cpp: getFinalProperty, Org_combinePropertyStack"]}
{"id": "C87", "title": "Nested hashtags", "statement": "A hashtag matches a prefix exactly if the prefix leads from its top to some tag in it; its flat form lists the paths to all tags without subtags in the written order, and with intermediate tags the paths to all tags, each once.", "quantifier": "all hashtags of any depth and width, all prefixes", "why_tests_cant": "Any nesting.", "anchors": ["src/haxorg/sem/SemOrgApi.cpp: HashTagText::prefixMatch, HashTagText::getFlatHashes"]}
{"id": "C88", "title": "Attributes of statements and commands", "statement": "The attributes of a name reported for a statement are those of the attached `#+attr_\u2026` lines; for a command or block its own come first. Names, captions and variables are found in the same way, and the first attribute of a name is the first of all of them.", "quantifier": "all statements and commands with any attached lines, all names", "why_tests_cant": "Any number of attached lines of any kinds in any order.", "anchors": ["src/haxorg/sem/SemOrgSharedApi.cpp: Stmt_getAttached, Stmt_getAttrs, Stmt_getFirstAttr, Stmt_getCaption, Stmt_getName, Cmd_getAttrs, Cmd_getFirstAttr, BlockCode::getVariable"]}
{"id": "C89", "title": "Lead and body of a paragraph", "statement": "A paragraph is its lead - admonitions, timestamps and hashtags with the spaces and colons between them - followed by its body; the admonitions, timestamps and hashtags reported are those of the lead.", "quantifier": "all paragraphs of nodes of any kinds", "why_tests_cant": "Any order of nodes.", "anchors": ["src/haxorg/sem/SemOrgSharedApi.cpp: Paragraph::getBody, getAdmonitions, getTimestamps, getLeadHashtags, Paragraph_dropAdmonitionNodes, Org_getLeadNodes"]}
{"id": "C90", "title": "Clean text", "statement": "The clean text of a node consists of the texts of all leaves in it in the order of the document; for a title read from a file it is the written title without markup characters.", "quantifier": "all nodes of any depth; all outlines of C80", "why_tests_cant": "Any nesting of nodes.", "anchors": ["src/haxorg/sem/SemOrgSharedApi.cpp: getCleanText, Subtree::getCleanTitle", "src/haxorg/api/SemBaseApi.cpp: eachSubnodeRec"]}
{"id": "C91", "title": "Times of a subtree", "statement": "The periods reported for a subtree are those written in its title, in its planning lines, its properties and its logs, each with its kind, for the kinds asked for; the creation time reported is the one recorded.", "quantifier": "all subtrees, all sets of kinds", "why_tests_cant": "Any combination of planning lines, properties, logs and timestamps.", "anchors": ["src/haxorg/sem/SemOrgSharedApi.cpp: Subtree_getTimePeriodsImpl", "src/haxorg/api/SemBaseApi.cpp: getCreationTime"]}
{"id": "C92", "title": "Grouping the subnodes of a node", "statement": "getSubnodeGroups returns for every node and every tracking map; the groups are the subnodes in their order, a radio group spells the words of its target, and a word is left alone only if none of the targets tracked under it is spelled from there on. Where grouping the immutable form of the document returns, both give the same groups.", "quantifier": "all lists of subnodes, all tracking maps", "why_tests_cant": "Targets may share beginnings, overlap, contain each other, and end with the paragraph.", "anchors": ["src/haxorg/api/SemBaseApi.cpp: getSubnodeGroups, tryRadioTargetSearch", "src/haxorg/imm/ImmOrg.cpp: getSubnodeGroups"]}
{"id": "C93", "title": "Nodes are found by their names", "statement": "After collecting the names of any documents, a subtree is found by its id, a footnote by its name, a radio target (also one given as property) by its first word and the definition of a tag by the tag; for each name all nodes with this name are found, each with the way to it, and nothing else.", "quantifier": "all lists of documents of any size and depth, all names", "why_tests_cant": "Named nodes may be anywhere, and names may repeat.", "anchors": ["src/haxorg/api/SemBaseApi.cpp: getAstTrackingMap, eachSubnodeRecSimplePath", "src/haxorg/api/SemBaseApi.hpp: AstTrackingMap", "src/haxorg/sem/SemOrgApi.cpp: Org::getAllSubnodes"]}
{"id": "C94", "title": "Editing lists", "statement": "getListHeaderIndex gives the first item with the header or -1; setListItemBody changes the body of the item at the index and nothing else; inserting puts the new item at the index and moves the rest; an index outside of the list throws; isNumberedList and isDescriptionList tell the kind of the list.", "quantifier": "all lists, all indices, headers and bodies", "why_tests_cant": "All indices of all lists.", "anchors": ["src/haxorg/api/SemBaseApi.cpp: getListHeaderIndex, setListItemBody, insertDescriptionListItem, insertListItemBody", "src/haxorg/sem/SemOrgSharedApi.cpp: List_isDescriptionList, List_isNumberedList"]}
{"id": "C95", "title": "Times made from parts", "statement": "A time made by newSemTimeStatic from a year, a year and month, a date, or a date and time has exactly these parts when asked for its breakdown.", "quantifier": "all valid combinations of parts", "why_tests_cant": "All dates, and all sets of parts given.", "anchors": ["src/haxorg/api/SemBaseApi.cpp: newSemTimeStatic", "src/hstd/stdlib/Time.cpp: UserTime::getBreakdown"]}
{"id": "C96", "title": "Trees survive the protobuf form", "statement": "A tree written to its protobuf message and read back is the same tree, for every class of nodes and every value of its members; different trees have different messages.", "quantifier": "all values of all 213 classes, of any depth", "why_tests_cant": "The tables of members, of writing and of reading are separate and generated; any combination of optional, repeated and variant members.", "anchors": ["src/haxorg/serde/SemOrgSerdeDefinitions.cpp", "src/haxorg/serde/SemOrgSerde.hpp: proto_serde", "src/haxorg/serde/SemOrgSerde.cpp"]}
{"id": "C97", "title": "Values survive the JSON form", "statement": "A value of any type with a JSON form - numbers, strings, enumerators, optionals, pointers, pairs, ranges, vectors, sets, maps, ids, records and variants, nested in any way - is the same after being written to JSON and read back; different values have different JSON forms.", "quantifier": "all types built from these, also recursive records, all their values", "why_tests_cant": "Any nesting of containers, optionals and records.", "anchors": ["src/hstd/stdlib/JsonSerde.hpp: JsonSerde", "src/hstd/stdlib/OptSerde.hpp", "src/hstd/stdlib/VariantSerde.hpp", "src/hstd/stdlib/MapSerde.hpp", "src/hstd/stdlib/SetSerde.hpp", "src/haxorg/imm/ImmOrgBaseSerde.hpp"]}
{"id": "C98", "title": "Reading any JSON value", "statement": "Reading any JSON value as any type gives a value or throws an exception.", "quantifier": "all JSON values, all types", "why_tests_cant": "JSON comes from other programs and users.", "anchors": ["src/hstd/stdlib/JsonSerde.hpp: JsonSerde::from_json"]}
{"id": "C99", "title": "The edits found by the eager tree diff lead to the destination", "statement": "Carrying out the edits reported by getEdits on the source tree - insertions and deletions of subtrees, moves under the same parent, updates of values - gives the destination tree.", "quantifier": "all pairs of finite trees with any kinds and values, all functions comparing values", "why_tests_cant": "Any shape of trees, any number of equal, moved, changed, added and removed subnodes at any depth.", "anchors": ["src/hstd/ext/astdiff/astdiff_eager.cpp: getEdits, EagerAstDiff::diffSubnodes, findBestMatch, processMatchedSubnodes", "src/hstd/ext/astdiff/astdiff_eager.hpp: DiaEdit"]}
{"id": "C100", "title": "The eager diff of equal trees is empty", "statement": "getEdits of two trees with the same kinds and values reports nothing.", "quantifier": "all finite trees", "why_tests_cant": "Equal subnodes may be anywhere in the tree.", "anchors": ["src/hstd/ext/astdiff/astdiff_eager.cpp: getEdits, EagerAstDiff::findBestMatch"]}
{"id": "C101", "title": "The tree diff returns a one-to-one matching", "statement": "Comparing two trees with ASTDiff returns. The nodes it matches are matched one-to-one, belong to the two trees, and only nodes are matched for which isMatchingAllowed says so.", "quantifier": "all pairs of finite trees, all comparison options", "why_tests_cant": "Both phases, the candidates and the dynamic programme of Zhang and Shasha have to keep the matching one-to-one for every pair of trees.", "anchors": ["src/hstd/ext/astdiff/astdiff.hpp: ASTDiff::computeMapping, Mapping, PriorityList, ZhangShashaMatcher", "src/hstd/ext/astdiff/astdiff.cpp: ASTDiff::matchTopDown, matchBottomUp, addOptimalMapping, ZhangShashaMatcher::getMatchingNodes, computeForestDist"]}
{"id": "C102", "title": "What the change of a node means", "statement": "After comparing two trees, a node of the source is reported as deleted exactly when it has no partner, a node of the destination as inserted exactly when it has none; both nodes of a pair get the same change; it includes an update exactly when the values differ, and it is a move when the parents of the pair are not a pair.", "quantifier": "all pairs of finite trees, all comparison options of C101", "why_tests_cant": "The changes are computed in four passes that overwrite each other.", "anchors": ["src/hstd/ext/astdiff/astdiff.cpp: ASTDiff::computeChangeKinds", "src/hstd/ext/astdiff/astdiff.hpp: ChangeKind, haveSameParents"]}
{"id": "C103", "title": "Nodes that are not reported as moved keep their order", "statement": "Two subnodes of one node that are matched and not reported as moved are in the same order in both trees; when no node is reported as moved, the parents of pairs are pairs and all paired subnodes are in the same order.", "quantifier": "all pairs of finite trees", "why_tests_cant": "Any number of insertions, deletions and moves next to each other.", "anchors": ["src/hstd/ext/astdiff/astdiff.cpp: ASTDiff::computeChangeKinds", "src/hstd/ext/astdiff/astdiff.hpp: SyntaxTree::findPositionInParent"]}
{"id": "C104", "title": "The diff of equal trees reports no change", "statement": "Comparing two trees with the same kinds and values matches each node with its equal and reports no change.", "quantifier": "all finite trees", "why_tests_cant": "Trees of any width and height, equal subtrees anywhere.", "anchors": ["src/hstd/ext/astdiff/astdiff.hpp: ASTDiff", "src/hstd/ext/astdiff/astdiff.cpp: ASTDiff::matchTopDown, matchBottomUp, computeChangeKinds"]}
{"id": "C105", "title": "The edits between two versions of an immutable document", "statement": "getEdits of two immutable trees returns; the nodes without partner are exactly the inserted and deleted ones, and the pairs are kept or replaced.", "quantifier": "all pairs of immutable trees", "why_tests_cant": "Any difference between two versions.", "anchors": ["src/haxorg/sem/SemAstDiff.cpp: ImmNodeDiff::getEdits, ImmNodeDiff::getOptions", "src/hstd/ext/astdiff/astdiff.hpp: ASTDiff::getMapped"]}
{"id": "C106", "title": "Parsing a directory parses each file at most once", "statement": "parseDirectoryOpts calls the parser at most once for every path, and only for accepted Org files, however many links, includes and directory entries lead to it.", "quantifier": "all file systems, parsers and configurations", "why_tests_cant": "Loops of symbolic links and of includes of any length.", "anchors": ["src/haxorg/api/ParseContext.cpp: ParseContext::parseDirectoryOpts, parsePathImpl, parseFileWithIncludes, DirectoryParseState"]}
{"id": "C107", "title": "Every reachable document is in the parsed tree exactly once", "statement": "In the tree returned by parseDirectoryOpts every Org document that is reachable from the root through directories and symbolic links is there with its content exactly once, and no path occurs with content twice.", "quantifier": "all file systems, parsers without File nodes in their documents, and configurations", "why_tests_cant": "A document can be reached in any number of ways, through its directory, links and includes, in any order.", "anchors": ["src/haxorg/api/ParseContext.cpp: parsePathImpl, parseDirectoryImpl, postProcessFileReferences"]}
{"id": "C108", "title": "Parsing a directory returns", "statement": "parseDirectoryOpts and parseFileWithIncludes return, with a value or an exception, whatever loops symbolic links and includes form.", "quantifier": "all file systems with finitely many files, all documents", "why_tests_cant": "Recursion through links, directories and includes; any loop.", "anchors": ["src/haxorg/api/ParseContext.cpp: parsePathImpl, postProcessFileReferences, resolvePath"]}
{"id": "C109", "title": "Links and includes are resolved once, from the directory of their document", "statement": "After parseDirectoryOpts a link to an existing file has one File node for it, resolved from the directory of the document the link is in; all else in the document is as parsed; an include that was found is not reported as missing.", "quantifier": "all file systems, documents and configurations", "why_tests_cant": "Documents nested in each other through includes to any depth.", "anchors": ["src/haxorg/api/ParseContext.cpp: postProcessFileReferences, resolvePath"]}
{"id": "C110", "title": "Evaluating a document puts the results of its blocks into it", "statement": "evaluateCodeBlocks returns the document in which every code block and call for which the evaluator gave an output has this output among its results (appended, prepended or instead of the older ones, as asked for), and which is otherwise as before.", "quantifier": "all documents, all evaluators", "why_tests_cant": "Any number of blocks anywhere in the document; each result changes the document in which the next one is placed.", "anchors": ["src/haxorg/api/EvalContext.cpp: EvalContext::setOutput, evalAll, org::evaluateCodeBlocks", "src/haxorg/imm/ImmOrgStore.cpp: ImmAstStore::cascadeUpdate"]}
{"id": "C111", "title": "Every block is evaluated once, in the order of the document", "statement": "evaluateCodeBlocks evaluates every code block and every call of the document exactly once, in the order of the document, each as it is in the given document.", "quantifier": "all documents, all evaluators", "why_tests_cant": "Blocks may be at any depth, equal to each other and nested.", "anchors": ["src/haxorg/api/EvalContext.cpp: EvalContext::evalAll", "src/haxorg/imm/ImmOrg.cpp: eachSubnodeRec"]}
{"id": "C112", "title": "Slices of arrays", "statement": "Slicing the value of a variable by spans like 2:-1 gives the part of the nested arrays at the positions of the spans, both ends included, negative positions counted from the end; spans outside of the value, and values that are no arrays, give an exception.", "quantifier": "all JSON values, all lists of spans", "why_tests_cant": "Any nesting and any lengths, all combinations of positive and negative positions.", "anchors": ["src/haxorg/api/EvalContext.cpp: sliceJson", "src/haxorg/sem/SemOrgSharedTypes.hpp: AttrValue::DimensionSpan"]}
{"id": "C113", "title": "What a block is evaluated with", "statement": "The code given to the evaluator is the code of the block without callouts; the last word of each class of `:results` counts; the arguments are sorted by name, each name comes once, and its value is that of the call if there is one and of the default otherwise.", "quantifier": "all blocks, all attributes and arguments", "why_tests_cant": "Any number and order of words and of variables, named or not.", "anchors": ["src/haxorg/api/EvalContext.cpp: EvalContext::convertInput"]}
{"id": "C114", "title": "Demoting a headline", "statement": "demoteSubtree gives a new version of the document in which the headline has one star more - only it (Physical), it and all headlines below it (ForceLevels), or it and those below that would otherwise not be nested any more (EnsureLevels); the lines of the document are otherwise the same, in the same order, the nesting is that of the levels, and the old version stays readable.", "quantifier": "all documents and histories, all headlines, all three kinds of moves", "why_tests_cant": "Headlines at any depth, with any number of siblings and headlines below; the parts of equal structure share nodes.", "anchors": ["src/haxorg/imm/ImmOrgEdit.cpp: demoteSubtree", "src/haxorg/imm/ImmOrgEdit.hpp: SubtreeMove", "src/haxorg/imm/ImmOrgStore.cpp: ImmAstStore::cascadeUpdate"]}
{"id": "C115", "title": "Properties of a headline survive being written and read", "statement": "The id and the properties of a headline, written into its property drawer by the formatter and read back, are the same id and the same properties in the same order.", "quantifier": "all ids, all lists of properties of all kinds with all values", "why_tests_cant": "Names and values are written and read by separate tables, with values of any characters.", "anchors": ["src/haxorg/sem/SemConvert.cpp: convertPropertyList, convertProperty", "src/haxorg/sem/SemOrgFormat.cpp: Formatter::toString(Subtree)", "src/haxorg/parse/OrgTokenizer.cpp: property lines"]}
{"id": "C116", "title": "Reading and writing property drawers is stable", "statement": "The properties read from any drawer, written and read again, are the same properties.", "quantifier": "all texts of drawers", "why_tests_cant": "Any names in any spelling, any values.", "anchors": ["src/haxorg/sem/SemConvert.cpp: convertPropertyList", "src/haxorg/sem/SemOrgFormat.cpp: Formatter::toString(Subtree)"]}
{"id": "C117", "title": "Which property a line of a drawer is", "statement": "A property is recognised by its name in any case, with or without _ and -, and its value is taken without the spaces around it; a line with any other name is kept as a custom property; the properties are in the order of the lines, and the last id is the id of the headline.", "quantifier": "all names, values and numbers of lines", "why_tests_cant": "All spellings and all values.", "anchors": ["src/haxorg/sem/SemConvert.cpp: convertPropertyList", "src/hstd/stdlib/strutils.cpp: normalize"]}
{"id": "C118", "title": "Names in documents are found", "statement": "After documents have been added to an ImmAstContext, every headline with an id or a custom id, every footnote, every named statement, every definition of a tag and every radio target in them is found by its name, provided no two nodes have the same name; what is found by a name is in one of the documents and has the name; and every document can be added.", "quantifier": "all documents, any number of them", "why_tests_cant": "Any number of names anywhere in documents; equal nodes are stored once.", "anchors": ["src/haxorg/imm/ImmOrg.cpp: ImmAstTrackingMapTransient, updateTracking", "src/haxorg/imm/ImmOrgStore.cpp: ImmAstStore::add, ImmAstContext::addRoot"]}
{"id": "C119", "title": "Names stay up to date when a document is edited", "statement": "In every version of a document made by replacing nodes and adding new ones, every name in the version is found, what is found is in the version and has the name, and replacing a node returns.", "quantifier": "all documents and all histories of edits", "why_tests_cant": "Any number of edits per version, in any order, at any positions; the nodes above are replaced too; equal nodes are shared.", "anchors": ["src/haxorg/imm/ImmOrg.cpp: updateTracking", "src/haxorg/imm/ImmOrgStore.cpp: ImmAstStore::setNode, cascadeUpdate, recurseUpdateSubnodes"]}
{"id": "C120", "title": "Timestamps and ranges in a text are read as written", "statement": "In a document every timestamp and every range of timestamps - active or not, with the name of a day, a time of the day, a zone, repeaters and a warning period - is found, in the order of the text, and its date, time, zone, repeaters and warning are those written.", "quantifier": "all paragraphs of words, numbers, punctuation, timestamps and ranges, of any length", "why_tests_cant": "Any combination of the optional parts, anywhere in any text, with anything before and after it.", "anchors": ["src/haxorg/sem/SemConvert.cpp: convertTime, convertTimeRange, ParseUserTime, ConvertToTimeZone", "src/haxorg/parse/OrgParser.cpp: parseTimeStamp, parseTimeRange", "src/haxorg/parse/OrgTokenizer.cpp: time tokens"]}
{"id": "C121", "title": "Which timestamps are accepted", "statement": "A timestamp is read as a time exactly if it is a day of the Gregorian calendar with a time of the day from 00:00 to 23:59:59; otherwise there is an error node in its place.", "quantifier": "all timestamps with four digits for the year and two for all else", "why_tests_cant": "All years, months, days and times.", "anchors": ["src/haxorg/sem/SemConvert.cpp: convertTime, ParseUserTime"]}
{"id": "C122", "title": "Times survive being written and read", "statement": "A time that was read from a text is written by the formatter so that reading the result gives the same time, zone, repeaters and warning.", "quantifier": "all times that can be read from a text", "why_tests_cant": "Any combination of date, alignment, zone, repeaters and warning.", "anchors": ["src/haxorg/sem/SemOrgFormat.cpp: Formatter::toString(Time)", "src/hstd/stdlib/Time.cpp: UserTime::format", "src/haxorg/sem/SemConvert.cpp: convertTime"]}
{"id": "C123", "title": "Durations of clock entries", "statement": "The duration of a clock entry is written as hours, a colon and two digits of minutes, and is the whole number of minutes between the two times.", "quantifier": "all durations", "why_tests_cant": "All differences between two times, also negative ones.", "anchors": ["src/haxorg/sem/SemOrgFormat.cpp: FormatTimeDelta"]}
{"id": "C124", "title": "The entries of a logbook are read as written", "statement": "The conversion of an entry of a logbook - a change of state, a note, a priority that was added, changed or removed, a clock - gives the kind of the entry with the states, priorities and times that are written in it.", "quantifier": "all entries of these kinds with all names and times, with any spaces", "why_tests_cant": "Any names, times with any parts, any width of the spaces.", "anchors": ["src/haxorg/sem/SemConvert.cpp: convertSubtreeLog", "src/haxorg/parse/OrgParser.cpp: parseSubtreeLogbook"]}
{"id": "C125", "title": "The entries of a logbook survive being written and read", "statement": "An entry of a logbook is written by the formatter in a line that is read as the same entry.", "quantifier": "all entries with all names and times", "why_tests_cant": "Any names and times; the reader and the writer are separate code.", "anchors": ["src/haxorg/sem/SemOrgFormat.cpp: Formatter::toString(SubtreeLog)", "src/haxorg/sem/SemConvert.cpp: convertSubtreeLog"]}
{"id": "C126", "title": "Reading a logbook does not fail", "statement": "No list item in a logbook ends the conversion of the document with an exception.", "quantifier": "all list items", "why_tests_cant": "Any text may be in a logbook.", "anchors": ["src/haxorg/sem/SemConvert.cpp: convertSubtreeLog"]}
{"id": "C127", "title": "Entries that are not understood are kept", "statement": "An entry of a logbook which is none of the known ones is the same after the document was written and read, any number of times.", "quantifier": "all entries, any number of rounds", "why_tests_cant": "Any text; the effect of each round is the input of the next.", "anchors": ["src/haxorg/sem/SemConvert.cpp: convertSubtreeLog", "src/haxorg/sem/SemOrgFormat.cpp: Formatter::toString(SubtreeLog)"]}
{"id": "C128", "title": "Entries about deadlines keep their times", "statement": "The times in an entry about a changed deadline are in the converted entry, and the entry can be written.", "quantifier": "all entries about deadlines", "why_tests_cant": "Any times and any other text in the entry.", "anchors": ["src/haxorg/sem/SemConvert.cpp: convertSubtreeLog", "src/haxorg/sem/SemOrgFormat.cpp: Formatter::toString(SubtreeLog)"]}
{"id": "C129", "title": "Descriptions of entries", "statement": "The description of an entry is all that comes after the first double backslash in its paragraph, without the spaces and line ends before it, and all other statements of the list item, in their order; without any there is none.", "quantifier": "all paragraphs and statements", "why_tests_cant": "Any nodes before and after the double backslash.", "anchors": ["src/haxorg/sem/SemConvert.cpp: convertSubtreeLog"]}
{"id": "C130", "title": "Links in a text are read as written", "statement": "In a paragraph every link - to a web address in brackets or not, a file, an attachment, an id, a custom id, a title with subtitles, a path, a target in the document, a person or a footnote - is found in its place, leads to what is written in it and has the description that is written in it; the text around is read as text.", "quantifier": "all paragraphs of words, numbers, punctuation and links, with all targets and descriptions", "why_tests_cant": "Any target, any description and any text before and after, of any length.", "anchors": ["src/haxorg/sem/SemConvert.cpp: convertLink", "src/haxorg/parse/OrgParser.cpp: parseLink, parseFootnote", "src/haxorg/parse/OrgTokenizer.cpp: link tokens"]}
{"id": "C131", "title": "Links survive being written and read", "statement": "The links and the text of a paragraph that was read are written by the formatter so that reading the result gives the same links and the same text.", "quantifier": "all paragraphs of words, numbers, punctuation and links", "why_tests_cant": "The text next to a link may become part of it; each kind of link is written by other code than it is read by.", "anchors": ["src/haxorg/sem/SemOrgFormat.cpp: Formatter::toString(Link), toString(LinkTarget)", "src/haxorg/sem/SemConvert.cpp: convertLink"]}
{"id": "C132", "title": "Links with protocols of the user", "statement": "A link with a protocol org itself does not know keeps the protocol, its target and its description.", "quantifier": "all names of protocols, targets and descriptions", "why_tests_cant": "Any name and any target.", "anchors": ["src/haxorg/sem/SemConvert.cpp: convertLink", "src/haxorg/parse/OrgParser.cpp: parseLink", "src/haxorg/parse/OrgTokenizer.cpp: link tokens"]}
{"id": "C133", "title": "Source blocks are read as written", "statement": "A document of source blocks is read as these blocks: each with its language, its arguments in order (a value without a name belongs to the name before it), and its lines of code with the references in them, without the indentation that the block and all of its lines share; nothing of the code is lost or changed.", "quantifier": "all documents of source blocks: any language, arguments, indentation, capitals, code lines with references and angles, and line breaks between the blocks", "why_tests_cant": "Code is arbitrary text of any length, at any indentation.", "anchors": ["src/haxorg/sem/SemConvert.cpp: convertBlockCode, convertAttrs, convertAttr", "src/haxorg/parse/OrgParser.cpp: parseSrc, parseCallArguments", "src/haxorg/parse/OrgTokenizer.cpp: source blocks", "src/haxorg/parse/OrgTokenizer.cpp: source blocks"]}
{"id": "C134", "title": "Source blocks survive being written and read", "statement": "The source blocks of a document that was read are written by the formatter so that reading the result gives the same blocks: the same languages and the same lines.", "quantifier": "all documents of source blocks without arguments", "why_tests_cant": "Code is arbitrary text; the layout engine and the lexer see all of it.", "anchors": ["src/haxorg/sem/SemOrgFormat.cpp: Formatter::toString(BlockCode)", "src/haxorg/sem/SemConvert.cpp: convertBlockCode"]}
{"id": "C135", "title": "Any code can be put in a source block", "statement": "Lines of code that are put between the first and the last line of a source block are kept, character by character, if none of them looks like the end of the block.", "quantifier": "all lists of lines of text that do not start with the end of a source block", "why_tests_cant": "The code is arbitrary text of any length.", "anchors": ["src/haxorg/parse/OrgParser.cpp: parseSrc", "src/haxorg/sem/SemConvert.cpp: convertBlockCode", "src/haxorg/parse/OrgTokenizer.cpp: source blocks"]}
{"id": "C136", "title": "Example and export blocks are read as written", "statement": "A document of example and export blocks is read as these blocks: an export block with its exporter and its lines unchanged, an example with its lines without the indentation that the block and all of its lines share; nothing in the lines is taken for markup.", "quantifier": "all documents of example and export blocks: any exporter, lines, indentation, capitals and line breaks between the blocks", "why_tests_cant": "The lines are arbitrary text of any length and number.", "anchors": ["src/haxorg/sem/SemConvert.cpp: convertBlockExample, convertBlockExport", "src/haxorg/parse/OrgParser.cpp: parseExample, parseBlockExport", "src/haxorg/parse/OrgTokenizer.cpp: example and export blocks"]}
{"id": "C137", "title": "Export blocks survive being written and read", "statement": "The export blocks of a document that was read are written by the formatter so that reading the result gives the same exporters and the same contents.", "quantifier": "all documents of export blocks", "why_tests_cant": "The content is arbitrary text; the layout engine and the lexer see all of it.", "anchors": ["src/haxorg/sem/SemOrgFormat.cpp: Formatter::toString(BlockExport)", "src/haxorg/sem/SemConvert.cpp: convertBlockExport"]}
{"id": "C138", "title": "Examples survive being written and read", "statement": "The examples of a document that was read are written by the formatter so that reading the result gives the same lines, however often this is done.", "quantifier": "all documents of examples, any number of rounds", "why_tests_cant": "The lines are arbitrary text, and the result of each round is the input of the next.", "anchors": ["src/haxorg/sem/SemOrgFormat.cpp: Formatter::toString(BlockExample)", "src/haxorg/sem/SemConvert.cpp: convertBlockExample"]}
{"id": "C139", "title": "Tables are read as written", "statement": "A document of tables and paragraphs is read as these tables and paragraphs: each table with its rows, each row with its cells in order, and each cell with its words and links without the spaces around them; rules are not rows; paragraphs before and after a table are not part of it.", "quantifier": "all documents of tables and one-line paragraphs: any number of rows, cells, rules, spaces and empty lines", "why_tests_cant": "Tables have any number of rows and cells, with any text in them.", "anchors": ["src/haxorg/sem/SemConvert.cpp: convertTable", "src/haxorg/parse/OrgParser.cpp: parseTable, parseTablePipeRow", "src/haxorg/parse/OrgTokenizer.cpp: table rows"]}
{"id": "C140", "title": "What is written for a table", "statement": "For a document of tables and paragraphs that was read, the formatter writes each line of the tables: of each row the texts of all its cells, in order, between bars, and the paragraphs with the empty lines after them; nothing else.", "quantifier": "all documents of tables and one-line paragraphs, of any size up to the limit of the layout engine", "why_tests_cant": "The text is produced by the layout engine from cells of any number and size.", "anchors": ["src/haxorg/sem/SemOrgFormat.cpp: Formatter::toString(Table), Formatter::toString(Paragraph)", "src/haxorg/sem/SemConvert.cpp: convertTable"]}
{"id": "C141", "title": "Tables survive being written and read", "statement": "The tables and paragraphs of a document that was read are written by the formatter so that reading the result, with a final line end, gives the same tables and paragraphs.", "quantifier": "all documents of tables and one-line paragraphs", "why_tests_cant": "The cells have any text; the layout engine and the lexer see all of it.", "anchors": ["src/haxorg/sem/SemOrgFormat.cpp: Formatter::toString(Table)", "src/haxorg/sem/SemConvert.cpp: convertTable", "src/haxorg/parse/OrgParser.cpp: parseTable"]}
{"id": "C142", "title": "Lists are read as written", "statement": "A list in a text is read as its items, in order: each with its mark, its checkbox, its words and links, the empty line after it, and the list below it, which are the lines after it that are indented more; every line that starts with a mark is an item.", "quantifier": "all lists of one-line items: any marks, numbers, boxes, words, depths, indentations and empty lines", "why_tests_cant": "Lists have any number of items at any depth, with any text in them.", "anchors": ["src/haxorg/sem/SemConvert.cpp: convertList, convertListItem", "src/haxorg/parse/OrgParser.cpp: parseList, parseListItem", "src/haxorg/parse/OrgTokenizer.cpp: list items and indentation"]}
{"id": "C143", "title": "What is written for a list", "statement": "For a list that was read, the formatter writes a line for each item: its mark, a space, its box in lower case, and its words; then the empty line after it, and the list below it, indented so that its marks are below the first word of the item; nothing else.", "quantifier": "all lists of one-line items, of any depth and of any size up to the limit of the layout engine", "why_tests_cant": "The text is produced by the layout engine from items of any number, depth and size.", "anchors": ["src/haxorg/sem/SemOrgFormat.cpp: Formatter::toString(List), Formatter::toString(ListItem)", "src/haxorg/sem/SemConvert.cpp: convertListItem"]}
{"id": "C144", "title": "Lists survive being written and read", "statement": "The lists of a text that was read are written by the formatter so that reading the result, with a final line end, gives the same lists.", "quantifier": "all texts that are read as lists, paragraphs and line breaks", "why_tests_cant": "The reader finds the items by their indentation, which the layout engine chooses; any depth and any text.", "anchors": ["src/haxorg/sem/SemOrgFormat.cpp: Formatter::toString(ListItem), Formatter::toString(Newline)", "src/haxorg/sem/SemConvert.cpp: convertListItem", "src/haxorg/parse/OrgParser.cpp: parseList"]}
{"id": "C145", "title": "A fuzzy match is found exactly if the pattern is a subsequence", "statement": "The fuzzy matcher reports a match exactly if the elements of the pattern are equal, in order, to elements of the string; the positions it reports are such elements and the score is the one the score function gives for them.", "quantifier": "all patterns, strings, equality tests and score functions", "why_tests_cant": "The search is recursive, with a limit on the recursion that is shared by all its branches.", "anchors": ["src/hstd/stdlib/diffs.cpp: FuzzyMatcher::fuzzy_match, FuzzyMatcher::fuzzy_match_recursive", "src/hstd/stdlib/diffs.hpp: FuzzyMatcher"]}
{"id": "C146", "title": "The score of a fuzzy match is the best one", "statement": "If there are several ways to find the pattern in the string, the fuzzy matcher reports one with the highest score.", "quantifier": "all patterns, strings, equality tests, score functions and limits of the recursion", "why_tests_cant": "There are exponentially many ways to match; tests try a few.", "anchors": ["src/hstd/stdlib/diffs.cpp: FuzzyMatcher::fuzzy_match_recursive"]}
{"id": "C147", "title": "What a score says", "statement": "The score of a fuzzy match is -1 exactly if there is no match, so items can be kept or dropped by their scores.", "quantifier": "all patterns, strings and equality tests, with the standard score", "why_tests_cant": "The score depends on the length of the string and on all positions.", "anchors": ["src/hstd/stdlib/diffs.cpp: FuzzyMatcher::get_score, FuzzyMatcher::getLinearScore", "src/app/org_viewer/file_agenda_table.cpp: filter of the agenda"]}
{"id": "C148", "title": "A set of values has the members that were put in", "statement": "However a set of values of an enumeration is made, by including, excluding, union, difference, intersection, symmetric difference and complement, a value is in it exactly if it should be; sets are compared by their members; nothing is thrown.", "quantifier": "all enumerations with descriptions, all sequences of operations, all values", "why_tests_cant": "Sets are made by any number of operations on any enumeration.", "anchors": ["src/hstd/stdlib/IntSet.hpp: IntSet::incl, IntSet::excl, IntSet::contains", "src/hstd/stdlib/SetCommon.hpp: SetBase", "src/hstd/system/reflection.hpp: value_domain::ord"]}
{"id": "C149", "title": "A loop over a set visits its members", "statement": "A loop over a set of values visits exactly the members of the set, once each, and the size is their number.", "quantifier": "all enumerations, all sets", "why_tests_cant": "It depends on the numbers of the enumerators, and on all bits of the set.", "anchors": ["src/hstd/stdlib/IntSet.hpp: IntSet::iterator, value_from_bitset_index, IntSet::size, operator~"]}
{"id": "C150", "title": "Sets survive JSON", "statement": "A set of values of an enumeration that is written to JSON is read back as the same set.", "quantifier": "all enumerations, all sets", "why_tests_cant": "The names of all members are written and looked up again.", "anchors": ["src/hstd/stdlib/IntSetSerde.hpp: JsonSerde<IntSet>", "src/hstd/stdlib/IntSet.hpp: IntSet::iterator"]}
{"id": "C151", "title": "The text on the terminal is the text", "statement": "What a terminal shows for the coloured form of a text are the characters of its plain form; no part of an escape sequence is shown.", "quantifier": "all texts, colours, styles and states of the terminal", "why_tests_cant": "Any sequence of colours and styles gives other escape sequences.", "anchors": ["src/hstd/stdlib/ColText.cpp: to_colored_string, ansiDiff, ansiEsc"]}
{"id": "C152", "title": "The colours and styles on the terminal are those of the text", "statement": "A terminal that follows ECMA-48 shows every character of a coloured text with its colours and styles, and is afterwards as it was before.", "quantifier": "all texts, colours and styles", "why_tests_cant": "What a terminal shows depends on everything that was written before.", "anchors": ["src/hstd/stdlib/ColText.cpp: to_colored_string, ansiDiff, ansiEsc", "src/hstd/stdlib/IntSet.hpp: IntSet::iterator"]}
{"id": "C153", "title": "The chunks of a text say its colours and styles", "statement": "The chunks for JSON give for every character of the text its colours and its styles, in order.", "quantifier": "all texts, colours and styles", "why_tests_cant": "Texts have any number of runs of any length.", "anchors": ["src/hstd/stdlib/ColText.cpp: to_formatting_json"]}
{"id": "C154", "title": "HTML for coloured text is well formed", "statement": "The tags of the HTML for a coloured text are nested, each is closed, and the text between them contains no tags.", "quantifier": "all texts, colours and styles", "why_tests_cant": "The tags that are open depend on all the text before.", "anchors": ["src/hstd/stdlib/ColText.cpp: to_colored_html"]}
{"id": "C155", "title": "A stream writes with the colour that was put in last", "statement": "A colour that is put into a stream is the colour of the text that is put in next; the position is the number of runes; what is written in parts looks like what is written at once.", "quantifier": "all streams, colours, texts and sequences of operations", "why_tests_cant": "The active style is the result of all operations before.", "anchors": ["src/hstd/stdlib/ColText.hpp: operator<<, ColStyle::operator+, ColStream", "src/hstd/stdlib/ColText.cpp: ColStream::write"]}
{"id": "C156", "title": "Parts, alignment and indentation of coloured texts", "statement": "A text is split at a delimiter into parts without it, which joined by the delimiter are the text; an aligned text is the text and the padding up to the width; an indented text has the spaces after each line end and is otherwise the same.", "quantifier": "all texts, delimiters, widths and indentations", "why_tests_cant": "Texts of any length with any number of delimiters.", "anchors": ["src/hstd/stdlib/ColText.cpp: ColText::split, ColText::leftAligned, ColText::rightAligned, ColStream::write_indented_after_first", "src/hstd/stdlib/ColText.hpp: join"]}
{"id": "C157", "title": "Vertices of a graph survive being written and read", "statement": "Every graph can be written to a message. Whenever the message is read, the vertices of the new graph are those of the old one, with the same stable ids, attributes and order, and each is found by its stable id.", "quantifier": "all graphs, whatever was added to them and removed from them", "why_tests_cant": "Any number of vertices, collections and hierarchies, each with any history.", "anchors": ["src/hstd/ext/graph/base/graph_base.cpp: IGraph::writeSerial, IGraph::readSerial", "src/hstd/ext/graph/base/graph_vertex.cpp: IVertex::writeSerial, TrivialVertex::readSerial"]}
{"id": "C158", "title": "Edges of a graph survive being written and read", "statement": "The edges of a graph that was written and read have the stable ids, sources, targets and attributes of the old one, the new graph can be asked for the ends of each of them, and it can be written again.", "quantifier": "all graphs, all collections of edges", "why_tests_cant": "Any number of edges and collections; which edges are missing depends on the ids of the collections.", "anchors": ["src/hstd/ext/graph/base/graph_edge.cpp: IEdge::writeSerial, IEdgeCollection::writeSerial, TrivialEdgeCollection::readSerial"]}
{"id": "C159", "title": "Hierarchies of a graph survive being written and read", "statement": "What was written can be read, and the hierarchies have the same vertices, roots, parents, sub-vertices and edges as before.", "quantifier": "all graphs, all hierarchies", "why_tests_cant": "Any nesting of any number of vertices, including none.", "anchors": ["src/hstd/ext/graph/base/graph_hierarchy.cpp: IVertexHierarchy::writeSerial, IVertexHierarchy::readSerial"]}
{"id": "C160", "title": "Ports of a graph survive being written and read", "statement": "The graph that is read has the collections of ports of the one that was written.", "quantifier": "all graphs, all collections of ports", "why_tests_cant": "Any number of ports.", "anchors": ["src/hstd/ext/graph/base/graph_base.cpp: IGraph::writeSerial, IGraph::readSerial", "src/hstd/ext/graph/base/graph_port.hpp: IPortCollection::writeSerial"]}
{"id": "C161", "title": "The fragments of a source file are its blocks of comments", "statement": "extractCommentBlocks gives one fragment for each maximal block of lines that contain one of the prefixes, in order, with the number of its first line and the column of the prefix in it.", "quantifier": "all texts, all lists of prefixes", "why_tests_cant": "Any number of lines, any prefixes, which may contain each other, occur at the same place or be empty.", "anchors": ["src/haxorg/api/ParseContext.cpp: extractCommentBlocks"]}
{"id": "C162", "title": "The text of a fragment is the text of the comments", "statement": "The text of a fragment is what stands after the prefix in each line of its block, without one leading space, with line ends in between.", "quantifier": "all texts, all lists of prefixes", "why_tests_cant": "Any comments, including empty ones and ones that contain a prefix themselves.", "anchors": ["src/haxorg/api/ParseContext.cpp: extractCommentBlocks"]}
{"id": "C163", "title": "The text of a fragment is at its position in the file", "statement": "The line and column of a fragment are the place in the file where its text begins.", "quantifier": "all texts, all lists of prefixes", "why_tests_cant": "Any columns and prefixes.", "anchors": ["src/haxorg/api/ParseContext.cpp: extractCommentBlocks", "src/haxorg/sem/SemConvert.cpp: convertDocumentFragments"]}
{"id": "C164", "title": "A source file is parsed to one part for each fragment", "statement": "Parsing a text with fragments gives a document with one part for each fragment, with the position of the fragment and the content of its text; a text without fragments gives an empty document.", "quantifier": "all texts, all parsers", "why_tests_cant": "Any number of fragments, including none.", "anchors": ["src/haxorg/api/ParseContext.cpp: ParseContext::parseStringOpts", "src/haxorg/sem/SemConvert.cpp: convertDocumentFragments"]}
{"id": "C165", "title": "The startup lines set the visibility", "statement": "After a document is parsed, its initial visibility is the one the last #+startup line names, and the indentation is on if one of these lines says so; every documented word is accepted.", "quantifier": "all documents of keyword lines: any number of lines, words, spaces and names in any case", "why_tests_cant": "The lines of a document act one after another, in any number and order.", "anchors": ["src/haxorg/sem/SemConvert.cpp: updateDocument (CmdStartup)"]}
{"id": "C166", "title": "The options of a document are those that are written", "statement": "After a document is parsed, each export option has the value of the last item with its key in the #+options lines, or its default if there is none; nothing else is changed.", "quantifier": "all documents of keyword lines, all lists of known items, with any spaces", "why_tests_cant": "Any number of items in any order and on any number of lines; an item must not affect another option.", "anchors": ["src/haxorg/sem/SemConvert.cpp: convertDocumentOptions"]}
{"id": "C167", "title": "E-mail and custom command lines become nodes", "statement": "The #+email lines and the lines with commands that are not known become the nodes of the document, in order, with their names and texts; the other keyword lines give no nodes.", "quantifier": "all documents of keyword lines, all names and texts", "why_tests_cant": "Any number of lines with any text.", "anchors": ["src/haxorg/sem/SemConvert.cpp: convertCmdEmail, convertCmdCustomRaw, convertDocument"]}
{"id": "C168", "title": "Keyword lines survive being written and read", "statement": "The visibility, the options and the nodes of a document of keyword lines are the same after it is written by the formatter and read again.", "quantifier": "all documents of keyword lines up to the limit of the layout engine", "why_tests_cant": "Any options together with any number of nodes with any text.", "anchors": ["src/haxorg/sem/SemOrgFormat.cpp: Formatter::toString(Document), toString(CmdEmail), toString(CmdCustomRaw)", "src/haxorg/sem/SemConvert.cpp: updateDocument"]}
{"id": "C169", "title": "The compact JSON text stands for the same value", "statement": "Reading the text that to_compact_json gives for a JSON value, by the JSON grammar, gives that value, for every width, indentation and field order.", "quantifier": "all JSON values (nested to any depth, any strings and keys), all widths and indentations, any sizes the function finds", "why_tests_cant": "Values nest to any depth and keys and strings have any characters.", "anchors": ["src/hstd/stdlib/Json.cpp: to_compact_json"]}
{"id": "C170", "title": "Removing fields removes these fields only", "statement": "After filterFields nothing can be found at a path through one of the removed keys, at any depth, and at every other path there is what was there before, without these fields.", "quantifier": "all JSON values, all lists of keys, all paths", "why_tests_cant": "Objects and arrays nest to any depth.", "anchors": ["src/hstd/stdlib/Json.cpp: filterFields"]}
{"id": "C171", "title": "Moving a statement among its siblings", "statement": "moveSubnodeStructural gives a replacement of the parent in which the statement and the node at the offset, or the next one in that direction that is no space, have changed places, and nothing else is different; if there is no such node, nothing happens.", "quantifier": "all documents and edit histories, all statements in them, all offsets", "why_tests_cant": "Any number of siblings and spaces, and equal nodes share their ids.", "anchors": ["src/haxorg/imm/ImmOrgEdit.cpp: moveSubnodeStructural", "src/haxorg/imm/ImmOrg.cpp: ImmAdapter::getAdjacentNode"]}
{"id": "C172", "title": "The XML text of a tree stands for that tree", "statement": "What to_string gives for an XML tree is well-formed XML, and reading it gives the same elements, attributes, texts, comments and character data, up to white space at the ends of texts, for every indentation; raw nodes are written as they are.", "quantifier": "all trees of nodes, of any depth, all names, texts and indentations", "why_tests_cant": "Trees nest to any depth, and texts have any characters.", "anchors": ["src/hstd/stdlib/Xml.cpp: XmlNode::to_string, XmlNode::serialize_impl, write_escaped, write_attr_escaped, write_comment_escaped"]}
{"id": "C173", "title": "Setting an attribute of an XML node", "statement": "After set_attr the attribute has the given value, all others are as before and in the same order, and no name is there twice, whatever was set before.", "quantifier": "all lists of attributes, all sequences of calls", "why_tests_cant": "Any number of calls in any order.", "anchors": ["src/hstd/stdlib/Xml.cpp: XmlNode::set_attr"]}
{"id": "C174", "title": "A loop over a part of a sequence visits it in order with its positions", "statement": "A loop over a sequence without its first a and last b elements visits each of the others once, in order, with its position, and says rightly which is the first and which is the last.", "quantifier": "all sequences, all numbers of skipped elements", "why_tests_cant": "Sequences have any length, and any number of elements is skipped.", "anchors": ["src/hstd/stdlib/Enumerate.hpp: EnumerateState, enumerator, enumerate"]}
{"id": "C175", "title": "The neighbours of the element of a loop", "statement": "In a loop, next and prev give the elements after and before the current one, and throw if there are none.", "quantifier": "all sequences, positions and offsets", "why_tests_cant": "Each position of each sequence is checked against another bound.", "anchors": ["src/hstd/stdlib/Enumerate.hpp: EnumerateState::next, EnumerateState::prev"]}
{"id": "C176", "title": "A formatted number is that number", "statement": "format_integer_bits writes digits that read, in the base, give the number, at least as many as asked for, with a mark between each four digits counted from the right, and no leading zeros that were not asked for.", "quantifier": "all numbers, bases and widths", "why_tests_cant": "Numbers and widths are of any size.", "anchors": ["src/hstd/stdlib/strutils.cpp: format_integer_bits"]}
{"id": "C177", "title": "A window over an array is moved within it", "statement": "moveStart and moveEnd move the start or the end of a window by a number of steps and stay in the array; with a fixed size the window moves and keeps its size as far as there are elements.", "quantifier": "all arrays, windows and numbers of steps in both directions", "why_tests_cant": "Arrays, windows and steps are of any size.", "anchors": ["src/hstd/stdlib/Span.hpp: Span::moveStart, Span::moveEnd, Span::clampSize, Span::dataAtOffset"]}
{"id": "C178", "title": "Partition gives the maximal runs", "statement": "The windows that partition gives cover the elements one after the other, none is empty, all elements of a window have the same value, and those of the next window have another.", "quantifier": "all sequences, all functions", "why_tests_cant": "Runs are of any length and number.", "anchors": ["src/hstd/stdlib/algorithms.hpp: partition", "src/hstd/stdlib/Span.hpp: Span::moveEnd"]}
{"id": "C179", "title": "A table is shown in columns", "statement": "In the text that format_table gives each line of each cell stands in the line and at the column of its place, padded to the width of its column, which is no wider than needed, and the lines between the rows are below the columns.", "quantifier": "all tables (rows of any number of cells of any text), all spacings", "why_tests_cant": "Tables have any number of rows and columns, and cells any number of lines.", "anchors": ["src/hstd/stdlib/strutils.cpp: format_table, split"]}
{"id": "C180", "title": "A path is the list of its steps", "statement": "Whatever was pushed to a path and popped from it, it is the list of the steps that were pushed and not popped: by its size, its elements, its last one, its vector and a loop over it; an index outside of it throws.", "quantifier": "all sequences of push and pop, all indices", "why_tests_cant": "Histories have any length.", "anchors": ["src/hstd/stdlib/RecursivePathTracker.hpp: RecursivePathTracker"]}
{"id": "C181", "title": "Both directions of a map agree", "statement": "After any sequence of operations on a map in both directions, the keys of a value are those with that value; add_unique adds a pair or throws and changes nothing, erase_left and erase_right remove the pairs with a key, and reassign changes the value of a key.", "quantifier": "all three kinds of maps, all sequences of operations", "why_tests_cant": "Histories have any length, and each operation must keep both directions.", "anchors": ["src/hstd/ext/bimap_wrap.hpp: Unordered1to1Bimap, UnorderedNto1Bimap, StableNto1Bimap, XtoYBimapBase"]}
{"id": "C182", "title": "A stable map keeps the order of its keys", "statement": "The stable map in both directions gives its left keys in the order in which they were added, whatever was removed and reassigned in between.", "quantifier": "all sequences of operations", "why_tests_cant": "Histories have any length.", "anchors": ["src/hstd/ext/bimap_wrap.hpp: StableNto1Bimap"]}
{"id": "C183", "title": "The place of an offset in a source", "statement": "For each offset in a source get_offset_line gives the line that holds it, its index and the column in it; for an offset outside of the source it gives nothing.", "quantifier": "all sources (texts of any number of lines of any length), all offsets", "why_tests_cant": "Sources have any number of lines, and each line has its own boundaries.", "anchors": ["src/hstd/ext/error_write.cpp: Source::Source, Source::get_offset_line", "src/hstd/ext/error_write.hpp: Source, Line"]}
{"id": "C184", "title": "The lines of a span and their texts", "statement": "get_line_range gives the indices of the lines that a span touches, all of them lines of the source; the text of a line is what stands between its line ends.", "quantifier": "all sources, all spans in them", "why_tests_cant": "Spans begin and end anywhere in sources of any length.", "anchors": ["src/hstd/ext/error_write.cpp: Source::get_line_range", "src/hstd/ext/error_write.hpp: Source"]}
{"id": "C185", "title": "Labels are grouped by their sources", "statement": "A report has one group for each known source with labels; it holds the labels of that source in their order and the smallest span over them; a label is inline if its first and last characters are on the same line, and nothing is thrown for labels inside their sources.", "quantifier": "all lists of labels, all sources", "why_tests_cant": "Reports have any number of labels in any order.", "anchors": ["src/hstd/ext/error_write.cpp: Report::get_source_groups"]}
{"id": "C186", "title": "An inline label is drawn on one line, at its column", "statement": "Each inline label is drawn on exactly the line that holds its span.", "quantifier": "all sources, all labels in them", "why_tests_cant": "Labels begin and end anywhere, also at line ends and at the end of the source.", "anchors": ["src/hstd/ext/error_write.cpp: collect_inline_labels"]}
{"id": "C187", "title": "Creating a directory", "statement": "When createDirectory returns, the directory is there; what is new are the directory and those of its parents that were missing; it throws only if the path is empty, something other than a directory is in the way, the directory exists and may not, or its parent is missing and may not be created.", "quantifier": "all paths, absolute and relative, all file systems, both flags", "why_tests_cant": "Any number of parents may be missing, at any depth.", "anchors": ["src/hstd/stdlib/Filesystem.cpp: createDirectory"]}
{"id": "C188", "title": "A map is a function from keys to values", "statement": "After any sequence of calls a map gives for each key the value that was put last and not removed; get_or_insert, insert_unqiue, pop_opt, get, at and contains give the value, nothing, or an exception, as they say, and keys and values give each pair once.", "quantifier": "all sequences of calls, all keys and values", "why_tests_cant": "Histories have any length.", "anchors": ["src/hstd/stdlib/Map.hpp: MapBase, UnorderedMap, SortedMap"]}
{"id": "C189", "title": "The hash of a map is a function of its pairs", "statement": "Two maps with the same value for each key have the same hash, whatever their histories and the orders in which their pairs are stored.", "quantifier": "all pairs of maps and orders of iteration, all hashes of keys and values", "why_tests_cant": "The order of iteration of an unordered map is not specified.", "anchors": ["src/hstd/stdlib/Map.hpp: std_kv_tuple_iterator_hash", "src/hstd/system/reflection.hpp: hax_hash_combine"]}
{"id": "C190", "title": "The cache of sources gives what was added", "statement": "Each source that was added is found under its identifier, with its name and the text that was given first; identifiers and names are not reused; a call that is refused changes nothing; each path that was added is found with its own text.", "quantifier": "all sequences of calls, all texts, names and hashes", "why_tests_cant": "Histories have any length, and paths may have the same hash.", "anchors": ["src/hstd/ext/error_write.cpp: StrCache::add, StrCache::add_path", "src/hstd/ext/error_write.hpp: StrCache"]}
{"id": "C191", "title": "A box that is extended covers what it was extended by", "statement": "After extend the box is the smallest that covers the box it was and the point or the box it was extended by.", "quantifier": "all boxes, points and coordinates", "why_tests_cant": "Coordinates are any numbers, also with fractions.", "anchors": ["src/hstd/ext/geometry/hstd_geometry.hpp: Rect::extend"]}
{"id": "C192", "title": "Boxes that are padded, moved and scaled", "statement": "Inner padding takes back the same outer padding, which moves each side out by its own amount; a point is in a box if and only if the moved or scaled point is in the moved or scaled box; a box around a center has that center and the size that was given.", "quantifier": "all boxes, paddings, distances and positive factors", "why_tests_cant": "Coordinates are any numbers.", "anchors": ["src/hstd/ext/geometry/hstd_geometry.hpp: Rect, Padding, Point"]}
{"id": "C193", "title": "The position at the end of a path", "statement": "currentPosition gives the end of the last command of a path, or the begin of the last subpath if that is closed; moving or scaling a path moves or scales its position; after addPolyline it is the last point.", "quantifier": "all paths, of any number of commands", "why_tests_cant": "Paths have any number of commands in any order.", "anchors": ["src/hstd/ext/geometry/hstd_geometry.hpp: Path, Path::Command", "src/hstd/ext/geometry/hstd_geometry.cpp: Path::currentPosition, Path::addPolyline"]}
{"id": "C194", "title": "An expression keeps its value in the solver", "statement": "What the solver gets for an expression has the value of the expression, whatever the values of its variables; only expressions with a product of variables are refused; a constraint holds in the solver if and only if its relation holds.", "quantifier": "all expressions, of any depth, all values of variables", "why_tests_cant": "Expressions nest to any depth.", "anchors": ["src/hstd/ext/geometry/kiwi_ir.cpp: Constraint::fold_expr, Constraint::to_kiwi, Expr"]}
{"id": "C195", "title": "Layout constraints mean what they describe", "statement": "Boxes satisfy the constraints that are built if and only if they lie as described: aligned with offsets, separated by an offset, in groups a step apart, wrapped with padding by a parent whose sides are those of the first and last box, with even gaps, of equal size, relative to a fixed box, or in a linear relation.", "quantifier": "all boxes (of any position and size), all numbers of boxes, all anchors, offsets and paddings", "why_tests_cant": "Any number of boxes at any place.", "anchors": ["src/hstd/ext/geometry/kiwi_ir.cpp: AlignConstraint::build, SeparateConstraint::build, MultiSeparateConstraint::build, ParentWrapConstraint::build, EvenGapConstraint::build, EqualSizeConstraint::build, RelativeConstraint::build, LinearConstraint::build, Rect::anchor_expr"]}
{"id": "C196", "title": "Layout constraints that are refused", "statement": "A separation of groups is refused if and only if a box is in it twice, a group is empty, or a box is not known; even gaps, if and only if horizontal and vertical anchors are mixed; an alignment, if and only if it has less than two items or a box is not known.", "quantifier": "all lists of boxes, groups and anchors", "why_tests_cant": "Any number of groups of any size.", "anchors": ["src/hstd/ext/geometry/kiwi_ir.cpp: MultiSeparateConstraint::MultiSeparateConstraint, MultiSeparateConstraint::build, EvenGapConstraint::EvenGapConstraint, AlignConstraint::build"]}
{"id": "C197", "title": "Boxes in a picture of a layout are drawn over those that cover them", "statement": "In the picture of a layout each box is drawn once; a box that covers another one is drawn before it; the order of boxes that overlap does not depend on the order of the map of the boxes.", "quantifier": "all layouts, of any number of boxes of any place and size, all orders of the map", "why_tests_cant": "Any number of boxes overlap in any way, and an unordered map has no fixed order.", "anchors": ["src/hstd/ext/geometry/kiwi_ir.cpp: sort_rectangles_for_svg, Layout::to_svg"]}
{"id": "C198", "title": "Boxes are inside the picture of a layout", "statement": "Each box of a layout is drawn inside the area of the picture.", "quantifier": "all layouts, of any number of boxes of any place and size", "why_tests_cant": "Boxes are at any place.", "anchors": ["src/hstd/ext/geometry/kiwi_ir.cpp: Layout::to_svg"]}
{"id": "C199", "title": "A named field of a node is its part of the subnodes", "statement": "A field of one position gives the subnode at that position, counted from the begin or the end; a field of many positions gives all subnodes in its range, in order, and none if there are none; there is an exception only if a position of the field is not in the node.", "quantifier": "all nodes, of any number of subnodes, all ranges", "why_tests_cant": "Nodes have any number of subnodes.", "anchors": ["src/haxorg/lexbase/AstSpec.hpp: AstRange::toSlice, AstSpec::getSingleSubnode, AstSpec::getMultipleSubnode", "src/haxorg/sem/SemConvert.cpp: OrgConverter::one, OrgConverter::many"]}
{"id": "C200", "title": "The name of the field of a subnode", "statement": "fieldName gives the first field whose range holds a position, and no name for a position without a subnode; a subnode is among those its field gives.", "quantifier": "all nodes, positions and lists of fields", "why_tests_cant": "Nodes have any number of subnodes, and fields any ranges.", "anchors": ["src/haxorg/lexbase/AstSpec.hpp: AstSpec::fieldName, AstSpec::fieldRange, AstRange::contains"]}
{"id": "C201", "title": "Access to the elements of a vector by position", "statement": "at gives the element at a position, counted from the begin or the end, or an exception if there is none; get gives an empty option and at_or the other value instead of the exception; has says if there is an element, also for arrays; no access leaves the vector.", "quantifier": "all vectors and positions, negative ones too", "why_tests_cant": "Vectors have any size, and positions any value.", "anchors": ["src/hstd/stdlib/Vec.hpp: IndexedBase::has, get, at, at_or, checkIdx, index", "src/hstd/stdlib/Array.hpp: Array::has"]}
{"id": "C202", "title": "Changes of a vector, and positions of its elements", "statement": "resize_at makes the vector as large as needed, keeps the elements and fills the others with the value; pop_back_v takes the last element; push_back_idx gives the position of what it added; insert puts an element at a position and is an exception at others; indexOf gives the first position of an element, or -1; contains says if there is one.", "quantifier": "all vectors, positions and elements", "why_tests_cant": "Vectors have any size.", "anchors": ["src/hstd/stdlib/Vec.hpp: resize_at, pop_back_v, push_back_idx, Vec::insert, indexOf, contains", "src/hstd/stdlib/sequtils.hpp: index_of"]}
{"id": "C203", "title": "Loops over enumerate", "statement": "A loop over enumerate sees each element with its position, in order, until it breaks; another loop over the same object sees the same.", "quantifier": "all vectors and all bodies of loops", "why_tests_cant": "Vectors have any size, and loops can break anywhere.", "anchors": ["src/hstd/stdlib/sequtils.hpp: enumerate, EnumerateState"]}
{"id": "C204", "title": "The tree of the agenda has all tasks, and nothing without tasks", "statement": "The tree has the tasks of the document in their order; the completion shown for a node is the number of completed tasks and of tasks at or below it, as in the document; each node below the root has a task at or below it.", "quantifier": "all documents, of any depth", "why_tests_cant": "Documents have any depth and any number of tasks.", "anchors": ["src/app/org_viewer/shared_org_logic.cpp: buildAgendaTree, OrgAgendaNode::getRecursiveCompletion"]}
{"id": "C205", "title": "Clocked time of a task", "statement": "The time clocked for a node is the time of its closed clock entries, and of those of the nodes below it if asked for.", "quantifier": "all trees and clock entries", "why_tests_cant": "Trees have any depth, and nodes any number of clock entries.", "anchors": ["src/app/org_viewer/shared_org_logic.cpp: OrgAgendaNode::getClockPeriods", "src/app/org_viewer/shared_org_logic.hpp: getClockedSeconds"]}
{"id": "C206", "title": "How the age of a task is shown", "statement": "The age is shown by the greatest unit that is in it, and the rest by the greatest unit in the rest; nothing is shown for an unknown age, and zero for tasks of the future.", "quantifier": "all ages in seconds", "why_tests_cant": "There are more ages than tests can try.", "anchors": ["src/app/org_viewer/shared_org_logic.cpp: OrgAgendaNode::getAgeDisplay"]}
{"id": "C207", "title": "The rows the options hide", "statement": "Without options all rows of the agenda are shown; tasks counted as completed are hidden if the option for it is set, and rows without a keyword if the other one is.", "quantifier": "all trees and options", "why_tests_cant": "Trees have any depth, and keywords any text.", "anchors": ["src/app/org_viewer/file_agenda_table.cpp: OrgTreeProxyModel::filterAcceptsRow", "src/app/org_viewer/file_agenda_table.hpp: isCompletedTask"]}
{"id": "C208", "title": "Rows sorted by a column", "statement": "Sorting by a column keeps the rows, puts those without a value last in ascending and in descending order, and the others in order.", "quantifier": "all rows, values of any ordered type, both orders", "why_tests_cant": "Sorting is over any number of rows; with a bad comparison it would be undefined behaviour.", "anchors": ["src/app/org_viewer/file_agenda_table.cpp: OrgTreeProxyModel::lessThan"]}
{"id": "C209", "title": "Ids of edited documents", "statement": "Opening and editing documents is never an exception; the id of a new document gives it; ids of older versions give the same trees whatever is done later; documents migrated to the latest version keep their indices, and are what all edits since then have made of them.", "quantifier": "all sequences of opened documents and edits", "why_tests_cant": "The history has any length.", "anchors": ["src/app/org_imgui/gui_lib/im_org_ui_common.cpp: EditableOrgDocGroup::addRoot, migrate, History::withNewVersion, History::addRoot", "src/app/org_imgui/gui_lib/im_org_ui_common.hpp: extendHistory, getRoot"]}
{"id": "C210", "title": "The greatest version, the latest id, and starting again", "statement": "Migration with a greatest version does not go past it; the latest id of a document gives it in the latest version; starting again with a document gives its id.", "quantifier": "all sequences of opened documents and edits, all ids and versions", "why_tests_cant": "The history has any length.", "anchors": ["src/app/org_imgui/gui_lib/im_org_ui_common.cpp: EditableOrgDocGroup::migrate, getLatest", "src/app/org_imgui/gui_lib/im_org_ui_common.hpp: resetWith"]}
{"id": "C211", "title": "Rows of the trace viewer", "statement": "With all rows open each recorded event is drawn once, in the order of recording; with any rows closed, drawing ends, keeps the order, and draws the rows of the top and those inside of rows which are seen and open.", "quantifier": "all sequences of begin, end and instant events, balanced or not, and all sets of closed rows", "why_tests_cant": "Traces have any length and any nesting.", "anchors": ["src/app/log_viewer/trace_log_viewer.cpp: build_event_hierarchy, draw, draw_event_row_recursive"]}
{"id": "C212", "title": "Hierarchy of the trace viewer", "statement": "The level of an event is the number of spans open when it was recorded; it is nested in the innermost of them, and it is a root if there is none; an end without a begin closes nothing.", "quantifier": "all sequences of begin, end and instant events, balanced or not", "why_tests_cant": "Traces have any length and any nesting.", "anchors": ["src/app/log_viewer/trace_log_viewer.cpp: build_event_hierarchy, get_nested_events_impl"]}
{"id": "C213", "title": "The hierarchy given by a trace viewer", "statement": "The hierarchy given by a viewer shows the roots of this viewer, whatever is asked of other viewers.", "quantifier": "all viewers and all sequences of calls", "why_tests_cant": "Calls on viewers come in any order.", "anchors": ["src/app/log_viewer/trace_log_viewer.cpp: get_hierarchy"]}
{"id": "C214", "title": "Levels of trace messages", "statement": "In text, each message sent while the trace is on is written once, in order, indented by the number of scopes around it; after any part of a program, also one which threw out of scopes, the level and the state of the trace are those before it.", "quantifier": "all programs of messages, scopes, parts with the trace on or off, and exceptions", "why_tests_cant": "Scopes nest to any depth, and exceptions come at any point.", "anchors": ["src/hstd/stdlib/TraceBase.cpp: message, begin_scope_event, end_scope_event, scopeTrace", "src/hstd/stdlib/TraceBase.hpp: ScopeHandle"]}
{"id": "C215", "title": "A structured trace in the viewer", "statement": "The trace viewer shows each event of a structured trace at the number of scopes of the program around it, and no span is open at the end, wherever the program throws.", "quantifier": "all programs of messages, scopes, parts with the trace on or off, and exceptions", "why_tests_cant": "Scopes nest to any depth, and exceptions come at any point.", "anchors": ["src/hstd/stdlib/TraceBase.cpp: begin_scope_event, end_scope_event", "src/app/log_viewer/trace_log_viewer.cpp: build_event_hierarchy"]}
{"id": "C216", "title": "Nothing is written while the trace is off", "statement": "While the trace is off, messages and scopes write nothing.", "quantifier": "all programs which do not turn it on", "why_tests_cant": "Programs are of any size.", "anchors": ["src/hstd/stdlib/TraceBase.cpp: message, begin_scope_event, end_scope_event"]}
{"id": "C217", "title": "What the directory explorer shows", "statement": "The explorer shows the org files of a directory and those below it, with their contents; nothing of hidden directories; and no directory without a file at or below it.", "quantifier": "all trees of directories, of any depth", "why_tests_cant": "Trees of directories have any depth and any names.", "anchors": ["src/app/org_imgui/gui_lib/dir_explorer.cpp: DirNode::from_dir, DirNode::empty, FileNode::from_file"]}
{"id": "C218", "title": "Files in the directory explorer are current, and read once", "statement": "A file is shown with the content it has when the tree is made, whatever was shown before; a file which did not change is not parsed again.", "quantifier": "all sequences of files, times and contents", "why_tests_cant": "Files change in any order, any number of times.", "anchors": ["src/app/org_imgui/gui_lib/dir_explorer.cpp: DirContext::getFileNode, hadChanges, registerFile, dir_explorer_loop"]}
{"id": "C219", "title": "Sinks of the log", "statement": "The sinks which get records are those that were pushed and not popped, in their order, each once; after a scope of sinks they are those before it, whatever was done in it, also after an exception.", "quantifier": "all programs of pushes, pops, clearing, nested scopes and exceptions", "why_tests_cant": "Scopes nest to any depth, and exceptions come at any point.", "anchors": ["src/hstd/ext/logger.cpp: log_sink_manager, log_sink_scope, clear_sink_backends, push_sink"]}
{"id": "C220", "title": "Fields of the metadata of a record", "statement": "A field that is set has its value, and others stay, unless it is an exception.", "quantifier": "all metadata, fields and values", "why_tests_cant": "Metadata has any fields.", "anchors": ["src/hstd/ext/logger.cpp: log_record::metadata"]}
{"id": "C221", "title": "Differences between runs of the log", "statement": "Both runs can be read from the file of differences: lines with spaces are in both, those with a minus in the run before, those with a plus in this one.", "quantifier": "all pairs of runs, of any lengths", "why_tests_cant": "Runs have any number of records, of any text.", "anchors": ["src/hstd/ext/logger.cpp: log_differential_sink"]}
{"id": "C222", "title": "Attributes of a type are found", "statement": "Asking an object of a graph for its unique attribute of a type gives the only one of this type; the errors say that there are two, or none, exactly if it is so; asking for an optional one gives the first, and asking for all gives all, in order.", "quantifier": "all lists of attributes, and all classes", "why_tests_cant": "Objects have any attributes, of any derived classes.", "anchors": ["src/hstd/ext/graph/base/graph_attribute.hpp: getUniqueAttribute, getOptionalAttribute, getAllAttributes"]}
{"id": "C223", "title": "Unique attributes are unique", "statement": "Adding a unique attribute throws exactly if the object has one of its type; setting one replaces the one of its type or adds it, so that it is the only one; each added attribute can be read back.", "quantifier": "all objects, classes and sequences of additions", "why_tests_cant": "Attributes are added in any order, of any classes.", "anchors": ["src/hstd/ext/graph/base/graph_attribute.hpp: addUniqueAttribute, addOrResetUniqueAttribute"]}
{"id": "C224", "title": "Numbers of calls in the graph of calls", "statement": "The number on an edge of the graph of calls is how often the one called the other, and there is no edge without a call; a call of a function by itself is not shown.", "quantifier": "all programs of calls, scopes and jumps", "why_tests_cant": "Calls nest to any depth, and are repeated any number of times.", "anchors": ["src/hstd/ext/log_graph_tracker.cpp: graphviz_processor::add_edge, track_function_start, track_scope_enter, track_named_jump"]}
{"id": "C225", "title": "Nodes in the graph of calls", "statement": "The graph has a node for each function and scope which was entered, and no others; making it does not throw; a function which calls others is a cluster with them in it.", "quantifier": "all programs of calls, scopes and jumps", "why_tests_cant": "Calls nest to any depth, and are repeated any number of times.", "anchors": ["src/hstd/ext/log_graph_tracker.cpp: graphviz_processor::track_function_start, track_scope_enter, track_function_end"]}
{"id": "C226", "title": "The trace of what is drawn", "statement": "A frame of windows and items, each window ended, which is drawn between the start and the end of the trace gives a line for each thing drawn, in order, at the level of the windows around it; nothing of frames before; while the trace is off nothing is recorded.", "quantifier": "all frames, with windows nested to any depth", "why_tests_cant": "Windows nest to any depth.", "anchors": ["src/app/org_imgui/gui_lib/imgui_utils.cpp: ImRenderTraceRecord"]}

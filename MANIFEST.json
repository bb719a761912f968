{
 "claims": [
  {
   "property": "C01",
   "status": "partial",
   "theorems": [
    "Verif.RangeTree.rangeTree_exact_partial",
    "Verif.RangeTree.rangeTree_query_iff",
    "Verif.RangeTree.rangeTree_duplicate_ub",
    "Verif.RangeTree.rangeTree_exact_false",
    "Verif.RangeTree.rangeTree_invalid_diverges"
   ],
   "note": "Proved for pairwise distinct slices under any permutation the sort may produce. Full statement is false: the sort comparator answers true for two equal slices (undefined behaviour), rangeTree_exact_false."
  },
  {
   "property": "C02",
   "status": "partial",
   "theorems": [
    "Verif.RangeTree.annotate_partial",
    "Verif.RangeTree.annotate_last_dropped",
    "Verif.RangeTree.annotate_false"
   ],
   "note": "Everything except coverage of a final one-element chunk, which the code drops (RangeSegmentation.cpp:83 compares with < instead of <=); the exact condition for covering the last point is proved."
  },
  {
   "property": "C03",
   "status": "partial",
   "theorems": [
    "Verif.Base.set_incl_excl",
    "Verif.Base.set_algebra",
    "Verif.Base.set_order",
    "Verif.Base.set_iterates",
    "Verif.Base.charDomain_good",
    "Verif.Base.unsignedDomain_good",
    "Verif.Base.enumDomain_good",
    "Verif.Base.ungappedDomain_good",
    "Verif.Base.signed_set_false",
    "Verif.Base.enum_set_false"
   ],
   "note": "Proved for characters, unsigned integers and enumerations numbered from zero without gaps; sets of signed integers reject negative members, and iteration over an enumeration with gaps yields values that are not enumerators."
  },
  {
   "property": "C04",
   "status": "partial",
   "theorems": [
    "Verif.Dod.id_roundTrip_partial",
    "Verif.Dod.id_eq_iff",
    "Verif.Dod.id_mask_rejected",
    "Verif.Dod.id_less_iff",
    "Verif.Dod.getMask_unmasked_ub",
    "Verif.Dod.id_roundTrip_false"
   ],
   "note": "Proved for every id type with a non-empty mask narrower than 64 bits. False for ids without a mask: FromMaskedIdx fails its assertion and getMask shifts by the full width."
  },
  {
   "property": "C05",
   "status": "partial",
   "theorems": [
    "Verif.Dod.store_add_stable",
    "Verif.Dod.store_addMasked_stable",
    "Verif.Dod.store_ids_distinct",
    "Verif.Dod.store_at_iff_partial",
    "Verif.Dod.store_at_false"
   ],
   "note": "Read back after any history and distinctness proved below 2^31 elements; `at` truncates the index to int, so ids past 2^31 can be accepted although not contained."
  },
  {
   "property": "C06",
   "status": "proved",
   "theorems": [
    "Verif.Dod.intern_bijection",
    "Verif.Dod.intern_first_mask",
    "Verif.Dod.intern_insert_false"
   ],
   "note": "For all histories of add; the separate insert operation breaks the bijection (intern_insert_false)."
  },
  {
   "property": "C07",
   "status": "proved",
   "theorems": [
    "Verif.Diff.myers_valid",
    "Verif.Diff.myers_valid_cmp"
   ],
   "note": "Normal return, valid script, application gives the target; for any comparison callback."
  },
  {
   "property": "C08",
   "status": "proved",
   "theorems": [
    "Verif.Diff.myers_minimal"
   ],
   "note": ""
  },
  {
   "property": "C09",
   "status": "proved",
   "theorems": [
    "Verif.Diff.levenshtein_minimal",
    "Verif.Diff.levenshtein_minimal_cmp"
   ],
   "note": ""
  },
  {
   "property": "C10",
   "status": "partial",
   "theorems": [
    "Verif.Diff.lcs_common_partial",
    "Verif.Diff.lcs_maximal_partial",
    "Verif.Diff.lcs_maximal_false"
   ],
   "note": "Common subsequence and normal return proved for every callback and weights; maximal when not empty or when the first elements match. False otherwise: [1,0] and [2,0] give the empty alignment."
  },
  {
   "property": "C11",
   "status": "partial",
   "theorems": [
    "Verif.Diff.shifted_alignment",
    "Verif.Diff.shifted_script_partial",
    "Verif.Diff.shifted_myers",
    "Verif.Diff.shifted_script_false"
   ],
   "note": "Alignments fully proved; scripts proved without replacements, false with them (the target line is lost)."
  },
  {
   "property": "C12",
   "status": "proved",
   "theorems": [
    "Verif.Strs.utf8_accepts",
    "Verif.Strs.utf8_rejects_at"
   ],
   "note": "Against Lean's own UTF-8 encoder of Unicode scalar values."
  },
  {
   "property": "C13",
   "status": "partial",
   "theorems": [
    "Verif.Strs.splitStr_join",
    "Verif.Strs.splitChar_join_partial",
    "Verif.Strs.splitKeep_concat",
    "Verif.Strs.splitStr_empty_diverges",
    "Verif.Strs.splitChar_drops_last",
    "Verif.Strs.split_join_false"
   ],
   "note": "Proved for non-empty string delimiters and for split_keep_separator; the character version loses a trailing separator, and an empty delimiter never returns."
  },
  {
   "property": "C14",
   "status": "partial",
   "theorems": [
    "Verif.Base.slice_make",
    "Verif.Base.slice_partial",
    "Verif.Base.slice_iterates",
    "Verif.Base.slice_false",
    "Verif.Base.overlap_touching_missed",
    "Verif.Base.narrow_disjoint",
    "Verif.Base.sliceChar_rejected"
   ],
   "note": "Everything but: overlap misses slices sharing one point, narrow leaves a disjoint slice unchanged, and the slice of all characters cannot be built."
  },
  {
   "property": "C15",
   "status": "proved",
   "theorems": [
    "Verif.NodeGroup.builder_produces_forest",
    "Verif.NodeGroup.tree_extent_is_nodes_created",
    "Verif.NodeGroup.builder_well_nested"
   ],
   "note": "Refinement: balanced builder histories produce exactly the preorder listing of the forest they describe; failTree included."
  },
  {
   "property": "C16",
   "status": "partial",
   "theorems": [
    "Verif.NodeGroup.parent_sound_partial",
    "Verif.NodeGroup.parent_terminates_iff",
    "Verif.NodeGroup.parent_false"
   ],
   "note": "The lookup loop does not advance over a node without subnodes (Node.cpp:82-91), so it hangs for most nodes (parent_false). Proved: an answer is always right, and exactly when one is given."
  },
  {
   "property": "C17",
   "status": "proved",
   "theorems": [
    "Verif.NodeGroup.subnode_access",
    "Verif.NodeGroup.subnode_access_leaf"
   ],
   "note": ""
  },
  {
   "property": "C18",
   "status": "proved",
   "theorems": [
    "Verif.Tokenizer.lines_keep_tokens",
    "Verif.Tokenizer.lines_total"
   ],
   "note": "Also: line splitting returns normally when every command marker is followed by a known command."
  },
  {
   "property": "C19",
   "status": "proved",
   "theorems": [
    "Verif.Tokenizer.groups_keep_lines",
    "Verif.Tokenizer.groups_keep_any_lines"
   ],
   "note": "Termination and bracket matching of blocks included."
  },
  {
   "property": "C20",
   "status": "proved",
   "theorems": [
    "Verif.Tokenizer.indentation_balanced",
    "Verif.Tokenizer.regroup_balanced",
    "Verif.Tokenizer.source_block_dedent"
   ],
   "note": "Whenever conversion returns; source_block_dedent proves normal return and the exact dedent of source blocks."
  },
  {
   "property": "C21",
   "status": "proved",
   "theorems": [
    "Verif.Parser.parse_text",
    "Verif.Parser.parse_tree"
   ],
   "note": "parse_text: exact tree for documents of text, markup and line breaks; parse_tree: balance for every token stream."
  },
  {
   "property": "C22",
   "status": "proved",
   "theorems": [
    "Verif.Outline.outline_pass",
    "Verif.Outline.outline_nesting",
    "Verif.Outline.outline_keeps_nodes"
   ],
   "note": "For flat documents of the shape parseTop/parseSubtree emit (nine header fields, statement list last)."
  },
  {
   "property": "C23",
   "status": "proved",
   "theorems": [
    "Verif.Lexer.cursor_reads",
    "Verif.Lexer.next_reads",
    "Verif.Lexer.skip_reads",
    "Verif.Lexer.trySkip_reads",
    "Verif.Lexer.reads_main",
    "Verif.Lexer.reads_sub"
   ],
   "note": "For the plain lexer and for a sub-lexer over any ids of the group."
  },
  {
   "property": "C24",
   "status": "partial",
   "theorems": [
    "Verif.Lexer.getInside_partial",
    "Verif.Lexer.getInside_false",
    "Verif.Lexer.getInside_unclosed"
   ],
   "note": "Proved when brackets do not touch each other (a bracket may be a run like {{{). Adjacent closers of different pairs are counted as one; a missing closer is not reported."
  },
  {
   "property": "C25",
   "status": "partial",
   "theorems": [
    "Verif.Imm.roundtrip_partial",
    "Verif.Imm.roundtrip_false"
   ],
   "note": "Any document, any store: reads back equal up to source locations. Locations are those of the equal node that was stored first."
  },
  {
   "property": "C26",
   "status": "proved",
   "theorems": [
    "Verif.Imm.ids_structure",
    "Verif.Imm.added_ids",
    "Verif.Imm.stored_denotes"
   ],
   "note": "In all histories of adds, node updates and cascades; equality up to source locations, which the code ignores on purpose."
  },
  {
   "property": "C27",
   "status": "proved",
   "theorems": [
    "Verif.Imm.older_versions",
    "Verif.Imm.edits_are_ops"
   ],
   "note": ""
  },
  {
   "property": "C28",
   "status": "partial",
   "theorems": [
    "Verif.Imm.cascade_partial",
    "Verif.Imm.substitute_at",
    "Verif.Imm.substitute_elsewhere",
    "Verif.Imm.edit_cascade",
    "Verif.Imm.cascade_false"
   ],
   "note": "Replaced positions none of which is above another, and a sort that leaves sorted lists alone. std::sort may permute the children of a field (more than 16 of them in libstdc++)."
  },
  {
   "property": "C29",
   "status": "partial",
   "theorems": [
    "Verif.Imm.edits_partial",
    "Verif.Imm.pop_returns",
    "Verif.Imm.edits_false",
    "Verif.Imm.edits_same_false"
   ],
   "note": "All list results are right; setting the same list throws, some positions out of range are passed to unchecked vector operations."
  },
  {
   "property": "C30",
   "status": "partial",
   "theorems": [
    "Verif.Imm.parents_sound",
    "Verif.Imm.parents_exact_partial",
    "Verif.Imm.parents_edited_partial",
    "Verif.Imm.parents_false"
   ],
   "note": "Sound in all histories; exact as long as no edited node is used elsewhere."
  },
  {
   "property": "C31",
   "status": "partial",
   "theorems": [
    "Verif.Imm.paths_sound",
    "Verif.Imm.paths_exact_partial",
    "Verif.Imm.paths_false"
   ],
   "note": "Sound in all histories; exact when only documents were added; after editing one of two equal nodes the paths through the other one are missing."
  },
  {
   "property": "C32",
   "status": "partial",
   "theorems": [
    "Verif.Radio.groups_partition",
    "Verif.Radio.groups_complete",
    "Verif.Radio.groups_partial",
    "Verif.Radio.groups_false"
   ],
   "note": "Whenever grouping returns, the groups are right and no tracked target that starts at a word left alone is missed. It does not return when the children end inside the words of a tracked target (sub.at past the end)."
  },
  {
   "property": "C33",
   "status": "partial",
   "theorems": [
    "Verif.Dod.immId_partial",
    "Verif.Dod.immId_inj",
    "Verif.Dod.immId_kind_rejected",
    "Verif.Dod.immId_index_false",
    "Verif.Dod.immId_default_not_nil"
   ],
   "note": "Kind and packing proved; getNodeIndex returns the index plus one, and the default id is not nil."
  },
  {
   "property": "C34",
   "status": "partial",
   "theorems": [
    "Verif.MapGraph.consistent_partial",
    "Verif.MapGraph.complete_partial",
    "Verif.MapGraph.add_returns",
    "Verif.MapGraph.two_edges",
    "Verif.MapGraph.two_edges_first",
    "Verif.MapGraph.map_false",
    "Verif.MapGraph.fill_same_root",
    "Verif.MapGraph.positions_false",
    "Verif.MapGraph.equal_nodes_throw"
   ],
   "note": "Edges are sound and the listed nodes are those with unresolved links, for all insertion sequences. Complete when each link has one target and each insertion completes at most one link; otherwise links are lost: in one document every insertion keeps only its first edge."
  },
  {
   "property": "C35",
   "status": "partial",
   "theorems": [
    "Verif.Dod.saturating_partial",
    "Verif.Dod.saturating_any",
    "Verif.Dod.saturating_false"
   ],
   "note": "Proved for unsigned values with a non-negative change of the same width; false for negative changes of saturating_add and wider change types."
  },
  {
   "property": "C36",
   "status": "partial",
   "theorems": [
    "Verif.Select.select_sound_partial",
    "Verif.Select.select_sound_stops",
    "Verif.Select.select_sound_indirect",
    "Verif.Select.select_direct_partial",
    "Verif.Select.select_indirect_partial",
    "Verif.Select.select_link_false",
    "Verif.Select.select_nested_false",
    "Verif.Select.select_order_false",
    "Verif.Select.select_false"
   ],
   "note": "Sound for all paths up to steps through nodes that do not match; exact for paths without indirect links whose later checks stop (topmost matches of the first condition), and for indirect links with the last condition as target. Mixed paths miss matches because all conditions share one set of visited nodes."
  },
  {
   "property": "C37",
   "status": "proved",
   "theorems": [
    "Verif.Dod.source_registry"
   ],
   "note": "Fewer than 2^31 sources."
  },
  {
   "property": "C38",
   "status": "proved",
   "theorems": [
    "Verif.Strs.chunks_of_text",
    "Verif.Strs.chunks_lossless"
   ],
   "note": ""
  },
  {
   "property": "C39",
   "status": "partial",
   "theorems": [
    "Verif.Strs.replaceAll_spec",
    "Verif.Strs.replaceAll_unchanged",
    "Verif.Strs.strReplaceAll_partial",
    "Verif.Strs.strReplaceAll_empty_diverges",
    "Verif.Strs.strReplaceAll_false"
   ],
   "note": "replace_all fully proved; Str::replaceAll with an empty pattern never returns."
  },
  {
   "property": "C40",
   "status": "partial",
   "theorems": [
    "Verif.Base.userTime_eq",
    "Verif.Base.breakdown_components",
    "Verif.Base.unix_exact",
    "Verif.Base.breakdown_eq_partial",
    "Verif.Base.breakdown_eq_false"
   ],
   "note": "Equality of breakdowns ignores the minute. The conversion of civil time to seconds is done by the cctz library and not modelled."
  },
  {
   "property": "C41",
   "status": "partial",
   "theorems": [
    "Verif.Tokenizer.listItems_enclosed_partial",
    "Verif.Tokenizer.listItems_enclosed_false"
   ],
   "note": "False for an item indented less than the first item of its list; proved for lists whose items are never indented less than the first."
  },
  {
   "property": "C42",
   "status": "proved",
   "theorems": [
    "Verif.BaseLexer.lexer_lossless",
    "Verif.BaseLexer.stdLex_sane"
   ],
   "note": "For every matcher of the lexy patterns with the facts listed in `Sane`; stdLex is a concrete one."
  },
  {
   "property": "C43",
   "status": "partial",
   "theorems": [
    "Verif.BaseLexer.lexer_total_partial",
    "Verif.BaseLexer.lexer_terminates_partial",
    "Verif.BaseLexer.lexer_fuel_suffices",
    "Verif.BaseLexer.lexer_total_false"
   ],
   "note": "False: witnesses for hang, assertion, abort and undefined behaviour. Proved: normal return on plain documents, termination on documents ending with a newline."
  },
  {
   "property": "C44",
   "status": "partial",
   "theorems": [
    "Verif.BaseLexer.tableRule_partial",
    "Verif.BaseLexer.tableRule_false"
   ],
   "note": "False for indented rules (skip is added twice, base_token_tokenize.cpp:1098); proved without indentation."
  },
  {
   "property": "C45",
   "status": "partial",
   "theorems": [
    "Verif.Dod.id_arith_partial",
    "Verif.Dod.id_step_partial",
    "Verif.Dod.id_arith_false"
   ],
   "note": "Proved below the capacity; ++ past the capacity carries into the mask, setUnmasked duplicates the mask, mask-less ids shift by the full width."
  },
  {
   "property": "C46",
   "status": "proved",
   "theorems": [
    "Verif.Strs.strip_exact"
   ],
   "note": ""
  },
  {
   "property": "C47",
   "status": "partial",
   "theorems": [
    "Verif.Strs.rightAligned_width",
    "Verif.Strs.leftAligned_width_partial",
    "Verif.Strs.leftAligned_false"
   ],
   "note": "left_aligned holds for well-formed text; after a truncated UTF-8 sequence the padding is swallowed."
  },
  {
   "property": "C48",
   "status": "partial",
   "theorems": [
    "Verif.Strs.wrap_partial",
    "Verif.Strs.wrap_early",
    "Verif.Strs.wrap_false"
   ],
   "note": "Everything but the exact breaking point: lines are broken one column early (strutils.cpp:389 counts a space for the first word of a line)."
  },
  {
   "property": "C49",
   "status": "proved",
   "theorems": [
    "Verif.Strs.formatInteger_reads_back"
   ],
   "note": ""
  },
  {
   "property": "C50",
   "status": "partial",
   "theorems": [
    "Verif.Strs.escape_partial",
    "Verif.Strs.escape_false"
   ],
   "note": "The backslash itself is not escaped."
  },
  {
   "property": "C51",
   "status": "partial",
   "theorems": [
    "Verif.Base.vecPart_partial",
    "Verif.Base.vecPart_false",
    "Verif.Base.strPart_partial",
    "Verif.Base.strPart_false",
    "Verif.Base.strPart_short",
    "Verif.Base.strPart_overrun"
   ],
   "note": "Vectors: right unless the positions are in range but in the wrong order. Strings: the end position is passed as the length, so only parts starting at 1 are right."
  },
  {
   "property": "C52",
   "status": "partial",
   "theorems": [
    "Verif.Base.vecOrder_partial",
    "Verif.Base.vecOrder_false"
   ],
   "note": "Irreflexive, prefixes are less; not transitive or asymmetric ([1,2] and [2,1] are less than each other)."
  },
  {
   "property": "C53",
   "status": "proved",
   "theorems": [
    "Verif.Tokenizer.list_structure"
   ],
   "note": "From base tokens to the stream with indentation tokens."
  },
  {
   "property": "C54",
   "status": "partial",
   "theorems": [
    "Verif.Lexer.lookahead_partial",
    "Verif.Lexer.at_reads",
    "Verif.Lexer.atSeq_reads",
    "Verif.Lexer.skipAhead_reads",
    "Verif.Lexer.find_reads",
    "Verif.Lexer.findKind_reads",
    "Verif.Lexer.lookahead_false"
   ],
   "note": "Right for the plain lexer and for selections of consecutive tokens; otherwise lookahead sees the tokens of the group, not of the selection."
  },
  {
   "property": "C55",
   "status": "proved",
   "theorems": [
    "Verif.Parser.parse_tree"
   ],
   "note": "All parse functions are modelled; token texts enter through an arbitrary oracle."
  },
  {
   "property": "C56",
   "status": "proved",
   "theorems": [
    "Verif.Parser.parse_headlines"
   ],
   "note": ""
  },
  {
   "property": "C57",
   "status": "partial",
   "theorems": [
    "Verif.Parser.parse_outline_partial",
    "Verif.Parser.outline_false",
    "Verif.Pipeline.outline_parsed"
   ],
   "note": "Proved when headlines are not inside of other elements; false for a quote that contains a headline and is followed by text."
  },
  {
   "property": "C58",
   "status": "partial",
   "theorems": [
    "Verif.Parser.bold_partial",
    "Verif.Parser.bold_false"
   ],
   "note": "Proved when the markup inside is closed; false for *a /b*."
  },
  {
   "property": "C59",
   "status": "partial",
   "theorems": [
    "Verif.Parser.leaves_partial",
    "Verif.Parser.leaves_false"
   ],
   "note": "Leaves are tokens or the nil token; the latter occurs after a symbol with an open bracket at the end."
  },
  {
   "property": "C60",
   "status": "partial",
   "theorems": [
    "Verif.Parser.parse_returns_partial",
    "Verif.Parser.parse_returns_false",
    "Verif.Parser.parse_hangs",
    "Verif.Parser.parse_throws"
   ],
   "note": "Proved for text, markup and line breaks; false in general: endless loop for a link protocol token without link, exceptions for malformed macros, footnotes, commands."
  },
  {
   "property": "C61",
   "status": "partial",
   "theorems": [
    "Verif.Select.search_title_partial",
    "Verif.Select.search_kind_partial",
    "Verif.Select.search_id_partial",
    "Verif.Select.search_id_level",
    "Verif.Select.search_id_throws",
    "Verif.Select.search_id_false"
   ],
   "note": "Topmost matches only; the search by id throws without a level and ignores the level otherwise."
  },
  {
   "property": "C62",
   "status": "partial",
   "theorems": [
    "Verif.Graph.edges_kept",
    "Verif.Graph.edges_directed",
    "Verif.Graph.edges_partial",
    "Verif.Graph.untrackVertex_returns",
    "Verif.Graph.out_nodes",
    "Verif.Graph.incoming_false",
    "Verif.Graph.dangling_false",
    "Verif.Graph.edges_false",
    "Verif.Graph.tracking_false",
    "Verif.Graph.readd_false",
    "Verif.Graph.in_nodes_false"
   ],
   "note": "Listed edges and outgoing edges are right in all histories of adding and removing edges; incoming edges and removal of vertices when there are no parallel edges. Removing one of two parallel edges loses the other from the incoming edges; removed edges cannot be asked about or added again; getInNodes lists targets."
  },
  {
   "property": "C63",
   "status": "partial",
   "theorems": [
    "Verif.Graph.hierarchy_consistent",
    "Verif.Graph.forest_partial",
    "Verif.Graph.track_root",
    "Verif.Graph.nest_effect",
    "Verif.Graph.nest_refused",
    "Verif.Graph.unnest_root",
    "Verif.Graph.forest_false"
   ],
   "note": "Parents, sub-vertices and roots agree in all histories; a forest as long as no vertex is nested into itself or below itself, which the code does not check."
  },
  {
   "property": "C64",
   "status": "partial",
   "theorems": [
    "Verif.Graph.untrack_partial",
    "Verif.Graph.untrack_returns",
    "Verif.Graph.nesting_edges",
    "Verif.Graph.removed_edges",
    "Verif.Graph.removed_edges_false",
    "Verif.Graph.renest_throws",
    "Verif.Graph.collision_false"
   ],
   "note": "Vertices and relations are right; edges of removed relations stay listed, nesting the same pair again throws after recording the relation, and so does a hash collision of stable ids."
  },
  {
   "property": "C65",
   "status": "partial",
   "theorems": [
    "Verif.Graph.meet",
    "Verif.Graph.crossings_shallow",
    "Verif.Graph.crossings_partial",
    "Verif.Graph.crossings_false",
    "Verif.Graph.crossings_deep",
    "Verif.Graph.crossings_apart"
   ],
   "note": "Proved for targets at least as deep as the source; if the source is an ancestor of the target the crossings are listed upwards (wrong from three levels on), and deeper sources or different trees throw."
  },
  {
   "property": "C66",
   "status": "partial",
   "theorems": [
    "Verif.Graph.chain_lists",
    "Verif.Graph.chain_until_all",
    "Verif.Graph.chain_until_false",
    "Verif.Graph.chain_until_partial",
    "Verif.Graph.common_ancestor_partial",
    "Verif.Graph.common_ancestor_false",
    "Verif.Graph.max_level"
   ],
   "note": "Parent chain and nesting level proved; getParentChainUntil ignores its end, getCommonAncestor depends on the order of the set and is the lowest one unless the first vertex of the set is itself above all others."
  },
  {
   "property": "C67",
   "status": "partial",
   "theorems": [
    "Verif.Graph.untrack_never",
    "Verif.Graph.untrack_graph_partial",
    "Verif.Graph.stable_ids",
    "Verif.Graph.retrack_throws",
    "Verif.Graph.retrack_false"
   ],
   "note": "With any hierarchy in the graph untrackVertex always throws; without hierarchies it removes the vertex from all collections. Stable ids are never freed."
  },
  {
   "property": "C68",
   "status": "proved",
   "theorems": [
    "Verif.Graph.ports_owned",
    "Verif.Graph.ports_fresh",
    "Verif.Graph.ports_connect",
    "Verif.Graph.ports_connection",
    "Verif.Graph.ports_of_edge",
    "Verif.Graph.ports_of_port"
   ],
   "note": ""
  },
  {
   "property": "C69",
   "status": "partial",
   "theorems": [
    "Verif.Graph.segments_partial",
    "Verif.Graph.segments_original",
    "Verif.Graph.segments_again",
    "Verif.Graph.segments_false",
    "Verif.Graph.seg_ports_false"
   ],
   "note": "Proved for edges that do not cross a boundary crossed before, in all histories and for every order of the bimap; otherwise adding throws. The two ends of the ports are swapped."
  },
  {
   "property": "C70",
   "status": "proved",
   "theorems": [
    "Verif.Recombine.recombine_keeps",
    "Verif.Recombine.kept_places"
   ],
   "note": ""
  },
  {
   "property": "C71",
   "status": "partial",
   "theorems": [
    "Verif.Recombine.recombine_local",
    "Verif.Recombine.markup_false"
   ],
   "note": "The kind of every token is given by its neighbours, in all streams without commands. `a = b` opens verbatim text, and `*/a/*` leaves the stars undecided, since markup characters count as blanks."
  },
  {
   "property": "C72",
   "status": "partial",
   "theorems": [
    "Verif.Recombine.recombine_only_range",
    "Verif.Recombine.recombine_returns_partial",
    "Verif.Recombine.recombine_returns_false"
   ],
   "note": "Never loops; returns on regular streams; throws out_of_range on unclosed quotes, properties without end of line and commands without name."
  },
  {
   "property": "C73",
   "status": "proved",
   "theorems": [
    "Verif.Pipeline.document_leaves",
    "Verif.Pipeline.document_tokens",
    "Verif.BaseLexer.lexer_kinds"
   ],
   "note": "The tree before the outline pass; the text of an argument (CmdRawArg), which may be put together from several tokens, is not covered by the claim about texts (its place is)."
  },
  {
   "property": "C74",
   "status": "proved",
   "theorems": [
    "Verif.Pipeline.document_round_trip",
    "Verif.Pipeline.prose_tree",
    "Verif.Pipeline.prose_lexed"
   ],
   "note": "For the executable reading of the lexy patterns (BaseLexer.stdLex). What counts as a piece and which pieces may follow each other is in Pipeline/ProseSpec.lean (excluded is other notation: indented lines, lists, headlines, times, drawers, commands, links, and words starting with http or src), when markup is in its place is `Placed` in Pipeline/TreeSpec.lean."
  },
  {
   "property": "C75",
   "status": "partial",
   "theorems": [
    "Verif.Layout.toString_shows_partial",
    "Verif.Layout.toString_fixed",
    "Verif.Layout.layout_false",
    "Verif.Layout.empty_swallows"
   ],
   "note": "Proved for all blocks without empty and verbatim blocks in which stacks end with something visible, for every option and every arithmetic. An empty block in a line takes away everything to its right."
  },
  {
   "property": "C76",
   "status": "partial",
   "theorems": [
    "Verif.Layout.toString_returns_partial",
    "Verif.Layout.returns_false",
    "Verif.Layout.tie_never"
   ],
   "note": "Total correctness for all blocks of texts, lines and stacks (exact arithmetic, right margin up to 4096, less than 10^9 characters): it returns, and returns the picture of the block. With alternatives it loops forever if two of them cost the same and the later one grows more slowly."
  },
  {
   "property": "C77",
   "status": "partial",
   "theorems": [
    "Verif.Sem.format_writes_partial",
    "Verif.Sem.writesText_false"
   ],
   "note": "Total correctness for documents of paragraphs, markup, lists (with checkboxes and headers) and headlines (with keyword, priority and tags): what is written is given line by line by `linesAll` (Sem/Spec.lean) and contains all texts in order. A list item with a header and nothing else is written without its header."
  },
  {
   "property": "C78",
   "status": "proved",
   "theorems": [
    "Verif.Sem.resave_keeps_text"
   ],
   "note": "For the executable reading of the lexy patterns (BaseLexer.stdLex) and exact arithmetic in the layouter; documents are sequences of pieces as in C74 (less than 2*10^8 characters)."
  },
  {
   "property": "C79",
   "status": "partial",
   "theorems": [
    "Verif.Sem.resave_exact_partial",
    "Verif.Sem.resave_lines",
    "Verif.Sem.resave_false"
   ],
   "note": "Proved for documents without spaces at the ends of lines, without empty lines at the start and without markup over the end of a line. A line break in bold text is lost, and the words beside it become one."
  },
  {
   "property": "C80",
   "status": "proved",
   "theorems": [
    "Verif.Sem.outline_loaded",
    "Verif.Sem.nested_exists",
    "Verif.Sem.load_outline",
    "Verif.Pipeline.outline_parsed",
    "Verif.Parser.parse_heads"
   ],
   "note": "For the executable reading of the lexy patterns (BaseLexer.stdLex). How outlines are written is `Outline.chunks`, and which of them are meant `Joined`, `Fine` (Pipeline/OutlineSpec.lean) and `Plain` (Sem/OutlineSpec.lean): titles do not end in something that looks like tags, a keyword is followed by a priority (without one the capital word stays the first word of the title, from which the keyword is taken when asked for), no headline is a comment."
  },
  {
   "property": "C81",
   "status": "partial",
   "theorems": [
    "Verif.Sem.outline_keeps_text_partial",
    "Verif.Sem.outlineText_false",
    "Verif.Sem.outline_lines"
   ],
   "note": "Proved unless the tag ARCHIVE comes after other tags (it is moved to the front), for less than 2.5*10^7 characters."
  },
  {
   "property": "C82",
   "status": "partial",
   "theorems": [
    "Verif.Sem.outline_exact_partial",
    "Verif.Sem.outlineExact_false"
   ],
   "note": "Proved for documents in normal form: single spaces between the parts of a headline, one empty line between a headline and what is below it. Other spacing is changed to this."
  },
  {
   "property": "C83",
   "status": "proved",
   "theorems": [
    "Verif.Api.attrs_read",
    "Verif.Api.attrs_order"
   ],
   "note": "Attribute values and lisp code are not looked into."
  },
  {
   "property": "C84",
   "status": "partial",
   "theorems": [
    "Verif.Api.attrs_agree_partial",
    "Verif.Api.attrs_set",
    "Verif.Api.attrLookup_false"
   ],
   "note": "getNamed and getFirstNamed look up the name as given while the names are stored in normal form, so `:Results` is found by getAttrs only. Proved for names in normal form, on every group."
  },
  {
   "property": "C85",
   "status": "partial",
   "theorems": [
    "Verif.Api.property_edit_partial",
    "Verif.Api.propertyEdit_false",
    "Verif.Api.property_set_old_wins",
    "Verif.Api.property_remove_stays",
    "Verif.Api.property_set_loses_others"
   ],
   "note": "Removing compares names exactly while looking up does not, and properties with arguments are compared by the name of their C++ type. Proved when the property is there, if at all, as text in the same spelling or as a built-in property; other names always keep their properties."
  },
  {
   "property": "C86",
   "status": "partial",
   "theorems": [
    "Verif.Api.final_property_partial",
    "Verif.Api.final_args_partial",
    "Verif.Api.finalProperty_false",
    "Verif.Api.finalProperty_spelling"
   ],
   "note": "An assertion fails when the property has two kinds or spellings along the chain. Proved for chains with one kind, and with one spelling for properties with arguments read from a file."
  },
  {
   "property": "C87",
   "status": "partial",
   "theorems": [
    "Verif.Api.Tag.prefix_match",
    "Verif.Api.Tag.flat_leaves",
    "Verif.Api.Tag.flat_walks",
    "Verif.Api.Tag.flat_once_partial",
    "Verif.Api.Tag.flatOnce_false"
   ],
   "note": "All proved except that a path is listed twice by `#a##[b, b##c]`; once if subtags have different names."
  },
  {
   "property": "C88",
   "status": "partial",
   "theorems": [
    "Verif.Api.stmt_attrs",
    "Verif.Api.stmt_names",
    "Verif.Api.attached_attr",
    "Verif.Api.list_attrs",
    "Verif.Api.cmd_attrs",
    "Verif.Api.cmd_variable",
    "Verif.Api.first_attr_partial",
    "Verif.Api.firstAttr_false"
   ],
   "note": "The first attribute of a command does not look at the attached lines (the test for an empty group is always false)."
  },
  {
   "property": "C89",
   "status": "partial",
   "theorems": [
    "Verif.Api.lead_partial",
    "Verif.Api.todo_keyword",
    "Verif.Api.lead_false",
    "Verif.Api.body_loses_link",
    "Verif.Api.second_admonition_lost"
   ],
   "note": "A link at the start of a paragraph is neither in the lead nor in the body. Proved for a run of lead nodes, an optional colon after an admonition, and a text that does not start with a link."
  },
  {
   "property": "C90",
   "status": "partial",
   "theorems": [
    "Verif.Sem.clean_text_partial",
    "Verif.Sem.visits_all",
    "Verif.Sem.titles_read",
    "Verif.Sem.clean_title",
    "Verif.Sem.cleanText_false"
   ],
   "note": "The title of a headline comes after the text below it. In all cases nothing is lost or added; in order without headlines and list headers inside. End to end: the clean titles of a document read from a file are the written titles."
  },
  {
   "property": "C91",
   "status": "partial",
   "theorems": [
    "Verif.Api.periods_partial",
    "Verif.Api.creation_partial",
    "Verif.Api.periods_false",
    "Verif.Api.periods_dynamic",
    "Verif.Api.creation_false"
   ],
   "note": "Times in titles and creation times are given whatever was asked for, and a time with an expression throws. With dates only the answer is given exactly."
  },
  {
   "property": "C92",
   "status": "proved",
   "theorems": [
    "Verif.Radio.sem_groups",
    "Verif.Radio.groups_agree"
   ],
   "note": "For targets whose words are not the text of a space. The text of a hashtag and its definitions are given by the view of the node."
  },
  {
   "property": "C93",
   "status": "partial",
   "theorems": [
    "Verif.Api.Track.track_partial",
    "Verif.Api.Track.track_false",
    "Verif.Api.Track.bold_target_lost",
    "Verif.Api.Track.header_target_lost"
   ],
   "note": "getFootnotePath looks among the names, which are never recorded, so no footnote is found. Radio targets are found only directly in paragraphs, and nothing in optional fields (headers of list items). Otherwise proved: exactly the named nodes with the ways to them."
  },
  {
   "property": "C94",
   "status": "partial",
   "theorems": [
    "Verif.Api.Lists.header_index",
    "Verif.Api.Lists.set_body",
    "Verif.Api.Lists.insert_item_partial",
    "Verif.Api.Lists.insert_found",
    "Verif.Api.Lists.insert_false",
    "Verif.Api.Lists.numbered_false"
   ],
   "note": "Inserting outside of the list is not checked (undefined behaviour), and every list with bullets counts as numbered."
  },
  {
   "property": "C95",
   "status": "partial",
   "theorems": [
    "Verif.Api.NewTime.new_time_partial",
    "Verif.Api.NewTime.newTime_false",
    "Verif.Api.NewTime.new_time_year",
    "Verif.Api.NewTime.new_time_month"
   ],
   "note": "Proved when the day is given. Missing months and days are taken as zero, so the time made from 2024 is in 2023."
  },
  {
   "property": "C96",
   "status": "partial",
   "theorems": [
    "Verif.Proto.proto_round_trip_partial",
    "Verif.Proto.proto_round_trip_exact_partial",
    "Verif.Proto.proto_injective",
    "Verif.Proto.roundTrip_false",
    "Verif.Proto.nil_not_read",
    "Verif.Proto.nil_title_read"
   ],
   "note": "Locations are not written, and nil nodes do not come back as nil (or make the message unreadable). Proved for all values without nil nodes, up to locations. The bytes of the messages are left to protobuf."
  },
  {
   "property": "C97",
   "status": "partial",
   "theorems": [
    "Verif.Serde.json_round_trip_partial",
    "Verif.Serde.json_injective",
    "Verif.Serde.json_false",
    "Verif.Serde.nested_optional_lost",
    "Verif.Serde.imm_set_lost",
    "Verif.Serde.imm_map_lost",
    "Verif.Serde.variant_undefined",
    "Verif.Serde.cstr_lost",
    "Verif.Serde.default_comes_back"
   ],
   "note": "Variants cannot be read (no return), immutable sets and maps come back empty, optionals of optionals are flattened, char const* is read as null. Proved for all other values of all types."
  },
  {
   "property": "C98",
   "status": "partial",
   "theorems": [
    "Verif.Serde.read_any_partial",
    "Verif.Serde.read_false",
    "Verif.Serde.scalar_as_vector"
   ],
   "note": "Pairs, ranges, entries of maps and ids are looked up by keys without a check. Proved for types made of the other ones, including records."
  },
  {
   "property": "C99",
   "status": "partial",
   "theorems": [
    "Verif.AstDiff.edits_rebuild_partial",
    "Verif.AstDiff.editsRebuild_false"
   ],
   "note": "When the roots have different kinds their subnodes are not compared. Proved for all pairs of trees with roots of the same kind."
  },
  {
   "property": "C100",
   "status": "partial",
   "theorems": [
    "Verif.AstDiff.equal_no_edits_partial",
    "Verif.AstDiff.equalNoEdits_false",
    "Verif.AstDiff.ex3_edits"
   ],
   "note": "Equal subnodes of one node are reported as moved, since a match at another index is preferred to the match at the same index. Proved for trees where no node has two equal subnodes."
  },
  {
   "property": "C101",
   "status": "partial",
   "theorems": [
    "Verif.AstDiff.mapping_partial",
    "Verif.AstDiff.mapping_range",
    "Verif.AstDiff.nodes_spec",
    "Verif.AstDiff.mapping_false"
   ],
   "note": "With a negative MinHeight the first phase never ends. Proved for all trees and all options with MinHeight >= 0, a MaxSize that is an int and the usual costs of insertions and deletions (with other costs the way back through the table, which compares with the literal 1, is not the one of the table)."
  },
  {
   "property": "C102",
   "status": "partial",
   "theorems": [
    "Verif.AstDiff.change_kinds_partial"
   ],
   "note": "For the options of C101."
  },
  {
   "property": "C103",
   "status": "partial",
   "theorems": [
    "Verif.AstDiff.unmoved_order_partial",
    "Verif.AstDiff.unmovedKeepOrder_false"
   ],
   "note": "A node moved in from elsewhere shifts the positions of its siblings, so two siblings that changed places can both be reported as not moved. Proved when no node is reported as moved."
  },
  {
   "property": "C104",
   "status": "partial",
   "theorems": [
    "Verif.AstDiff.equal_trees_partial",
    "Verif.AstDiff.equalTrees_false"
   ],
   "note": "A node with a hundred leaves compared with itself: too low for the first phase, too large for the second, so all leaves are deleted and inserted. Proved for trees higher than MinHeight or with at most MaxSize nodes."
  },
  {
   "property": "C105",
   "status": "partial",
   "theorems": [
    "Verif.AstDiff.imm_equal_partial",
    "Verif.AstDiff.immEdits_false"
   ],
   "note": "Both calls of getMapped are given the wrong tree, so edits name wrong nodes or an index out of range. Proved for equal trees."
  },
  {
   "property": "C106",
   "status": "partial",
   "theorems": [
    "Verif.Dir.parse_once",
    "Verif.Dir.parseFileOnce_false",
    "Verif.Dir.parseFile_once_partial"
   ],
   "note": "Proved in full for parseDirectoryOpts. parseFileWithIncludes does not mark its own file, so an include that leads back to it parses it a second time; all other files are parsed at most once."
  },
  {
   "property": "C107",
   "status": "proved",
   "theorems": [
    "Verif.Dir.reachable_once"
   ],
   "note": "For parsers whose documents contain no File nodes (the parser makes none)."
  },
  {
   "property": "C108",
   "status": "partial",
   "theorems": [
    "Verif.Dir.parse_returns_partial",
    "Verif.Dir.parseFile_returns_partial",
    "Verif.Dir.parseReturns_false"
   ],
   "note": "Include paths are not normalised, so a document that includes itself as ./a.org never ends. Proved when finitely many paths are closed under entries, symbolic links and resolved includes."
  },
  {
   "property": "C109",
   "status": "partial",
   "theorems": [
    "Verif.Dir.links_resolved_partial",
    "Verif.Dir.linkOnce_false",
    "Verif.Dir.includeOk_false"
   ],
   "note": "Documents put into an include are visited again with the including document: their links get a second File node, resolved from the wrong directory, and includes that were found get an error. Proved for documents without includes."
  },
  {
   "property": "C110",
   "status": "partial",
   "theorems": [
    "Verif.Eval.first_result_kept_partial",
    "Verif.Eval.one_result_kept_partial",
    "Verif.Eval.results_kept_false"
   ],
   "note": "The blocks are collected with positions in the first version of the document; after the first change the replacements no longer match a node, so all results but the first are lost. Proved: the result is the document with the first result that changes its block, for a sort that is stable (see C28)."
  },
  {
   "property": "C111",
   "status": "partial",
   "theorems": [
    "Verif.Eval.blocks_evaluated_partial",
    "Verif.Eval.positions_blocks"
   ],
   "note": "For a sort that is stable (see C28) and outputs of bounded depth. Which block a call stands for is part of the evaluator of the model."
  },
  {
   "property": "C112",
   "status": "partial",
   "theorems": [
    "Verif.Eval.slice_sound",
    "Verif.Eval.slice_partial",
    "Verif.Eval.sliceDefined_false"
   ],
   "note": "The lengths are measured along the first elements only, so a shorter row is read out of range (undefined behaviour). A given value is always the right one; for rectangular arrays it is given exactly when the spans fit."
  },
  {
   "property": "C113",
   "status": "partial",
   "theorems": [
    "Verif.Eval.code_text",
    "Verif.Eval.flags_last",
    "Verif.Eval.args_partial",
    "Verif.Eval.args_unnamed",
    "Verif.Eval.args_false"
   ],
   "note": "A default variable without a name ends with bad_optional_access. All else proved in full; the values of variables (lookup of named blocks and tables) are given."
  },
  {
   "property": "C114",
   "status": "partial",
   "theorems": [
    "Verif.Demote.demote_force_partial",
    "Verif.Demote.demote_ensure_partial",
    "Verif.Demote.demote_physical_partial",
    "Verif.Demote.force_false",
    "Verif.Demote.force_equal_false",
    "Verif.Demote.ensure_false",
    "Verif.Demote.physical_false",
    "Verif.Demote.physical_nesting_false"
   ],
   "note": "ForceLevels throws when anything but headlines is below the headline and does not nest the second one of equal headlines; EnsureLevels does the same as ForceLevels; Physical puts the headlines below before the headline and never moves it below the previous one. Proved for the other cases, for a sort that is stable (see C28)."
  },
  {
   "property": "C115",
   "status": "partial",
   "theorems": [
    "Verif.Drawer.drawer_partial",
    "Verif.Drawer.drawer_false",
    "Verif.Drawer.drawer_lost",
    "Verif.Drawer.drawer_time_lost",
    "Verif.Drawer.drawer_json_lost",
    "Verif.Drawer.drawer_json_empty"
   ],
   "note": "Ten kinds of properties (unnumbered, ordered, the LaTeX ones, ...) are written under names or in forms the reader does not know; the time of archiving and JSON containers are written in a form that ends with an exception. Proved for the other kinds, for values of one line without spaces around them."
  },
  {
   "property": "C116",
   "status": "partial",
   "theorems": [
    "Verif.Drawer.rewrite_partial",
    "Verif.Drawer.rewrite_false"
   ],
   "note": "A cookie is read as cookie_data and written as cookie. Proved for drawers without cookies, times of archiving, archive paths ending with a space, and JSON values that need more than one line."
  },
  {
   "property": "C117",
   "status": "proved",
   "theorems": [
    "Verif.Drawer.name_known",
    "Verif.Drawer.name_spelling",
    "Verif.Drawer.name_unknown",
    "Verif.Drawer.name_effort_known",
    "Verif.Drawer.name_visibility_known",
    "Verif.Drawer.drawer_order"
   ],
   "note": "For lines the lexer takes literally; names with arguments or a paragraph as value (header-args, created, hashtag_def, description) are other lines and are left out."
  },
  {
   "property": "C118",
   "status": "partial",
   "theorems": [
    "Verif.Track.add_found",
    "Verif.Track.add_found_some",
    "Verif.Track.add_found_unique",
    "Verif.Track.add_sound",
    "Verif.Track.add_radio_sound",
    "Verif.Track.add_returns",
    "Verif.Track.add_same",
    "Verif.Track.add_returns_false"
   ],
   "note": "Finding names is proved in full. A document with a radio target (or property radio_id) without words cannot be added; proved: all others can."
  },
  {
   "property": "C119",
   "status": "partial",
   "theorems": [
    "Verif.Track.version_partial",
    "Verif.Track.version_false",
    "Verif.Track.version_sound",
    "Verif.Track.current_partial",
    "Verif.Track.current_false",
    "Verif.Track.hashtag_stays",
    "Verif.Track.edit_returns_partial",
    "Verif.Track.edit_returns_false"
   ],
   "note": "A name that moves from one replaced node to another one is lost if the new node is made first; names of removed nodes, and definitions of tags, are still found; a paragraph with the same radio target twice cannot be replaced. Proved: all names are found through all histories in which names do not move away from replaced nodes (for a sort that is stable, see C28); what is found has the name in all histories, and is in the current version if no named nodes are dropped."
  },
  {
   "property": "C120",
   "status": "partial",
   "theorems": [
    "Verif.Stamp.stamps_read_partial",
    "Verif.Stamp.read_false",
    "Verif.Stamp.stamp_before_range",
    "Verif.Stamp.stamps_misread"
   ],
   "note": "Proved from the text to the time (lexer, parser, conversion) for one paragraph without markup in which no timestamp is followed, after only words, numbers and spaces, by a range: there the parser takes the timestamp for a range. Zones to the west, 10:00-11:00 and +1d2w are read as something else."
  },
  {
   "property": "C121",
   "status": "proved",
   "theorems": [
    "Verif.Stamp.stamp_accepted",
    "Verif.Stamp.range_throws",
    "Verif.Stamp.leap_second"
   ],
   "note": "For timestamps with second 60 left out (it is read as the next minute). In a range such a date ends the conversion with an exception instead of an error node."
  },
  {
   "property": "C122",
   "status": "partial",
   "theorems": [
    "Verif.Stamp.time_write_read_partial",
    "Verif.Stamp.write_read_false",
    "Verif.Stamp.zone_changes",
    "Verif.Stamp.early_year_lost"
   ],
   "note": "A zone that is not of whole hours is written as its number of minutes in four digits and read as another zone; a year before 1000 is written with less than four digits. Proved for the other times."
  },
  {
   "property": "C123",
   "status": "partial",
   "theorems": [
    "Verif.Stamp.delta_partial",
    "Verif.Stamp.delta_false",
    "Verif.Stamp.delta_negative"
   ],
   "note": "Proved for durations that are not negative; -1:30 is written -1:-30."
  },
  {
   "property": "C124",
   "status": "partial",
   "theorems": [
    "Verif.Log.entry_read_partial",
    "Verif.Log.entry_read_false",
    "Verif.Log.removed_read",
    "Verif.Log.names_lost",
    "Verif.Log.names_kept"
   ],
   "note": "A removed priority is never read, a new state that is not in capitals is an error, an old one is lost. Proved, from the text to the entry, for the other entries with names in capitals (letters and _)."
  },
  {
   "property": "C125",
   "status": "partial",
   "theorems": [
    "Verif.Log.entry_write_read_partial",
    "Verif.Log.entry_write_read_false",
    "Verif.Log.removed_not_written"
   ],
   "note": "Removed priorities as in C124: what was read from them cannot even be written. Proved for the other entries but clocks, for names in capitals, years from 1000 on and zones of whole hours (C122). Clocks: whole documents in names_kept."
  },
  {
   "property": "C126",
   "status": "partial",
   "theorems": [
    "Verif.Log.entry_throws_iff",
    "Verif.Log.empty_throws",
    "Verif.Log.no_throw_false",
    "Verif.Log.documents_throw"
   ],
   "note": "Proved: exactly which paragraphs end with an exception (an entry without words and times, a tag with nothing else, a refiled entry without a time, a priority that is not added, changed or removed), for paragraphs without times given by code."
  },
  {
   "property": "C127",
   "status": "partial",
   "theorems": [
    "Verif.Log.unknown_grows",
    "Verif.Log.unknown_written",
    "Verif.Log.unknown_doubled",
    "Verif.Log.unknown_kept_false"
   ],
   "note": "The claim is false for every such entry: it is written twice, so its words double with each round (proved on the nodes of the paragraph for any number of rounds; in whole documents for one round)."
  },
  {
   "property": "C128",
   "status": "partial",
   "theorems": [
    "Verif.Log.deadline_lost",
    "Verif.Log.deadline_false",
    "Verif.Log.deadline_document"
   ],
   "note": "The claim is false for every such entry: nothing of the line is kept, and without a description the entry cannot be written."
  },
  {
   "property": "C129",
   "status": "proved",
   "theorems": [
    "Verif.Log.desc_read",
    "Verif.Log.desc_absent",
    "Verif.Log.desc_document"
   ],
   "note": "On the nodes of the paragraph, for all entries that are understood."
  },
  {
   "property": "C130",
   "status": "proved",
   "theorems": [
    "Verif.Link.links_read"
   ],
   "note": "From the text through lexer, parser and conversion. Descriptions are words of one line without markup; targets are on one line without closing brackets."
  },
  {
   "property": "C131",
   "status": "partial",
   "theorems": [
    "Verif.Link.links_again_partial",
    "Verif.Link.links_again_false",
    "Verif.Link.address_again_false",
    "Verif.Link.again_changed"
   ],
   "note": "False: the stars of a title are not counted when it is written, and a web address in brackets is written without them, so that it takes in the punctuation after it. Proved for all paragraphs with one star for titles and blanks around such addresses."
  },
  {
   "property": "C132",
   "status": "partial",
   "theorems": [
    "Verif.Link.protocol_partial",
    "Verif.Link.protocol_false",
    "Verif.Link.protocol_prefix"
   ],
   "note": "False for every such link with a target: it is lost. Proved: the protocol and the description are kept. Names which start like a known protocol are read as that one."
  },
  {
   "property": "C133",
   "status": "proved",
   "theorems": [
    "Verif.Code.code_read"
   ],
   "note": "From the text through lexer, tokenizer, parser and conversion. Arguments are words, names and pairs of both, without quotes, brackets, colons, commas and equal signs; results of blocks are not modelled. In front of an indented block there is an empty paragraph."
  },
  {
   "property": "C134",
   "status": "partial",
   "theorems": [
    "Verif.Code.code_again_partial",
    "Verif.Code.code_written",
    "Verif.Code.code_again_false"
   ],
   "note": "False: spaces at the ends of lines of code are lost. Proved for blocks without such spaces, with the text that is written. Parts of a line without text do not count. Blocks with arguments are not written in the model."
  },
  {
   "property": "C135",
   "status": "partial",
   "theorems": [
    "Verif.Code.code_kept_partial",
    "Verif.Code.code_kept_false"
   ],
   "note": "False: `a << b << c >> d` in a source block stops the parser with an exception. Proved for all lines without `<<` and a `>>` behind it, and without an end of a block right after such angles."
  },
  {
   "property": "C136",
   "status": "partial",
   "theorems": [
    "Verif.Raw.raw_read_partial",
    "Verif.Raw.raw_read_false",
    "Verif.Raw.bare_export_fatal",
    "Verif.Raw.sample_args_lost"
   ],
   "note": "From the text through lexer, tokenizer, parser and conversion. False for an example without lines: the conversion of the document ends with an exception. Proved for all other documents. An export block without an exporter ends the parsing, and arguments of an example are lost. In front of an indented block there is an empty paragraph."
  },
  {
   "property": "C137",
   "status": "partial",
   "theorems": [
    "Verif.Raw.export_again_partial",
    "Verif.Raw.raw_again",
    "Verif.Raw.raw_written",
    "Verif.Raw.export_again_false"
   ],
   "note": "False: spaces at the ends of lines are lost. Proved for blocks without such spaces; raw_again says what is read in all cases."
  },
  {
   "property": "C138",
   "status": "partial",
   "theorems": [
    "Verif.Raw.sample_again_partial",
    "Verif.Raw.sample_grows",
    "Verif.Raw.sample_again_false"
   ],
   "note": "False for every example of two or more lines: two empty lines are put between the lines, so that k+1 lines are 3^n*k+1 lines after n rounds (sample_grows). Proved for examples of one line."
  },
  {
   "property": "C139",
   "status": "partial",
   "theorems": [
    "Verif.Grid.grid_read_partial",
    "Verif.Grid.grid_read_false",
    "Verif.Grid.tables_joined",
    "Verif.Grid.open_row",
    "Verif.Grid.rules_fatal",
    "Verif.Grid.tight_row"
   ],
   "note": "From the text through lexer, parser and conversion. False: two tables with empty lines between them are read as one (tables_joined). Proved for all documents without a table right after a table, whose links are of known protocols; rows have a space after the first bar and nothing after the last. A row without its last bar takes in the next line, a table of rules only ends the conversion with an exception."
  },
  {
   "property": "C140",
   "status": "partial",
   "theorems": [
    "Verif.Grid.grid_written",
    "Verif.Grid.lines_false"
   ],
   "note": "False for rules: they are not written. Proved: rows, cells and paragraphs are written as claimed, and nothing else; links as in C131."
  },
  {
   "property": "C141",
   "status": "partial",
   "theorems": [
    "Verif.Grid.grid_again_partial",
    "Verif.Grid.grid_again_false"
   ],
   "note": "False because of the links (C131): the stars of a title are lost. Proved for all documents whose links are read again."
  },
  {
   "property": "C142",
   "status": "partial",
   "theorems": [
    "Verif.Lists.lists_read_partial",
    "Verif.Lists.lists_read_false",
    "Verif.Lists.dedent_words",
    "Verif.Lists.gap_ends"
   ],
   "note": "From the text through lexer, tokenizer, parser and conversion. False: a line with a mark that is indented less than the item before it, and unlike all items above, is read as words. Proved for all trees of one-line items."
  },
  {
   "property": "C143",
   "status": "proved",
   "theorems": [
    "Verif.Lists.lists_written"
   ],
   "note": "For all trees of one-line items; links are written as in C131."
  },
  {
   "property": "C144",
   "status": "partial",
   "theorems": [
    "Verif.Lists.lists_again_partial",
    "Verif.Lists.lists_again_false",
    "Verif.Lists.spaced_written"
   ],
   "note": "False: an empty line with k spaces on it is written as k+1 empty lines, and two or more of them end a list. Proved for all trees of one-line items whose links are read again."
  },
  {
   "property": "C145",
   "status": "partial",
   "theorems": [
    "Verif.Fuzzy.match_found_partial",
    "Verif.Fuzzy.match_found_false"
   ],
   "note": "False for an empty pattern, which is never found. Proved for all other patterns and every limit above zero."
  },
  {
   "property": "C146",
   "status": "partial",
   "theorems": [
    "Verif.Fuzzy.match_best_partial",
    "Verif.Fuzzy.match_best_false",
    "Verif.Fuzzy.loop_count"
   ],
   "note": "False: the limit of the recursion (10 by default) is spent on the first branches; a string of 12 elements is enough. Proved if the limit is more than 2 to the length of the string."
  },
  {
   "property": "C147",
   "status": "partial",
   "theorems": [
    "Verif.Fuzzy.score_partial",
    "Verif.Fuzzy.score_false",
    "Verif.Fuzzy.score_positive",
    "Verif.Fuzzy.score_standard"
   ],
   "note": "False: a match in a text of 87 characters has score -1, in longer texts less. Proved if no match has score -1; in texts of at most 85 characters every score is positive."
  },
  {
   "property": "C148",
   "status": "proved",
   "theorems": [
    "Verif.Sets.set_members",
    "Verif.Sets.set_compare"
   ],
   "note": "For all enumerations with different values and a bit for each of them; comparison for sets without complements."
  },
  {
   "property": "C149",
   "status": "partial",
   "theorems": [
    "Verif.Sets.loop_partial",
    "Verif.Sets.loop_false",
    "Verif.Sets.loop_positions",
    "Verif.Sets.complement_extra"
   ],
   "note": "False: a loop gives the positions of the members among the enumerators, not the members; for the styles of texts, which are numbered from 1, each is taken for the one before it. Proved for enumerations numbered from 0, without complements."
  },
  {
   "property": "C150",
   "status": "partial",
   "theorems": [
    "Verif.Sets.json_partial",
    "Verif.Sets.json_false",
    "Verif.Sets.json_dim"
   ],
   "note": "False for the same reason: {Bright} cannot be read again and {Dim} is read as {Bright}. Proved for enumerations numbered from 0."
  },
  {
   "property": "C151",
   "status": "proved",
   "theorems": [
    "Verif.Term.text_shown"
   ],
   "note": "The terminal is a small interpreter of ECMA-48; runes contain no escape character."
  },
  {
   "property": "C152",
   "status": "partial",
   "theorems": [
    "Verif.Term.colour_partial",
    "Verif.Term.colour_false",
    "Verif.Term.style_shown",
    "Verif.Term.white_shown",
    "Verif.Term.default_shown"
   ],
   "note": "False: every style is shown as the one before it, white as bright white, and Default leaves the colour as it was. Proved for the colours from black to cyan, without styles."
  },
  {
   "property": "C153",
   "status": "partial",
   "theorems": [
    "Verif.Term.chunks_partial",
    "Verif.Term.chunks_false"
   ],
   "note": "False: the number of every style is one too small. Proved for text and colours, and for the styles with this correction."
  },
  {
   "property": "C154",
   "status": "partial",
   "theorems": [
    "Verif.Term.html_partial",
    "Verif.Term.html_false",
    "Verif.Term.html_balanced",
    "Verif.Term.html_raw"
   ],
   "note": "False: tags of colours and styles overlap, and the text is not escaped. Proved: nested without styles; every tag is balanced in general."
  },
  {
   "property": "C155",
   "status": "partial",
   "theorems": [
    "Verif.Term.stream_partial",
    "Verif.Term.stream_bg_partial",
    "Verif.Term.stream_style",
    "Verif.Term.stream_false",
    "Verif.Term.stream_bg_false",
    "Verif.Term.stream_position",
    "Verif.Term.stream_parts"
   ],
   "note": "False: a colour does not replace one that is active. Proved if none is active; the position; and parts, for colours from black to cyan."
  },
  {
   "property": "C156",
   "status": "proved",
   "theorems": [
    "Verif.Term.split_join",
    "Verif.Term.aligned",
    "Verif.Term.indented"
   ],
   "note": ""
  },
  {
   "property": "C157",
   "status": "proved",
   "theorems": [
    "Verif.Graph.vertices_kept",
    "Verif.Graph.built_made",
    "Verif.Graph.demo_read"
   ],
   "note": ""
  },
  {
   "property": "C158",
   "status": "partial",
   "theorems": [
    "Verif.Graph.graph_partial",
    "Verif.Graph.edge_attrs_false",
    "Verif.Graph.edge_ends_false",
    "Verif.Graph.attrs_lost",
    "Verif.Graph.edges_unreachable",
    "Verif.Graph.rewrite_fails"
   ],
   "note": "False: attributes are not written, and the ids of edges are made without the id of their collection. Proved for stable ids, sources and targets as the collections give them; what is lost is proved for all graphs."
  },
  {
   "property": "C159",
   "status": "partial",
   "theorems": [
    "Verif.Graph.graph_partial",
    "Verif.Graph.hierarchy_false",
    "Verif.Graph.lone_unreadable",
    "Verif.Graph.nest_edges_lost"
   ],
   "note": "False: a vertex without parent and sub-vertices makes the message unreadable, and the edges of the hierarchy are not restored. Proved for all hierarchies without such a vertex."
  },
  {
   "property": "C160",
   "status": "partial",
   "theorems": [
    "Verif.Graph.ports_lost",
    "Verif.Graph.ports_false"
   ],
   "note": "False: ports are never written. Proved that every graph that is read has none."
  },
  {
   "property": "C161",
   "status": "proved",
   "theorems": [
    "Verif.Comments.blocks",
    "Verif.Comments.commented_in_block"
   ],
   "note": ""
  },
  {
   "property": "C162",
   "status": "partial",
   "theorems": [
    "Verif.Comments.text_partial",
    "Verif.Comments.text_false",
    "Verif.Comments.empty_lost"
   ],
   "note": "False: an empty comment at the end of a block is lost, and a second prefix at the start of a later comment is removed. Proved for all other blocks."
  },
  {
   "property": "C163",
   "status": "partial",
   "theorems": [
    "Verif.Comments.position_partial",
    "Verif.Comments.position_false"
   ],
   "note": "False: the column is that of the prefix, not of the text. Proved where the text is."
  },
  {
   "property": "C164",
   "status": "partial",
   "theorems": [
    "Verif.Comments.document_partial",
    "Verif.Comments.document_false",
    "Verif.Comments.no_comments"
   ],
   "note": "False: a text without comments reads the first of no fragments, which is undefined behaviour. Proved for all other texts."
  },
  {
   "property": "C165",
   "status": "partial",
   "theorems": [
    "Verif.Keywords.startup_partial",
    "Verif.Keywords.startup_false",
    "Verif.Keywords.indent_wide"
   ],
   "note": "False: show5levels throws, and indent is only seen as the second word after one space. Proved for all other documents."
  },
  {
   "property": "C166",
   "status": "partial",
   "theorems": [
    "Verif.Keywords.options_partial",
    "Verif.Keywords.options_false",
    "Verif.Keywords.options_minus",
    "Verif.Keywords.options_done"
   ],
   "note": "False: a space after #+options: turns fixed width sections on, keys which are signs set the emphasis, tasks:done is ignored. Proved for all other items, without the option for fixed width sections."
  },
  {
   "property": "C167",
   "status": "partial",
   "theorems": [
    "Verif.Keywords.nodes_partial",
    "Verif.Keywords.nodes_false"
   ],
   "note": "False: the colon is part of the name. Proved with the colon."
  },
  {
   "property": "C168",
   "status": "partial",
   "theorems": [
    "Verif.Keywords.again_partial",
    "Verif.Keywords.again_false"
   ],
   "note": "False: the text of a command grows each time, and most options are not written. Proved for the visibility, marked broken links, e-mail addresses, and how the commands grow."
  },
  {
   "property": "C169",
   "status": "partial",
   "theorems": [
    "Verif.JsonText.compact_partial",
    "Verif.JsonText.compact_line",
    "Verif.JsonText.compact_false",
    "Verif.JsonText.compact_key_false"
   ],
   "note": "False: null that does not fit into the width is not written, and keys are not escaped. Proved for plain keys and enough width for each null, whatever the sizes are and however the fields are sorted, and for all values that fit into one line."
  },
  {
   "property": "C170",
   "status": "proved",
   "theorems": [
    "Verif.JsonText.filter_removed",
    "Verif.JsonText.filter_kept",
    "Verif.JsonText.filter_leaf"
   ],
   "note": ""
  },
  {
   "property": "C171",
   "status": "partial",
   "theorems": [
    "Verif.Structural.structural_partial",
    "Verif.Structural.structural_other",
    "Verif.Structural.structural_false",
    "Verif.Structural.structural_field",
    "Verif.Structural.structural_zero"
   ],
   "note": "False: of equal siblings the first one is taken, offset zero throws, and moving a statement that is in a field, as the title of a headline, writes out of bounds. Proved for statements that occur once among the subnodes of their parent."
  },
  {
   "property": "C172",
   "status": "partial",
   "theorems": [
    "Verif.Xml.xml_partial",
    "Verif.Xml.xml_comments",
    "Verif.Xml.xml_false",
    "Verif.Xml.xml_cdata_false",
    "Verif.Xml.xml_comment_false",
    "Verif.Xml.xml_attr_false",
    "Verif.Xml.xml_cr_false",
    "Verif.Xml.raw_false",
    "Verif.Xml.sample_stands"
   ],
   "note": "False: character data that contain ]]> are split, comments with -- or a dash at the end change, line breaks and tabs in attributes become spaces, carriage returns become line breaks, and raw nodes are escaped and put into an element without a name. Proved for all other trees and all indentations; whatever is in the comments, the rest is read back."
  },
  {
   "property": "C173",
   "status": "proved",
   "theorems": [
    "Verif.Xml.set_found",
    "Verif.Xml.set_other",
    "Verif.Xml.set_names",
    "Verif.Xml.set_unique"
   ],
   "note": ""
  },
  {
   "property": "C174",
   "status": "partial",
   "theorems": [
    "Verif.Enumerate.loop_partial",
    "Verif.Enumerate.loop_exact",
    "Verif.Enumerate.loop_false",
    "Verif.Enumerate.loop_negative"
   ],
   "note": "Proved if the skipped parts do not overlap. False otherwise: begin is after end, and the loop runs out of the sequence; a negative number makes size and is_last wrong."
  },
  {
   "property": "C175",
   "status": "partial",
   "theorems": [
    "Verif.Enumerate.next_value",
    "Verif.Enumerate.prev_partial",
    "Verif.Enumerate.prev_false",
    "Verif.Enumerate.prev_late"
   ],
   "note": "next: proved. False for prev: it checks the position after the element instead of the one before, so it reads before the sequence or throws though there is an element."
  },
  {
   "property": "C176",
   "status": "proved",
   "theorems": [
    "Verif.Bits.format_reads",
    "Verif.Bits.format_marks",
    "Verif.Bits.format_short"
   ],
   "note": ""
  },
  {
   "property": "C177",
   "status": "partial",
   "theorems": [
    "Verif.Window.start_partial",
    "Verif.Window.end_moves",
    "Verif.Window.end_fixed_false",
    "Verif.Window.start_back_false",
    "Verif.Window.start_back_aborts"
   ],
   "note": "moveStart forwards and moveEnd without fixed size: proved. False: moveEnd with a fixed size moves the start and the end relative to it, so the size grows; moving the start back leaves the array or fails an assertion."
  },
  {
   "property": "C178",
   "status": "proved",
   "theorems": [
    "Verif.Window.partition_runs"
   ],
   "note": ""
  },
  {
   "property": "C179",
   "status": "partial",
   "theorems": [
    "Verif.Columns.table_cells",
    "Verif.Columns.table_empty",
    "Verif.Columns.rule_partial",
    "Verif.Columns.rule_false"
   ],
   "note": "The cells: proved. The lines between the rows are below the columns if the spacings of rows and cells have the same length; false otherwise, since the spacing of the rows is put between the columns."
  },
  {
   "property": "C180",
   "status": "proved",
   "theorems": [
    "Verif.Trail.tracker_list"
   ],
   "note": ""
  },
  {
   "property": "C181",
   "status": "proved",
   "theorems": [
    "Verif.Bimap.one_inverse",
    "Verif.Bimap.many_inverse",
    "Verif.Bimap.keys_map",
    "Verif.Bimap.add_map",
    "Verif.Bimap.eraseLeft_map",
    "Verif.Bimap.eraseRight_map",
    "Verif.Bimap.reassign_map"
   ],
   "note": "The library's own maps are trusted."
  },
  {
   "property": "C182",
   "status": "proved",
   "theorems": [
    "Verif.Bimap.stable_order"
   ],
   "note": "The library's own maps are trusted."
  },
  {
   "property": "C183",
   "status": "partial",
   "theorems": [
    "Verif.Report.offset_partial",
    "Verif.Report.offset_past_partial",
    "Verif.Report.offset_negative",
    "Verif.Report.offset_false",
    "Verif.Report.offset_past_false"
   ],
   "note": "False at the end of the source: the end of a source that ends with a line end is given as a place in the line before, and one offset after the end has a place. A negative offset throws instead of giving nothing (offset_negative)."
  },
  {
   "property": "C184",
   "status": "partial",
   "theorems": [
    "Verif.Report.range_partial",
    "Verif.Report.range_false",
    "Verif.Report.line_texts"
   ],
   "note": "The range begins with the first line of the span and its last index is one more than the last line's; false as stated in the code's comment, since that index need not be a line."
  },
  {
   "property": "C185",
   "status": "proved",
   "theorems": [
    "Verif.Report.groups_spec",
    "Verif.Report.groups_ok",
    "Verif.Report.label_kind"
   ],
   "note": ""
  },
  {
   "property": "C186",
   "status": "partial",
   "theorems": [
    "Verif.Report.drawn_partial",
    "Verif.Report.drawn_never_false",
    "Verif.Report.drawn_twice_false"
   ],
   "note": "Proved for labels that end before the end of their line and before the end of the source. False otherwise: a label for a line end is never drawn, and one that reaches the end of the source is drawn on lines before too."
  },
  {
   "property": "C187",
   "status": "partial",
   "theorems": [
    "Verif.Mkdir.mkdir_partial",
    "Verif.Mkdir.mkdir_throws_partial",
    "Verif.Mkdir.mkdir_false",
    "Verif.Mkdir.mkdir_throws_false"
   ],
   "note": "Proved for absolute paths and for relative ones whose first name is a directory. False for other relative paths: nothing is created and nothing thrown, and without `parents` a path of one name always throws. Links and the names `.` and `..` are not resolved."
  },
  {
   "property": "C188",
   "status": "proved",
   "theorems": [
    "Verif.Maps.maps_function"
   ],
   "note": "The library's own maps are trusted."
  },
  {
   "property": "C189",
   "status": "proved",
   "theorems": [
    "Verif.Maps.hash_content"
   ],
   "note": "The library's hashes of keys and values are any functions."
  },
  {
   "property": "C190",
   "status": "partial",
   "theorems": [
    "Verif.Cache.cache_known",
    "Verif.Cache.cache_refused_partial",
    "Verif.Cache.cache_refused_false",
    "Verif.Cache.paths_partial",
    "Verif.Cache.paths_false"
   ],
   "note": "False: a refused call with a new identifier has stored its source before the name is refused; a path with the hash of another gets the source of that one."
  },
  {
   "property": "C191",
   "status": "partial",
   "theorems": [
    "Verif.Geometry.extend_partial",
    "Verif.Geometry.extend_rect_partial",
    "Verif.Geometry.extend_false"
   ],
   "note": "Proved for integer coordinates of at most thirty bits. False otherwise: the coordinates are converted to int, so that a point with a fraction need not be covered."
  },
  {
   "property": "C192",
   "status": "proved",
   "theorems": [
    "Verif.Geometry.padding_back",
    "Verif.Geometry.padding_out",
    "Verif.Geometry.move_inside",
    "Verif.Geometry.scale_inside",
    "Verif.Geometry.center_box"
   ],
   "note": "For rational numbers: rounding of double is not modelled."
  },
  {
   "property": "C193",
   "status": "partial",
   "theorems": [
    "Verif.Geometry.path_points",
    "Verif.Geometry.polyline_points",
    "Verif.Geometry.position_spec",
    "Verif.Geometry.position_scale",
    "Verif.Geometry.position_move_partial",
    "Verif.Geometry.position_move_false",
    "Verif.Geometry.position_polyline"
   ],
   "note": "The position and its scaling: proved. Moving: for paths that begin with moveTo; false for others, since the origin they begin at is not moved. For rational numbers: rounding is not modelled."
  },
  {
   "property": "C194",
   "status": "proved",
   "theorems": [
    "Verif.Constraint.fold_value",
    "Verif.Constraint.fold_throws",
    "Verif.Constraint.kiwi_meaning"
   ],
   "note": "For rational numbers; the solver's own expressions and relations are trusted. A product of variables counts also if its value is linear."
  },
  {
   "property": "C195",
   "status": "proved",
   "theorems": [
    "Verif.Constraint.align_meaning",
    "Verif.Constraint.separate_meaning",
    "Verif.Constraint.multi_meaning",
    "Verif.Constraint.wrap_meaning",
    "Verif.Constraint.gaps_meaning",
    "Verif.Constraint.size_meaning",
    "Verif.Constraint.relative_meaning",
    "Verif.Constraint.linear_meaning"
   ],
   "note": "For rational numbers. A wrap can only be satisfied if the first box is leftmost and topmost and the last one rightmost and lowest, which the header says."
  },
  {
   "property": "C196",
   "status": "proved",
   "theorems": [
    "Verif.Constraint.multi_reuse",
    "Verif.Constraint.multi_builds",
    "Verif.Constraint.gaps_axes",
    "Verif.Constraint.align_builds"
   ],
   "note": "A single group is not checked for being empty; multi_builds is about two or more."
  },
  {
   "property": "C197",
   "status": "proved",
   "theorems": [
    "Verif.Picture.drawn_covers",
    "Verif.Picture.drawn_same",
    "Verif.Picture.never_cyclic"
   ],
   "note": "For rational numbers; the topological sort of the library is trusted, and shown never to throw. Boxes of no area cover nothing and are covered by none."
  },
  {
   "property": "C198",
   "status": "partial",
   "theorems": [
    "Verif.Picture.canvas_partial",
    "Verif.Picture.canvas_false"
   ],
   "note": "False: the picture begins at the origin, so a box more than the margin left of it or above it is outside. Proved to be exactly these."
  },
  {
   "property": "C199",
   "status": "partial",
   "theorems": [
    "Verif.Fields.one_field",
    "Verif.Fields.many_partial",
    "Verif.Fields.many_throws",
    "Verif.Fields.many_false"
   ],
   "note": "One position: proved. Many: proved if there are some; false otherwise, since a field of no subnodes is an exception."
  },
  {
   "property": "C200",
   "status": "partial",
   "theorems": [
    "Verif.Fields.name_partial",
    "Verif.Fields.name_many",
    "Verif.Fields.name_false"
   ],
   "note": "Proved for fields that do not go past the end of the node. False: the position after the last subnode has the name of a field that is missing, since the bound is not strict."
  },
  {
   "property": "C201",
   "status": "partial",
   "theorems": [
    "Verif.Vecs.at_spec",
    "Verif.Vecs.back_spec",
    "Verif.Vecs.never_ub",
    "Verif.Vecs.get_spec",
    "Verif.Vecs.has_spec",
    "Verif.Vecs.or_spec",
    "Verif.Vecs.array_has_partial",
    "Verif.Vecs.array_has_false"
   ],
   "note": "Vectors: proved. has of an array: proved for positions that are not negative; false for negative ones."
  },
  {
   "property": "C202",
   "status": "partial",
   "theorems": [
    "Verif.Vecs.resize_at_spec",
    "Verif.Vecs.resize_at_throws",
    "Verif.Vecs.pop_spec",
    "Verif.Vecs.pop_throws",
    "Verif.Vecs.push_spec",
    "Verif.Vecs.insert_partial",
    "Verif.Vecs.insert_false",
    "Verif.Vecs.index_spec",
    "Verif.Vecs.index_none",
    "Verif.Vecs.contains_spec"
   ],
   "note": "insert: proved for positions of the vector; others are not checked, and undefined behaviour. The rest: proved."
  },
  {
   "property": "C203",
   "status": "partial",
   "theorems": [
    "Verif.Vecs.loop_all",
    "Verif.Vecs.loop_stopped",
    "Verif.Vecs.loop_rest",
    "Verif.Vecs.loop_false"
   ],
   "note": "One loop: proved. A second loop over the same object goes on where the first one ended, with new indices."
  },
  {
   "property": "C204",
   "status": "proved",
   "theorems": [
    "Verif.Agenda.completion_counts",
    "Verif.Agenda.build_tasks",
    "Verif.Agenda.build_completion",
    "Verif.Agenda.build_pruned"
   ],
   "note": ""
  },
  {
   "property": "C205",
   "status": "partial",
   "theorems": [
    "Verif.Agenda.clock_own",
    "Verif.Agenda.clock_leaf_partial",
    "Verif.Agenda.clock_actual",
    "Verif.Agenda.clock_false"
   ],
   "note": "Proved for the node itself. False with the nodes below: the entries of the node are counted once for each of them, and theirs never."
  },
  {
   "property": "C206",
   "status": "proved",
   "theorems": [
    "Verif.Agenda.age_zero",
    "Verif.Agenda.age_past",
    "Verif.Agenda.age_spec"
   ],
   "note": ""
  },
  {
   "property": "C207",
   "status": "partial",
   "theorems": [
    "Verif.Agenda.unfinished_partial",
    "Verif.Agenda.shown_false",
    "Verif.Agenda.done_hidden_false",
    "Verif.Agenda.empty_hidden"
   ],
   "note": "Proved for rows with a task that is not completed, and for keywords. False: rows with completed tasks only are always hidden in the tree, and tasks that failed or were canceled never in the list."
  },
  {
   "property": "C208",
   "status": "proved",
   "theorems": [
    "Verif.Agenda.sorted_rows"
   ],
   "note": ""
  },
  {
   "property": "C209",
   "status": "proved",
   "theorems": [
    "Verif.Editor.never_throws",
    "Verif.Editor.added_root",
    "Verif.Editor.old_stays",
    "Verif.Editor.migrate_follows",
    "Verif.Editor.migrate_latest"
   ],
   "note": ""
  },
  {
   "property": "C210",
   "status": "partial",
   "theorems": [
    "Verif.Editor.migrate_max_partial",
    "Verif.Editor.migrate_max_false",
    "Verif.Editor.latest_partial",
    "Verif.Editor.latest_false",
    "Verif.Editor.reset_false"
   ],
   "note": "False in all three parts: migration goes one version too far, the latest id has the version as its index, and starting again is always an exception."
  },
  {
   "property": "C211",
   "status": "proved",
   "theorems": [
    "Verif.TraceView.drawn_in_order",
    "Verif.TraceView.drawn_rows"
   ],
   "note": ""
  },
  {
   "property": "C212",
   "status": "proved",
   "theorems": [
    "Verif.TraceView.level_of",
    "Verif.TraceView.nested_of",
    "Verif.TraceView.roots_of"
   ],
   "note": ""
  },
  {
   "property": "C213",
   "status": "partial",
   "theorems": [
    "Verif.TraceView.hierarchy_partial",
    "Verif.TraceView.hierarchy_false"
   ],
   "note": "False: there is one static object for all viewers; it holds until another viewer is asked."
  },
  {
   "property": "C214",
   "status": "proved",
   "theorems": [
    "Verif.Tracer.text_levels",
    "Verif.Tracer.restored"
   ],
   "note": ""
  },
  {
   "property": "C215",
   "status": "proved",
   "theorems": [
    "Verif.Tracer.viewer_levels",
    "Verif.Tracer.viewer_closed"
   ],
   "note": ""
  },
  {
   "property": "C216",
   "status": "partial",
   "theorems": [
    "Verif.Tracer.off_partial",
    "Verif.Tracer.off_messages_partial",
    "Verif.Tracer.off_false"
   ],
   "note": "False: scopes of a structured trace are written whether the trace is on or off. Proved for text, and for messages."
  },
  {
   "property": "C217",
   "status": "partial",
   "theorems": [
    "Verif.Explorer.shown_iff",
    "Verif.Explorer.all_shown_partial",
    "Verif.Explorer.hidden_partial",
    "Verif.Explorer.hidden_false",
    "Verif.Explorer.no_empty"
   ],
   "note": "False: hidden directories below others, and those at the top with names of two characters, are shown. Proved: what is shown, for all trees; all org files if there are no hidden directories at the top; no empty directories."
  },
  {
   "property": "C218",
   "status": "partial",
   "theorems": [
    "Verif.Explorer.current_partial",
    "Verif.Explorer.explorer_false",
    "Verif.Explorer.explorer_actual",
    "Verif.Explorer.cached_false",
    "Verif.Explorer.parsed_actual"
   ],
   "note": "False: the explorer never sets its parser, and the times of files are never kept. Proved with a parser: contents are current, as each call parses the file."
  },
  {
   "property": "C219",
   "status": "proved",
   "theorems": [
    "Verif.Logger.sinks_current",
    "Verif.Logger.stack_of",
    "Verif.Logger.scope_restores"
   ],
   "note": ""
  },
  {
   "property": "C220",
   "status": "partial",
   "theorems": [
    "Verif.Logger.field_partial",
    "Verif.Logger.field_false"
   ],
   "note": "False: the first field that is set is lost. Proved for the others."
  },
  {
   "property": "C221",
   "status": "partial",
   "theorems": [
    "Verif.Logger.differ_partial",
    "Verif.Logger.differ_false"
   ],
   "note": "False: of a record with many lines which is in both runs only the first line has a mark. Proved for records of one line."
  },
  {
   "property": "C222",
   "status": "proved",
   "theorems": [
    "Verif.Attrs.unique_iff",
    "Verif.Attrs.unique_errors",
    "Verif.Attrs.optional_iff",
    "Verif.Attrs.all_of"
   ],
   "note": ""
  },
  {
   "property": "C223",
   "status": "partial",
   "theorems": [
    "Verif.Attrs.added_partial",
    "Verif.Attrs.add_false",
    "Verif.Attrs.reset_false",
    "Verif.Attrs.unique_actual",
    "Verif.Attrs.build_throws"
   ],
   "note": "False: types of pointers are compared, so a second attribute of a class is added and setting does nothing. Proved: what is done for each type of pointer, and that attributes of different derived classes are read back."
  },
  {
   "property": "C224",
   "status": "partial",
   "theorems": [
    "Verif.CallGraph.count_partial",
    "Verif.CallGraph.count_false",
    "Verif.CallGraph.run_stack"
   ],
   "note": "False: calls before a jump with another description are not counted. Proved without jumps, for all programs."
  },
  {
   "property": "C225",
   "status": "partial",
   "theorems": [
    "Verif.CallGraph.shown_iff",
    "Verif.CallGraph.cluster_partial",
    "Verif.CallGraph.scope_partial",
    "Verif.CallGraph.cluster_false"
   ],
   "note": "False: the cluster of a function is lost when it is called again. Proved: which nodes there are and that nothing throws, for all programs; clusters of functions called once."
  },
  {
   "property": "C226",
   "status": "proved",
   "theorems": [
    "Verif.RenderTrace.traced",
    "Verif.RenderTrace.off_nothing",
    "Verif.RenderTrace.start_inside"
   ],
   "note": "Windows which are not ended, as after IM_FN_BEGIN gives false at im_test_common.hpp:125-134, are not in the claim; starting the trace in a window and ending this window fails (start_inside)."
  }
 ]
}
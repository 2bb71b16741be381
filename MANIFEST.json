{
 "claims": [
  {
   "property": "C01",
   "status": "proved",
   "theorems": [
    "Verif.Dag.C01_acyclic"
   ],
   "note": "All histories, all iteration orders; cycle in IsEdge or GetChildren relation."
  },
  {
   "property": "C02",
   "status": "proved",
   "theorems": [
    "Verif.Dag.C02_addEdge"
   ],
   "note": "Error precedence and effect."
  },
  {
   "property": "C03",
   "status": "proved",
   "theorems": [
    "Verif.Dag.C03_fresh"
   ],
   "note": ""
  },
  {
   "property": "C04",
   "status": "proved",
   "theorems": [
    "Verif.Dag.C04_queries_pure"
   ],
   "note": "Insertion of read-only calls anywhere; ordered traversals compared up to reordering."
  },
  {
   "property": "C05",
   "status": "proved",
   "theorems": [
    "Verif.Dag.C05_order_independent"
   ],
   "note": ""
  },
  {
   "property": "C06",
   "status": "proved",
   "theorems": [
    "Verif.Dag.C06_terminates",
    "Verif.Dag.C06_fuel_irrelevant"
   ],
   "note": ""
  },
  {
   "property": "C07",
   "status": "proved",
   "theorems": [
    "Verif.Dag.C07_vertex_store"
   ],
   "note": ""
  },
  {
   "property": "C08",
   "status": "proved",
   "theorems": [
    "Verif.Dag.C08_deleteVertex"
   ],
   "note": ""
  },
  {
   "property": "C09",
   "status": "proved",
   "theorems": [
    "Verif.Dag.C09_converse"
   ],
   "note": ""
  },
  {
   "property": "C10",
   "status": "proved",
   "theorems": [
    "Verif.Dag.C10_roots_leaves"
   ],
   "note": ""
  },
  {
   "property": "C11",
   "status": "proved",
   "theorems": [
    "Verif.Dag.C11_size"
   ],
   "note": ""
  },
  {
   "property": "C12",
   "status": "proved",
   "theorems": [
    "Verif.Dag.C12_reduce_reachability"
   ],
   "note": ""
  },
  {
   "property": "C13",
   "status": "proved",
   "theorems": [
    "Verif.Dag.C13_reduce_minimal"
   ],
   "note": ""
  },
  {
   "property": "C14",
   "status": "proved",
   "theorems": [
    "Verif.Dag.C14_ordered_exact"
   ],
   "note": ""
  },
  {
   "property": "C15",
   "status": "proved",
   "theorems": [
    "Verif.Dag.C15_breadth_first"
   ],
   "note": ""
  },
  {
   "property": "C16",
   "status": "proved",
   "theorems": [
    "Verif.Dag.C16_walker_prefix",
    "Verif.Dag.C16_ordered_queries"
   ],
   "note": "All interleavings of the walker and its consumer."
  },
  {
   "property": "C17",
   "status": "proved",
   "theorems": [
    "Verif.Dag.C17_stop_and_termination"
   ],
   "note": ""
  },
  {
   "property": "C18",
   "status": "partial",
   "theorems": [
    "Verif.Dag.C18_stop_safe_partial",
    "Verif.Dag.C18_stop_safe_false"
   ],
   "note": "False as stated: a stop sent after the walker has finished panics (witness execution). Proved: safe while the walker has not closed its channels."
  },
  {
   "property": "C19",
   "status": "proved",
   "theorems": [
    "Verif.Dag.C19_edge_history",
    "Verif.Dag.C19_inverse"
   ],
   "note": ""
  },
  {
   "property": "C20",
   "status": "proved",
   "theorems": [
    "Verif.Dag.C20_set_algebra",
    "Verif.Dag.C20_intersection_comm"
   ],
   "note": "All programs over set variables in a heap of maps."
  },
  {
   "property": "C21",
   "status": "proved",
   "theorems": [
    "Verif.Dag.C21_string"
   ],
   "note": "The fmt verb for a key is an arbitrary function."
  },
  {
   "property": "C22",
   "status": "proved",
   "theorems": [
    "Verif.Dag.C22_errors",
    "Verif.Dag.C22_walkers"
   ],
   "note": ""
  },
  {
   "property": "C23",
   "status": "proved",
   "theorems": [
    "Verif.Etx.C23_clone_equal",
    "Verif.Etx.C23_clone_ast"
   ],
   "note": "Every node, pointer, slice and document."
  },
  {
   "property": "C24",
   "status": "partial",
   "theorems": [
    "Verif.Etx.C24_heredoc_shared",
    "Verif.Etx.C24_funcDecl_shared",
    "Verif.Etx.C24_write_visible",
    "Verif.Etx.C24_sharing_exact_partial",
    "Verif.Etx.C24_no_sharing_partial",
    "Verif.Etx.C24_isolation_partial"
   ],
   "note": "False as stated: Value.Clone shares heredoc fragments and FuncDecl.Clone shares the type (witnesses). Proved: exactly these objects are shared, and writes to others are isolated."
  },
  {
   "property": "C25",
   "status": "partial",
   "theorems": [
    "Verif.Etx.C25_heredoc_parent",
    "Verif.Etx.C25_parents_exact_partial",
    "Verif.Etx.C25_no_parents_partial"
   ],
   "note": "False as stated (heredoc values keep their Parent). Proved: exactly which Parents survive."
  },
  {
   "property": "C26",
   "status": "partial",
   "theorems": [
    "Verif.Etx.C26_post_missing",
    "Verif.Etx.C26_parents_partial",
    "Verif.Etx.C26_no_post_partial",
    "Verif.Etx.C26_parsed_post_missing",
    "Verif.Etx.C26_parsed_partial"
   ],
   "note": "False as stated: ExprPostfix.Children omits Post, reachable by parsing `x = a[i].b`. Proved for everything outside a Post, for UpdateParentRefs on every tree and for every parsed text."
  },
  {
   "property": "C27",
   "status": "partial",
   "theorems": [
    "Verif.Etx.C27_post_missing",
    "Verif.Etx.C27_visits_partial",
    "Verif.Etx.C27_no_post_partial",
    "Verif.Etx.C27_walk_terminates"
   ],
   "note": "False as stated: ExprPostfix.Children omits Post. Proved for everything outside a Post."
  },
  {
   "property": "C28",
   "status": "partial",
   "theorems": [
    "Verif.Etx.C28_map_panics",
    "Verif.Etx.C28_enum_panics",
    "Verif.Etx.C28_object_panics",
    "Verif.Etx.C28_no_panic_partial",
    "Verif.Etx.C28_exact"
   ],
   "note": "False as stated: comments or blank lines in maps, enums and objects make FormattedString panic (witness texts). Proved: no panic on any parsed text without such items, and exactly which parsed texts panic (C28_exact)."
  },
  {
   "property": "C29",
   "status": "partial",
   "theorems": [
    "Verif.Etx.C29_attribute_fails",
    "Verif.Etx.C29_map_fails",
    "Verif.Etx.C29_heredoc_fails",
    "Verif.Etx.C29_escape_fails",
    "Verif.Etx.C29_round_trip_partial"
   ],
   "note": "False in full: attributes with values, map items and heredocs are formatted as text that does not parse, and an escaped character becomes two. Proved: every document that can be written as tokens (canon) and is neat (Node.tidy: no parentheses, attribute values, map items, heredocs, escapes, several items in a block, or texts the lexer would split) is formatted to a text that parses to the same document up to positions, addresses and blank lines."
  },
  {
   "property": "C30",
   "status": "partial",
   "theorems": [
    "Verif.Etx.C30_parentheses_fails",
    "Verif.Etx.C30_grouping_partial"
   ],
   "note": "False in full: (a + b) * c is formatted as a + b * c. Proved: the formatted text of every writable neat expression (in particular without parentheses) is read as the same expression tree, for all nestings of operators."
  },
  {
   "property": "C31",
   "status": "proved",
   "theorems": [
    "Verif.Etx.C31_format_clone",
    "Verif.Etx.C31_format_clone_ast",
    "Verif.Etx.C31_format_any"
   ],
   "note": "The text of a big.Float is an arbitrary function."
  },
  {
   "property": "C32",
   "status": "proved",
   "theorems": [
    "Verif.Etx.C32_exact",
    "Verif.Etx.C32_lines",
    "Verif.Etx.C32_count",
    "Verif.Etx.C32_reversible",
    "Verif.Etx.C32_injective",
    "Verif.Etx.C32_append",
    "Verif.Etx.C32_text",
    "Verif.Etx.C32_newline_prefix"
   ],
   "note": "Line count and reversibility are for prefixes without a newline; C32_newline_prefix shows that this is needed."
  },
  {
   "property": "C33",
   "status": "proved",
   "theorems": [
    "Verif.Etx.C33_octal",
    "Verif.Etx.C33_other",
    "Verif.Etx.C33_stable",
    "Verif.Etx.C33_octal_value",
    "Verif.Etx.C33_not_octal"
   ],
   "note": "The value is that of the digits to the 53 bits of precision big.ParseFloat is asked for."
  },
  {
   "property": "C34",
   "status": "partial",
   "theorems": [
    "Verif.Etx.C34_rounds",
    "Verif.Etx.C34_value_partial",
    "Verif.Etx.C34_even_partial"
   ],
   "note": "False as stated: 2^53+1 is rounded (C34_rounds, witness). Proved: an integer literal in any base has exactly its value iff that has at most 53 significant bits; otherwise it is the nearest number of 53 bits, ties to even."
  },
  {
   "property": "C35",
   "status": "proved",
   "theorems": [
    "Verif.Etx.C35_number_format"
   ],
   "note": ""
  },
  {
   "property": "C36",
   "status": "proved",
   "theorems": [
    "Verif.Etx.C36_capture",
    "Verif.Etx.C36_format"
   ],
   "note": ""
  },
  {
   "property": "C37",
   "status": "partial",
   "theorems": [
    "Verif.Etx.C37_left_fails",
    "Verif.Etx.C37_never_left",
    "Verif.Etx.C37_distinct_partial",
    "Verif.Etx.C37_associative_partial"
   ],
   "note": "False: operators of one row are always grouped from the right (C37_never_left, for every parsed document and every chain of two or more; witness a - b - c). True without two operators of one row, and in effect for associative operators."
  },
  {
   "property": "C38",
   "status": "proved",
   "theorems": [
    "Verif.Etx.C38_precedence",
    "Verif.Etx.C38_tokens",
    "Verif.Etx.C38_accepts"
   ],
   "note": "Precedence table of README.md (precedence); operands are unary expressions, brackets are inside operands. Acceptance for any number of operands and any writable operands, with the unique grouping."
  },
  {
   "property": "C39",
   "status": "proved",
   "theorems": [
    "Verif.Etx.C39_lossless"
   ],
   "note": ""
  },
  {
   "property": "C40",
   "status": "proved",
   "theorems": [
    "Verif.Etx.C40_terminates",
    "Verif.Etx.C40_no_bound"
   ],
   "note": ""
  },
  {
   "property": "C41",
   "status": "proved",
   "theorems": [
    "Verif.Etx.C41_blanks"
   ],
   "note": ""
  },
  {
   "property": "C42",
   "status": "partial",
   "theorems": [
    "Verif.Etx.C42_keyword_prefix",
    "Verif.Etx.C42_ident_partial",
    "Verif.Etx.C42_keywords",
    "Verif.Etx.C42_keyword_first",
    "Verif.Etx.C42_exact"
   ],
   "note": "False as stated: if-x gives the keyword if (witness). Proved for names whose part before the first hyphen is no keyword, and that all others are split. C42_exact says for every text exactly when the next token is a name and which one, with the classes of characters given by code points."
  },
  {
   "property": "C43",
   "status": "partial",
   "theorems": [
    "Verif.Etx.C43_shift_heredoc",
    "Verif.Etx.C43_longest_partial",
    "Verif.Etx.C43_two_partial"
   ],
   "note": "False as stated: << followed by a word and a newline opens a heredoc (witness). Proved: every other operator of two characters whatever follows, and the longest operator is taken unless a comment, heredoc or number begins there."
  },
  {
   "property": "C44",
   "status": "partial",
   "theorems": [
    "Verif.Etx.C44_lone_percent",
    "Verif.Etx.C44_string_partial"
   ],
   "note": "False as stated: a lone % or $ is a lexing error (witness). Proved for all other texts, also with the other quote, escapes and $${."
  },
  {
   "property": "C45",
   "status": "partial",
   "theorems": [
    "Verif.Etx.C45_prefix_ends",
    "Verif.Etx.C45_heredoc_partial"
   ],
   "note": "False as stated: a line that only begins with the delimiter ends the heredoc (witness). Proved: it ends at the first line that begins with the delimiter, for bodies without $ and %. Bodies with $ and % are C76."
  },
  {
   "property": "C46",
   "status": "proved",
   "theorems": [
    "Verif.Etx.C46_single",
    "Verif.Etx.C46_multi",
    "Verif.Etx.C46_unterminated",
    "Verif.Etx.C46_format_single",
    "Verif.Etx.C46_format_multi"
   ],
   "note": "The formatted text is the token text followed by a line feed."
  },
  {
   "property": "C47",
   "status": "proved",
   "theorems": [
    "Verif.Etx.C47_enum",
    "Verif.Etx.C47_object",
    "Verif.Etx.C47_aligned_enum",
    "Verif.Etx.C47_aligned_object"
   ],
   "note": "Columns in bytes; label texts without newlines."
  },
  {
   "property": "C48",
   "status": "partial",
   "theorems": [
    "Verif.Etx.C48_else_dropped",
    "Verif.Etx.C48_branches_partial"
   ],
   "note": "False as stated: the else branch of an if without then branch is dropped (witness). Proved otherwise."
  },
  {
   "property": "C49",
   "status": "partial",
   "theorems": [
    "Verif.Etx.C49_same_line",
    "Verif.Etx.C49_items_joined",
    "Verif.Etx.C49_separate_partial"
   ],
   "note": "False as stated: body items are concatenated without line breaks (witness). Proved: exactly what is printed, and blocks with at most one item."
  },
  {
   "property": "C50",
   "status": "proved",
   "theorems": [
    "Verif.Etx.C50_bytes",
    "Verif.Etx.C50_reader",
    "Verif.Etx.C50_text",
    "Verif.Etx.C50_named",
    "Verif.Etx.C50_named_format",
    "Verif.Etx.C50_failing"
   ],
   "note": "All data, all ways a reader splits it. A reader with a Name method changes only Position.Filename."
  },
  {
   "property": "C51",
   "status": "proved",
   "theorems": [
    "Verif.Etx.C51_no_panic",
    "Verif.Etx.C51_no_capture_panic",
    "Verif.Etx.C51_reader_no_panic"
   ],
   "note": "For valid UTF-8 texts; participle itself is modelled as not panicking (MaxIterations not modelled)."
  },
  {
   "property": "C52",
   "status": "proved",
   "theorems": [
    "Verif.Etx.C52_descent",
    "Verif.Etx.C52_depth",
    "Verif.Etx.C52_depth_chars"
   ],
   "note": "The equations of the recursive descent (each struct is read by its production, in which the structs are read likewise) have exactly one solution, which is the parser of the model; the depth is at most 32*(tokens+1) and hence 32*(characters+1). Depth is the number of nested structs, the memory used per struct is not modelled."
  },
  {
   "property": "C53",
   "status": "proved",
   "theorems": [
    "Verif.Etx.C53_read_back",
    "Verif.Etx.C53_unambiguous"
   ],
   "note": "Reference printer Node.toks (Etx/Yield.lean) is written independently of the parser and the formatter; writable trees (canon, chain) exclude texts that are not those of the token type, operators outside of their level and neighbours that merge (e.g. two blank lines in a row)."
  },
  {
   "property": "C54",
   "status": "proved",
   "theorems": [
    "Verif.Etx.C54_faithful",
    "Verif.Etx.C54_kind",
    "Verif.Etx.C54_letters",
    "Verif.Etx.C54_injective"
   ],
   "note": "Every accepted text. The tokens of the tree are those of the reference printer Node.toks; SameWords lists the three places where the tree does not say how something was written."
  },
  {
   "property": "C55",
   "status": "partial",
   "theorems": [
    "Verif.Etx.C55_position_partial",
    "Verif.Etx.C55_name_partial",
    "Verif.Etx.C55_order_partial",
    "Verif.Etx.C55_no_position"
   ],
   "note": "False in full: ValueBool and ValueNumber are filled by Capture functions and keep the zero position (C55_no_position, witness `x = true`). Proved for all other nodes: each is a part of the tokens and has the position of the first of these (Located says what this part may be), the position of a node that begins with a name is where this name is in the text, and the walk along Children has growing offsets. Structs without any token (an empty argument list or an empty enum) are not constrained."
  },
  {
   "property": "C56",
   "status": "partial",
   "theorems": [
    "Verif.Etx.C56_sound_partial",
    "Verif.Etx.C56_unique",
    "Verif.Etx.C56_far",
    "Verif.Etx.C56_short_partial",
    "Verif.Etx.C56_not_full",
    "Verif.Etx.parseTree_peg"
   ],
   "note": "False in full: a block named type with more than 50 tokens of comments, and a list item after another without a comma, are rejected though the grammar admits them (witnesses). Proved: an accepted text means what the grammar (as a parsing expression grammar, specified by the relation Peg) says, the grammar is deterministic, texts of at most 50 tokens are accepted iff the grammar admits them, and any other rejection of an admitted text comes from an error more than 50 tokens away."
  },
  {
   "property": "C57",
   "status": "proved",
   "theorems": [
    "Verif.Dag.C57_own_maps",
    "Verif.Dag.C57_calls",
    "Verif.Dag.C57_no_interference",
    "Verif.Dag.exec_sim"
   ],
   "note": "On the heap-level model Dag/Heap.lean, where maps are addresses. C57_own_maps: the run of any client ends and is that of the ideal client, whose maps are changed only by its own writes. C57_calls links the heap model to the value model of C01-C22."
  },
  {
   "property": "C58",
   "status": "partial",
   "theorems": [
    "Verif.Dag.C58_calls",
    "Verif.Dag.C58_exact",
    "Verif.Dag.C58_partial",
    "Verif.Dag.C58_terminates",
    "Verif.Dag.C58_full_false"
   ],
   "note": "False in full (C58_full_false): GetAncestors and GetDescendants write to the caches without a lock. C58_calls says for which goroutines the claim holds: exactly when no goroutine that has to compute the answer to one of these questions runs together with another that asks the same kind of question; otherwise a race is reachable. Which answers must be computed is given by the calls that built the graph (C59). C58_exact is the same over the memory; C58_partial is the special case of at most one goroutine using those two calls. Queries are programs of single map accesses; map orders depend on positions only (Oracle.Natural). C58_terminates: no interleaving is infinite."
  },
  {
   "property": "C59",
   "status": "proved",
   "theorems": [
    "Verif.Dag.C59_remembered",
    "Verif.Dag.C59_writes",
    "Verif.Dag.C59_prefetch",
    "Verif.Dag.C59_prefetched_together"
   ],
   "note": "Spec.remembered says from the calls and the abstract graph whose answers are kept. The last part uses C58_calls, the exact condition of C58 in these terms."
  },
  {
   "property": "C60",
   "status": "partial",
   "theorems": [
    "Verif.Dag.C60_partial",
    "Verif.Dag.C60_exact",
    "Verif.Dag.C60_terminates",
    "Verif.Dag.C60_full_false"
   ],
   "note": "False as stated: GetAncestors and GetDescendants write to the caches, so two of them under RLock race (C60_full_false, witness). C60_partial: it holds if these two (with a non-zero id) also take Lock; C60_exact: that is necessary as well. C60_terminates: no interleaving is infinite; with goesOn and begins of C60_partial, all calls are made."
  },
  {
   "property": "C61",
   "status": "partial",
   "theorems": [
    "Verif.Etx.C61_nearest_partial",
    "Verif.Etx.C61_close",
    "Verif.Etx.C61_full_false",
    "Verif.Etx.C61_infinite",
    "Verif.Etx.Rounded.unique"
   ],
   "note": "False as stated: 25462949704181084559221482041362009e55 is rounded to the wrong side (C61_full_false), 1e1000000000 is captured as infinity and 1e-1000000000 as 0, without an error (C61_infinite). Proved: exactly the claim for all literals of at most 2^27 characters whose last digit is at most 50 places from the point (C61_nearest_partial; Rounded.unique: this determines the value), and for all up to 2^28 places a relative error of at most 2^-53 + 2^-80 (C61_close). math/big is transcribed from Go 1.18."
  },
  {
   "property": "C62",
   "status": "partial",
   "theorems": [
    "Verif.Etx.C62_full_false",
    "Verif.Etx.C62_once_partial",
    "Verif.Etx.C62_again_partial"
   ],
   "note": "False in full: two declarations already gain lines each time (C62_full_false). For writable, neat documents (those of C29): C62_once_partial says exactly which are stable (at most one item, no comments or blank lines at top level or between statements); C62_again_partial: all others grow by at least one line in every round without bound, while nothing but blank lines changes. Missing: what Node.tidy excludes."
  },
  {
   "property": "C63",
   "status": "proved",
   "theorems": [
    "Verif.Dag.C63_no_memory",
    "Verif.Dag.C63_any_order"
   ],
   "note": "Orders of the lists returned by ordered traversals are compared up to reordering, as in C05."
  },
  {
   "property": "C64",
   "status": "proved",
   "theorems": [
    "Verif.Dag.C64_call",
    "Verif.Dag.C64_queries",
    "Verif.Dag.C64_query"
   ],
   "note": "The state of the model counts the range statements executed. Amortised argument: a vertex pays 1 + its number of edges when its answer is computed, and not again while it is remembered. Counted are loops, not their iterations (each loop goes over the vertices, the rows of edges, the edges of one vertex or one set of vertices)."
  },
  {
   "property": "C65",
   "status": "partial",
   "theorems": [
    "Verif.Etx.C65_small_partial",
    "Verif.Etx.C65_chars_partial",
    "Verif.Etx.C65_restricts",
    "Verif.Etx.C65_too_many",
    "Verif.Etx.C65_full_false",
    "Verif.Etx.C65_million"
   ],
   "note": "False in full: a document of a million items is refused (C65_full_false; C65_too_many for any limit). Proved: texts of less than 10^6 tokens, or characters, are parsed as without the limit (C65_small_partial, C65_chars_partial), so that everything proved about ParseString holds for them; and whatever the parser with the limit returns is what it would return without (C65_restricts). Missing: exactly which texts of a million tokens or more are refused. Giving up is one outcome: an error or a panic."
  },
  {
   "property": "C66",
   "status": "partial",
   "theorems": [
    "Verif.Etx.C66_text",
    "Verif.Etx.C66_read_back_partial",
    "Verif.Etx.C66_read_back_exact",
    "Verif.Etx.C66_read_back_full_false",
    "Verif.Etx.C66_too_deep"
   ],
   "note": "Proved in full: the text identifies the document (C66_text), with all escapes and tags. Reading back is false in full: x = 0.1 comes back with another number (53 bits are written in decimal and read with 64 bits; C66_read_back_full_false), and documents nested beyond the limit of encoding/json are written but not read (C66_too_deep). Proved: up to that depth, and for numbers with an exponent up to 2^23, everything else comes back, the numbers as what their text denotes at 64 bits (C66_read_back_partial); documents without numbers come back exactly (C66_read_back_exact). The JSON scanner is modelled on values, not characters; that their text determines the values is part of C66_text."
  },
  {
   "property": "C67",
   "status": "partial",
   "theorems": [
    "Verif.Etx.C67_linear_partial",
    "Verif.Etx.C67_exponential",
    "Verif.Etx.C67_full_false"
   ],
   "note": "False in full: for `x=a.(a.(a.(\u2026` with n steps (3n+2 tokens) ParseString makes at least 2^n comparisons, because both the primary and the postfix expression try `.` and what follows it (expr.go:754 and 804), and the error of either attempt is forgotten: C67_exponential, C67_full_false. Proved instead: at most 66 comparisons for each token and each token gone back over, plus 11. Missing: a bound on the tokens gone back over for the texts that are accepted."
  },
  {
   "property": "C68",
   "status": "partial",
   "theorems": [
    "Verif.Etx.C68_join_partial",
    "Verif.Etx.C68_documents_partial",
    "Verif.Etx.C68_reject_partial",
    "Verif.Etx.C68_concat_partial",
    "Verif.Etx.C68_seam_partial",
    "Verif.Etx.C68_line_partial",
    "Verif.Etx.C68_files_partial",
    "Verif.Etx.C68_full_false"
   ],
   "note": "False in full: `# a\\n` followed by `# b\\n` is one item, as adjacent comment lines are one Comment (C68_full_false). Proved: for every accepted text that ends with a line end, followed by any text whose first token is an identifier or a comment /* */ (C68_join_partial; both acceptance and rejection of the second text carry over, C68_reject_partial), in particular for any number of documents that begin with a letter or /* (C68_documents_partial, C68_concat_partial). C68_seam_partial: the second text may also begin with a comment # or //, if the first one does not end with such a comment; C68_line_partial: in terms of the characters of the last line of the first and the first line of the second document; C68_files_partial: the same for any number of documents one after the other. Missing: second documents that begin with a blank line, where blank lines at the seam are merged to one item or become a part of an if (C71 says that they do not change the rest)."
  },
  {
   "property": "C69",
   "status": "proved",
   "theorems": [
    "Verif.Dag.C69_addEdge",
    "Verif.Dag.C69_deleteEdge",
    "Verif.Dag.C69_deleteVertex",
    "Verif.Dag.C69_addVertex"
   ],
   "note": "Stated with the results of GetDescendants and GetAncestors after the call and the edges before it, for any iteration order."
  },
  {
   "property": "C70",
   "status": "proved",
   "theorems": [
    "Verif.Dag.C70_orders",
    "Verif.Dag.C70_ends"
   ],
   "note": "The client is modelled as a relation (Rounds) over calls of the API. C70_orders: the complete runs are exactly the topological orders; C70_ends: any run so far can be completed, in total with one round per vertex."
  },
  {
   "property": "C71",
   "status": "partial",
   "theorems": [
    "Verif.Etx.C71_crlf",
    "Verif.Etx.C71_crlf_partial",
    "Verif.Etx.C71_crlf_not_full",
    "Verif.Etx.C71_crlf_limit",
    "Verif.Etx.C71_blank",
    "Verif.Etx.C71_blank_partial",
    "Verif.Etx.C71_blank_not_full"
   ],
   "note": "C71_crlf, C71_blank: the grammar (parsing expression grammar, total and deterministic) gives the same documents for both texts, in both directions, up to Node.still. The _partial theorems say the same of parseString, up to rejections of texts with more than 50 tokens. C71_crlf_not_full (heredoc), C71_crlf_limit (40 tokens, no heredoc, comment or string) and C71_blank_not_full (comment of two lines) are the counterexamples to the full claims. Missing: heredocs, line ends in quotes (they are part of the string), blank lines right after a line comment."
  },
  {
   "property": "C72",
   "status": "partial",
   "theorems": [
    "Verif.Etx.C72_consistent",
    "Verif.Etx.C72_template",
    "Verif.Etx.C72_shape",
    "Verif.Etx.C72_text_partial",
    "Verif.Etx.C72_line_partial",
    "Verif.Etx.C72_text_not_full",
    "Verif.Etx.C72_text_heredoc"
   ],
   "note": "C72_consistent: one renaming everywhere (need not be injective); C72_template: one document with place holders for all namings, each occurrence for itself; C72_shape: acceptance and structure. These three are in full, for texts whose tokens agree up to names. C72_text_partial gives this for texts: a name at the beginning or after any character that is no word character, where the lexer is about to read the name, unless << or <<- is before it and a line end after it. C72_line_partial says it in terms of the tokens before the name, at the beginning of a line. C72_text_not_full (right after a number) and C72_text_heredoc (after <<) show that the two exceptions are needed. Missing: a name right after a word character, that is after a number or the end of a heredoc, for new names that do not continue the number."
  },
  {
   "property": "C73",
   "status": "partial",
   "theorems": [
    "Verif.Etx.C73_template_partial",
    "Verif.Etx.C73_value",
    "Verif.Etx.C73_braces",
    "Verif.Etx.NoBrace.of_text"
   ],
   "note": "The full statement C73_full is false for expressions with closing braces among their tokens (C73_braces: k = \"${{a = 1}}\"). C73_template_partial: all other expressions, all kinds of pieces, both quotes. ReadsExpr e x says that the model of the parser for the struct Expr reads all tokens of e; C73_value shows that it is then also the value of an attribute."
  },
  {
   "property": "C74",
   "status": "partial",
   "theorems": [
    "Verif.Etx.C74_short_partial",
    "Verif.Etx.C74_long",
    "Verif.Etx.C74_swallow",
    "Verif.Etx.C74_counterexample",
    "Verif.Etx.C74_few",
    "Verif.Etx.C74_token"
   ],
   "note": "The full statement C74_full is false (C74_counterexample); C74_swallow says what is read instead whenever four more digits follow, C74_short_partial is the statement for all other texts. C74_token says for every text exactly which digits after \\u are taken, with the digits given by code points."
  },
  {
   "property": "C75",
   "status": "proved",
   "theorems": [
    "Verif.Etx.C75_composed",
    "Verif.Etx.C75_value",
    "Verif.Etx.C75_string"
   ],
   "note": "by induction over the way the expression is made (Composed): every text that is an expression can be a part (Composed.of). The operators of each level are those of the documented table (levelOps). Operands without parentheses are C84."
  },
  {
   "property": "C76",
   "status": "partial",
   "theorems": [
    "Verif.Etx.C76_heredoc_partial",
    "Verif.Etx.C76_reads",
    "Verif.Etx.C76_ends",
    "Verif.Etx.C76_midline"
   ],
   "note": "The full statement C76_full is false: `<<A\\n${x}A)\\nA` ends after the expression (C76_midline). C76_heredoc_partial: if no text begins with the delimiter, not even in the middle of a line; C76_ends: otherwise it ends at the first such place, whatever follows; C76_reads: as a part of other expressions (C75). Expressions with closing braces are excluded as in C73."
  },
  {
   "property": "C77",
   "status": "partial",
   "theorems": [
    "Verif.Etx.C77_doc_partial",
    "Verif.Etx.C77_last_partial",
    "Verif.Etx.C77_paren",
    "Verif.Etx.C77_heredoc"
   ],
   "note": "C77_doc_partial: induction over the document; the tokens of each line whatever follows, the parser's item for each line if what follows is no blank line or comment that would be joined; a line may end with a comment, an item with the closing brace, and items may share a line after braces. C77_last_partial: the last line may have no line end, then with any expression. C77_paren: any expression in parentheses qualifies. C77_heredoc refutes C77_full (any expression). An if without else reads the line ends after it (Ended.only, Opens). Missing: if and switch outside of brackets as parts of larger expressions, comments on the same line without a blank in front of them and several attributes or declarations in one line."
  },
  {
   "property": "C78",
   "status": "partial",
   "theorems": [
    "Verif.Etx.C78_places_partial",
    "Verif.Etx.C78_return_partial",
    "Verif.Etx.C78_function"
   ],
   "note": "C78_places_partial: all types in the five places (induction over the type: the tokens in front of any character that can follow, the parser's node in front of anything but a dot). C78_return_partial: names without parentheses after the parameters. C78_function refutes C78_full: a function type is not read there."
  },
  {
   "property": "C79",
   "status": "partial",
   "theorems": [
    "Verif.Etx.C79_names_partial",
    "Verif.Etx.C79_keyword",
    "Verif.Etx.C79_decl_block",
    "Verif.Etx.C79_full_false"
   ],
   "note": "C79_names_partial: every WordText (identifier whose first word is no keyword) in fifteen kinds of places. C79_keyword: whatever document of lines comes before and whatever text after, a line that begins with a keyword makes the document rejected (else: in the first line; after an if without else it can be on the next line, see the example). C79_decl_block: `input x {` and the like are rejected, which refutes C79_full. C77_doc_partial has words of the language as names in all documents of lines, and says which blocks are excluded (StartsBlock). In expressions all words except null, true and false are names too (Names in C84_reads)."
  },
  {
   "property": "C80",
   "status": "proved",
   "theorems": [
    "Verif.Dag.C80_rename"
   ],
   "note": "A simulation (Ren) between specification states, preserved by every call; results compared through the refinement theorem."
  },
  {
   "property": "C81",
   "status": "proved",
   "theorems": [
    "Verif.Dag.C81_mirror"
   ],
   "note": "The specification state with turned edges (Abs.mirror) commutes with every call."
  },
  {
   "property": "C82",
   "status": "proved",
   "theorems": [
    "Verif.Dag.C82_apart"
   ],
   "note": "A relation (PartOf) between the specification states of the full and the restricted history, preserved by calls about the part and by calls about the rest."
  },
  {
   "property": "C83",
   "status": "partial",
   "theorems": [
    "Verif.Etx.C83_list_partial",
    "Verif.Etx.C83_map_partial",
    "Verif.Etx.C83_heredoc"
   ],
   "note": "C83_list_partial, C83_map_partial: induction over the elements; the result is an expression (ReadsExpr) that can be followed by a line end (OneLine), so C75 and C77 apply to it. C83_heredoc refutes C83_full (any expression in front of a line end). Missing: an if without else in front of a line end without a comma, a comma after a blank or on the next line, keys with dots, escapes or interpolation."
  },
  {
   "property": "C84",
   "status": "proved",
   "theorems": [
    "Verif.Etx.C84_reads",
    "Verif.Etx.C84_line",
    "Verif.Etx.C84_unique",
    "Verif.Etx.C84_right",
    "Verif.Etx.C84_decimal"
   ],
   "note": "C84_reads: by induction over the way the expression is written (Term, with the operators of each level taken from the documented table, levelOps); for each piece its tokens in front of any blank, operator, closing bracket or `[` and what the parser makes of them in front of any token that does not continue them. C84_line: with C77_doc_partial, in documents. C84_unique: the readings are unambiguous. C84_right: the grouping of equal levels (which is not the documented one, see C37). Operators need no blanks around them, except that `-` needs one before it (a-b is a name) and `<<` one after it (<<b can open a heredoc). C84_decimal: the same for numbers with fractions or exponents, with the value of C61 (in Term they occur for every number the library can read). Strings have the parts of C73 (expressions in them without closing braces), maps the form of C75. Not in Term, so not claimed: heredocs, and maps with other blanks or string keys, as operands without parentheses."
  },
  {
   "property": "C85",
   "status": "proved",
   "theorems": [
    "Verif.Etx.C85_contents",
    "Verif.Etx.C85_comment",
    "Verif.Etx.C85_line",
    "Verif.Etx.C85_close"
   ],
   "note": "C85_contents: a simulation between the two runs of the parser (run_like, build_like, parseTokens_like in Etx/Contents.lean), exact also with the lookahead limit, since the tokens correspond one by one; c = false for comments only, c = true also for quotes and heredocs. Words of the grammar in quotes are not taken for words of the document: the runs keep to the nesting of quotes and heredocs (Nest.lean), and the productions for their insides look for no words. C85_comment, C85_line: the lexer up to the comment does not depend on its text (LexRun.same of C41, lexAll_join), the comment is one token, what follows is lexed the same. C85_close: why `*/` is excluded. The texts of comments are compared only for being there. Not claimed: other numbers of lines in heredocs."
  },
  {
   "property": "C86",
   "status": "partial",
   "theorems": [
    "Verif.Etx.C86_only_parents",
    "Verif.Etx.C86_again",
    "Verif.Etx.C86_parsed",
    "Verif.Etx.C86_forgets_partial",
    "Verif.Etx.C86_forgets_false",
    "Verif.Etx.C86_inside_partial",
    "Verif.Etx.C86_clone_partial",
    "Verif.Etx.C86_clone_copied_partial",
    "Verif.Etx.C86_clone_inside_partial",
    "Verif.Etx.C86_clone_false",
    "Verif.Etx.C86_parsed_clone_changed"
   ],
   "note": "The first two parts hold for every tree (C86_only_parents, C86_again) and for every parsed text and entry point (C86_parsed). The third is false inside of a Post, which is never visited (C86_forgets_false), and holds for documents without one (C86_forgets_partial); all Parents are then inside the tree (C86_inside_partial). The fourth is false: a clone shares the fragments of heredocs with the original, and these then get the clone's heredoc as their Parent (C86_clone_false; for a parsed text C86_parsed_clone_changed). C86_clone_partial: nothing but the shared objects is assigned to; C86_clone_copied_partial: for documents without heredocs and typed local declarations the original stays the same; C86_clone_inside_partial: afterwards no Parent of the clone refers to the original, except to shared objects."
  },
  {
   "property": "C87",
   "status": "proved",
   "theorems": [
    "Verif.Dag.C87_normal_form",
    "Verif.Dag.C87_any_time",
    "Verif.Dag.C87_delete"
   ],
   "note": "SameReach, Op.byReach, answers and Alike are the specification. Lists of ordered traversals are compared up to reordering, as in C05. C87_delete shows why deletions are excluded. With C63_no_memory, equal graphs (SameGraph) behave the same in all later calls."
  },
  {
   "property": "C88",
   "status": "proved",
   "theorems": [
    "Verif.Dag.C88_restore",
    "Verif.Dag.C88_copy",
    "Verif.Dag.C88_undo"
   ],
   "note": "SameGraph as in C63: with C63_no_memory, all later calls return the same. C88_copy is stated with the results of GetVertices and GetChildren, C88_undo with those of GetParents and GetChildren before DeleteVertex."
  },
  {
   "property": "C89",
   "status": "proved",
   "theorems": [
    "Verif.Dag.C89_same",
    "Verif.Dag.C89_results",
    "Verif.Dag.C89_vertex"
   ],
   "note": "SameGraph as in C63: with C63_no_memory, all later calls return the same. Present, EdgesFirst and doneOrGone are stated with the API."
  },
  {
   "property": "C90",
   "status": "proved",
   "theorems": [
    "Verif.Etx.C90_format",
    "Verif.Etx.C90_clone",
    "Verif.Etx.C90_update"
   ],
   "note": "C90_format: with C66_read_back_partial; the value of a number matters for formatting only if its source is empty, which Capture excludes. Printing of numbers without a source is a parameter (FloatText)."
  },
  {
   "property": "C91",
   "status": "proved",
   "theorems": [
    "Verif.Dag.C91_grows",
    "Verif.Dag.C91_shrinks",
    "Verif.Dag.C91_refused",
    "Verif.Dag.C91_opposite"
   ],
   "note": "Within and isDelete are the specification. The example shows that after a deletion a refused edge can be accepted."
  },
  {
   "property": "C92",
   "status": "proved",
   "theorems": [
    "Verif.Dag.C92_retry",
    "Verif.Dag.C92_result",
    "Verif.Dag.C92_replay"
   ],
   "note": "All calls, all reached states, all iteration orders. Results of repeated queries are C04; C92_result is about the calls that change the graph."
  },
  {
   "property": "C93",
   "status": "proved",
   "theorems": [
    "Verif.Dag.C93_size",
    "Verif.Dag.C93_ends",
    "Verif.Dag.C93_relatives",
    "Verif.Dag.C93_reduce"
   ],
   "note": "The example shows that the bounds are reached."
  },
  {
   "property": "C94",
   "status": "proved",
   "theorems": [
    "Verif.Dag.C94_descendants",
    "Verif.Dag.C94_ancestors",
    "Verif.Dag.C94_children",
    "Verif.Dag.C94_parents",
    "Verif.Dag.C94_connected",
    "Verif.Dag.C94_walker"
   ],
   "note": "Stated with the number of edges of a path (PathLen), without a distance; C15 compares distances of entries."
  },
  {
   "property": "C95",
   "status": "proved",
   "theorems": [
    "Verif.Dag.C95_replace",
    "Verif.Dag.C95_reach"
   ],
   "note": "Also the way to change a payload or an id, for which the API has no call."
  },
  {
   "property": "C96",
   "status": "proved",
   "theorems": [
    "Verif.Dag.C96_splice"
   ],
   "note": ""
  },
  {
   "property": "C97",
   "status": "proved",
   "theorems": [
    "Verif.Dag.C97_exact",
    "Verif.Dag.C97_order",
    "Verif.Dag.C97_cycle"
   ],
   "note": ""
  },
  {
   "property": "C98",
   "status": "proved",
   "theorems": [
    "Verif.Dag.C98_ancestors",
    "Verif.Dag.C98_descendants",
    "Verif.Dag.C98_sort"
   ],
   "note": ""
  },
  {
   "property": "C99",
   "status": "proved",
   "theorems": [
    "Verif.Dag.C99_below"
   ],
   "note": "With no connecting edges this is the disjoint union."
  }
 ]
}
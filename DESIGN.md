# Formal model of hexbee-net/etxe in Lean 4 — design

Source: `/repo` (Go). Two packages hold all the logic: `pkg/dag` (a generic
acyclic graph with caches and goroutine walkers) and `pkg/etx` (lexer rules, a
participle grammar written in struct tags, the AST with `Clone` / `Children` /
`FormattedString`, and literal capture). `cmd/cli/main.go` only prints a line
and is not modelled.

## Layout

* `lean/Verif/Dag/*`   — model and proofs for `pkg/dag`
* `lean/Verif/Etx/*`   — model and proofs for `pkg/etx`
* `lean/Verif/Props/*` — the property theorems (statements a reader should
  check), one file per area, separate from models and helper lemmas
* `MANIFEST.json` maps each property of `properties.jsonl` to theorem names.
* `seeded/LOG.jsonl` records the wrong-program experiments.

## How the code is modelled

### pkg/dag
* A Go `map[K]V` is an association list with unique keys (`GoMap`). Reading a
  missing key gives the zero value. Every `range` over a map goes through an
  *order oracle* `ω : Nat → List α → List α`, applied to the list of entries and
  indexed by a counter that is bumped at every `range`; the only assumption is
  that its result is a permutation. Quantifying over `ω` quantifies over every
  iteration order the runtime may pick, independently at each loop.
* `AcyclicGraph` is a record of the same five maps (vertices, inbound, outbound,
  and the two caches); methods are state-passing functions with one Lean
  definition per Go method. Recursion in `getAncestorsIDs` /
  `getDescendantsIDs` takes fuel; running out of fuel is an explicit `none`
  (“diverges”), and it is proved never to happen.
* Properties are proved from one invariant (converse edge maps, edges between
  known vertices, acyclicity, caches exact and downward closed) preserved by
  every operation, plus a refinement to an abstract graph
  (`K → Option T` and an edge relation) that does not mention caches.
* That record holds inner maps by value. `Dag/Heap.lean` is a second model in
  which maps are addresses, so that a map kept in two places would be visible;
  every method is proved to simulate the first model (`Dag/HeapSim.lean`,
  `Dag/HeapOps.lean`), so all properties of the graph hold of it too.
* `Dag/Conc.lean` has the queries as programs of single memory accesses, which
  several goroutines execute in any interleaving. An access to a Go map is one
  step; `range` reads all entries of a map when it starts.
* The walkers are a small-step machine (walker goroutine × consumer × unbuffered
  channel × 1-buffered signal channel) and properties quantify over all traces.

### pkg/etx
* AST structs become one Lean inductive type `Node` with one constructor per Go
  struct (the ten binary-expression structs, whose methods are textually the
  same, share a constructor tagged by level). A pointer is an `Option`; each
  struct value carries an address, so that sharing between a clone and its
  original is visible; a slice is nil or a backing-array address with elements.
* A string is a list of characters; a panic is `none`.
* `Clone` allocates fresh addresses from a counter; `Children`,
  `updateParentRefs` and `FormattedString` are transcribed method by method.
* Lexer: the rule table of `lexRules` is transcribed as regular-expression
  syntax trees, run by a backtracking leftmost-first matcher and the stateful
  driver (push/pop, back-references) of participle.
* Parser: participle's node semantics (sequence, ordered choice, optional,
  repetition, capture, bounded lookahead 50) as combinators, the grammar
  transcribed from the struct tags.

## Properties: plan

| id | plan |
|----|------|
| C01 | invariant (acyclic) over all histories |
| C02 | refinement of AddEdge to abstract graph, error table |
| C03 | invariant: caches exact; refinement of the two queries |
| C04 | histories differing in queries have equal abstract state and outputs |
| C05 | outputs are a function of the abstract history, hence equal under two oracles |
| C06 | fuel = order+1 always suffices; more fuel never changes the result |
| C07 | refinement to a finite map |
| C08 | refinement of DeleteVertex |
| C09 | corollary of the invariant and C03 |
| C10 | exactness + existence by finiteness and acyclicity |
| C11 | list of edges, duplicate free, length = GetSize |
| C12 | loop invariant of ReduceTransitively |
| C13 | loop invariant; minimality against arbitrary edge relations |
| C14 | BFS loop invariant |
| C15 | BFS loop invariant on distances |
| C16 | invariant over all traces of the walker machine |
| C17 | trace invariant and a decreasing measure |
| C18 | false of the code: witnesses; partial theorem for the safe part |
| C19 | refinement; restoration theorems |
| C20 | set model with nil, all operations |
| C21 | output as header plus multiset of lines |
| C22 | error table for every query |
| C23 | structural induction over Node |
| C24 | false of the code (Value.Heredoc, FuncDecl.Type): witness; partial for trees without them |
| C25 | false for Value.Heredoc: witness; partial |
| C26 | false for ExprPostfix.Post: witness; partial |
| C27 | same |
| C28 | false (comments in enum/object/map): witness; partial; `C28_exact` says for every parsed text whether it can be formatted |
| C29 | false (attributes, maps, heredocs, escapes): witnesses; partial: for all neat documents the formatter writes the tokens of the reference printer, which C53 reads back |
| C30 | false (parentheses dropped): witness; partial for all neat expressions, as C29 |
| C31 | structural induction |
| C32 | list induction |
| C33 | regex and normalisation lemmas |
| C34 | false (53-bit rounding): witness; exact iff at most 53 significant bits, otherwise nearest, ties to even |
| C35 | unfolding of Capture and FormattedString; idempotence from C33 |
| C36 | list induction |
| C37 | false (right-nested for every chain): general theorem and witness; partial for chains without two operators of one row, and for associative operators |
| C38 | derivations of the grammar; uniqueness of the grouping by levels; acceptance from C53 |
| C39 | induction over lexer steps |
| C40 | induction over lexer steps |
| C41 | lexer theorem |
| C42 | false (`if-x`): witness; partial; exactly (`C42_exact`): a text that begins with a letter is split after the longest name, then determinism |
| C43 | lexer theorem; false for `<<word\n` |
| C44 | false (lone `%`/`$`): witness; partial |
| C45 | false (prefix of a line, mid-line after `${}`): witness; partial |
| C46 | lexer theorem |
| C47 | formatting theorem |
| C48 | false (empty then-branch): witness; partial |
| C49 | false (items on one line): witness; partial |
| C50 | the three functions differ only in the participle entry point |
| C51 | total functions; every panic of the code is an explicit `none`, shown unreachable from a parse |
| C52 | left-corner rank: every nested struct begins later or has a lower rank; uniqueness of the fixpoint |
| C53 | reference printer for all structs; induction over trees with follow conditions |
| C54 | lexer soundness gives a derivation in which literals match tokens of their own type; induction over derivations, one lemma for each struct: its words are those of the reference printer |
| C55 | derivations carry the position of the first token of each struct; induction over derivations with the tokens around it; a syntactic check of which productions can begin with a line feed; fields are captured in the order of the grammar, so the stored structs are a sublist of the captured ones. False for booleans and numbers (witness) |
| C56 | the grammar as a parsing expression grammar, a big-step relation with failures (`Peg`), deterministic; induction over the number of tokens, the rank of the struct and the production shows that every result of the parser that is not an error far away is that of `Peg`. The full claim is false (two witnesses) |
| C57 | second model of `dag.go` in which every inner map and every returned map is an address in a heap; each method simulates the one of the first model, edge and cache sets being unshared (`Ok`) and every returned address new; then a client that interleaves calls with writes to the maps it holds |
| C58 | the queries once more, as programs whose steps are single accesses to a map (`Dag/Conc.lean`); several programs on one heap in any interleaving. A rely-guarantee argument (`Dag/ConcSim.lean`): what a goroutine may access, what others may do meanwhile, a frame rule for calls; each query (`Dag/ConcOps.lean`) returns what the first model returns. False for two goroutines that use the caches (witness). `C58_exact` (`Props/ConcurrentExact.lean`) characterises the goroutines for which it holds: no goroutine that must compute an answer shares that cache with another; conversely such a pair always reaches a race (`Meets`: any single access of a call can be reached by scheduling its goroutine alone) |
| C59 | `Spec.remembered` (`Dag/Remember.lean`): a fold over the calls giving the vertices whose ancestors/descendants are kept; `exec_memo` proves it call by call from the same specifications as C01–C22 (`closure_spec`, `addEdge_spec`, `reduce_spec`, … now also state which cache keys there are). `C59_writes` compares the memory before and after a query. The goroutines: `C58_exact` rephrased with it |
| C60 | a graph guarded by a `sync.RWMutex` (`Dag/Guarded.lean`): a call under `Lock` is one step of the heap model, a query under `RLock` is run one access at a time. Invariant `Steady` over all interleavings, from the frame of C58; linearisation by the order in which calls end. False for `RLock` around every query (witness); `C60_exact`: exactly the policies that take `Lock` for `GetAncestors`/`GetDescendants` too are safe |
| C61 | the rest of `(*Float).Parse` (`Etx/Float.lean`): `scan`, `pow5`, `umul`, `uquo`, `round` on mantissa and exponent with a sticky bit. Specification of rounding over the rationals (`Rounded`, unique). Each operation rounds the exact result (for the quotient: enough bits and the remainder); `pow5` is exact as long as the power fits in 117 bits, and has a small relative error otherwise (loop invariants). False in full: witnesses for double rounding and for exponents out of range |
| C62 | the formatter as a function on texts (`reprint`) and its iteration. The items a formatted document is read as are known from C29 (`respaceDoc`), and are writable and neat again; the number of line ends is a measure: reading keeps it (`respace_ends`), formatting adds to it unless the document is solid. False in full (witness); exact condition, growth without bound otherwise |
| C63 | from the refinement theorem: the specification determines all results from vertices and edges. Additions: what a list of successful calls adds is characterised independently of its order (`Adds`); induction over the other order, a cycle on the way would be one in the final graph |
| C64 | `St.n` counts the `range` statements executed. Potential (`pot`, `Dag/Cost.lean`): the vertices whose answer is not remembered, each weighing 1 + its number of edges; `closure_cost` shows that the recursion pays for its loops out of it. The other calls by adding up; for `String` an invariant that only vertices have rows of edges |
| C65 | the parser once more with participle's limit on repetitions (`Etx/Limit.lean`); induction over the production with the number of tokens as a bound on iterations (every body of a repetition reads something, `run_progress`). False in full: documents of a million items are refused (`C65_full_false`) |
| C66 | the struct tags of all types as an encoder into JSON values, their text with the escapes of `encoding/json`, and a decoder driven by the same tags (`Etx/Json.lean`); `MarshalText` and `UnmarshalText` of `big.Float` (`Etx/FloatJson.lean`).  Text: induction over values, escapes can be undone character by character (`Etx/JsonText.lean`), and what was decoded determines the tree.  Reading back: induction over the tree (`back`), with what parsed trees have in common (`Etx/JsonParsed.lean`: slices that are not nil are not empty, values of numbers are those of their sources).  False in full: 0.1 changes, and nesting beyond 10000 is refused |
| C67 | the comparisons of tokens and the tokens gone back over, counted along the parser (`Etx/Steps.lean`).  Bound: induction over the production, with for each struct a number of comparisons it makes without reading and a number it makes on top of those charged to its tokens (tables `idle` and `extra`, checked against the grammar).  False in full: on `x=a.(a.(…` every step doubles the comparisons, by induction over the steps |
| C68 | lexer: a run over a text that ends in the bottom state is a prefix of the run over any longer text, as rules that look past the end of a line do so only inside a bracket or heredoc (`Etx/LexJoin.lean`). Parser: brackets of the accepted text are balanced and a struct of an item that is still open at the end of the text cannot take an identifier or comment after a line end (`Gram.go`, checked against the grammar; `Etx/Nest.lean`). False in full: adjacent comments; `_partial` for second texts that begin with an identifier or `/*`; with `#` or `//` as well, if the first text does not end with such a comment (`Etx/Seam.lean`: the same check with the distance from the end of the text) |
| C69 | refinement gives the edges after the call; paths in a graph with one edge more, and paths that avoid a vertex, by induction |
| C70 | a client of the API as an inductive relation over calls; soundness by induction over its rounds, completeness by induction over the order, progress from the existence of a root (C10) |
| C71 | relation `Spread` between token lists (line ends repeated); the lexer is simulated on the text with `\r\n` and on blank lines; the grammar as a parsing expression grammar gives the same on both lists up to blank lines (`Peg.spread`, by induction over derivations with three classes of productions), totality and determinism give the converse; counterexamples are computed |
| C72 | `Node.ren` renames the fields that names are captured into; the parser commutes with renaming the tokens (`parseTokens_ren`, by induction over fuel and grammar, from a check of the grammar: no literal is a name and no other field captures one); place holders longer than all texts give the template; the lexer on a renamed text by `LexRun.same_name`: matches that end before the name do not depend on it (`Re.run_ahead`), and which rules can read the character before the name together with its first letter (`Re.pair`) |
| C73 | the lexer on `e}` inside a string gives the tokens of `e` (`lexAll_inner`: a `}` after the text changes no match, `Re.run_end`, and the two states differ in the rule for `}` only); the parser does not look past the closing brace (`parseKind_inside`, by induction over fuel and grammar with the open brackets); tokens of an expression are nested and the last one is no comment (`Strict`, `endsComment`); pieces by induction; `C73_full` refuted by a map in a string |
| C74 | corollaries of C73 for one escape and a text, with the rule for eight digits before the one for four; the rejection from `LexRun` up to the escape; `C74_token` decides by the number of digits; `C74_full` refuted by `\u0041beef` |
| C75 | `Composed` lists the ways of making expressions; each is shown to preserve `ReadsExpr`: the tokens of a part are the same in front of `)`, `]`, `}` and `,` (`lexAll_outer`, from the same lemma on regular expressions as C73) and the parser does not look past them (`parseKind_inside`); the trees are built bottom-up with the `Takes` calculus (`Etx/Compose.lean`) |
| C76 | as C73, with the rules of the heredoc state; the fragments by induction over the parts with the text read so far (`hfrags`); `C76_full` refuted by a delimiter after `${x}` |
| C77 | independent grammar of documents (`Doc`, `Body`, `Stmts`, `Enums`, `Fields`, `Extra` for blank lines and comments, `Then`, `AfterBrace` and `Opens` for the ends of lines with or without a comment and for items on the same line, `AtClose` for the closing brace on the same line, `Ended` for what follows an expression, an `if` without `else` reading all line ends after it, `TypeText`) over expressions `ReadsExpr`; tokens of each line whatever follows (`Runs`), items whatever follows (`Items`), both by induction; an expression in front of a line end as in C73 with the line end as one more closing token (`parseKind_line`); the last line without a line end apart from it (`LastLine`, no tokens follow); `C77_full` refuted by `k = 1 <<A` |
| C78 | independent grammar of types (`TypeText`) and of the places they stand in (`TypePlace`); instances of C77 with the induction over types (`TypeText.reading`); `C78_full` refuted by `def a() (a) -> a {` |
| C79 | places of a name (`NamePlace`) in documents; instances of C77, whose names may be words of the language: the alternatives of an item that begin with the same word are left within the lookahead (`soft_decl`, `blockHead_decl`, `blockHead_func`, `blockHead_type`); for keywords no alternative of an item begins with the token (`bare_of_head`), after any document of lines; `C79_full` refuted by `input x {` |
| C80 | `Op.map`, `Res.map` rename calls and results; a relation `Ren` between specification states is preserved by every call (`Ren.next`) and carries admissible results over (`Ren.ok`); the refinement theorem does the rest |
| C81 | `Op.mirror`, `Res.Mirrors`; `next_mirror` (turning the edges round commutes with every call, including the reduction), `ok_mirror` |
| C82 | `Op.apart`, `answersAbout`, `Res.Part`; a relation `PartOf` between the states of the full history and of the restricted one: `PartOf.next` for calls about the part, `PartOf.skip` for calls about the rest |
| C83 | independent grammar of elements (`Elems`, `Pairs`, with `Elem` for what follows an element: line end, comment, closing bracket, comma); items and tokens by induction as in C77 with the kits `listKit` and `mapKit`; brackets are nested in the tokens (`nest`), so the list can be followed by a line end (`oneLine_brackets`); `C83_full` refuted by `[1 <<A` and a line end |
| C84 | independent description of how operands and operators are written (`Term`, with the documented operator table `levelOps` and the literals of C34 and C61); by induction each piece has its tokens in front of blanks, operators and closing brackets (`PieceOf.run`) and is read in front of every token that does not continue it (`PieceOf.ok`, `Etx/Terms.lean`); nothing stays open and no `if` or `switch` is outside of brackets (`Calm`), so a line end may follow |
| C85 | simulation: two lists of tokens that agree but for contents (`Token.Akin`) give results that agree but for contents (`Res.Akin`, `Node.hush`), by induction over productions (`run_like`), fields (`build_like`) and depth (`parseFuel_like`, all in `Etx/Contents.lean`); a static check of the grammar says that contents are captured into the fields for them only (`neat_of`); that no word is looked for inside of quotes and heredocs comes from the nesting of C68 (`Sound`, `Token.loose_word`). For texts: runs of the lexer up to a blank or a line end, from C41 and C71 (`C85_comment`, `C85_line`). |
| C86 | `UpdateParentRefs` as a list of assignments (`AST.writes`); the walk commutes with every change of meta data that keeps addresses (`walk_map`), so the assignments of the second call are those of the first. Old `Parent`s: every struct outside of a `Post` is assigned to (`stored_structs`). Clones: the visited addresses are those of the clone, which has only `sharedAddrs` (C24) in common with the original. False for a `Post` and for documents with heredocs (`C86_forgets_false`, `C86_clone_false`, `C86_parsed_clone_changed`). |
| C87 | `SameReach` (same vertices and descendants) is kept by all calls that add (`addEdge_reach`: what `AddEdge` does to reachability depends on reachability only) and by the reduction; the results of the calls in `Op.byReach` depend on it only (`ok_reach`); induction over both sequences of calls (`run_reach`). `reduced_minimal` of C13 for the normal form. |
| C88 | `Adds` and `done_of_adds` of C63 from any part of a graph to the whole graph (`rebuilds`); the lists of missing edges are computed from the results of the queries |
| C89 | What a list of deletions leaves, by membership in the list (`after_deletes`); the results by induction over the list (`deletes_results`, `deletes_done`) |
| C90 | `fmt_strip` (formatting does not look at the values of numbers with sources), `parseString_fits` of C66 (numbers have sources), `json_map`, `fmt_map` (neither looks at addresses and parents) |
| C91 | `Within` (vertices and reachability) is kept by each call that deletes nothing (`next_grows`) and, the other way round, by each that adds nothing (`next_shrinks`); `loop_iff`: `AddEdge` returns `ErrEdgeLoop` iff the target reaches the source |
| C92 | `next_next`: each call is idempotent on abstract graphs; `next_failed`: a call that returned an error changes nothing, by the invariant (`nonzero`, `edge_ends`); `ok_unique`: the graph determines the result of a changing call; `journal` mentions only calls and results, and `journal_spec` is by induction on the history |
| C93 | from what the calls return by `Spec.ok` and acyclicity: the edges and the reversed edges are different pairs of different vertices (`pairs_le`); every vertex is a root or the target of an edge; ancestors and descendants are disjoint; `reduce_reach` for roots and leaves |
| C94 | from C15's breadth-first order: being near is inherited by earlier entries, so the near ones are a prefix (`split_of_pairwise`); the last but one vertex of a shortest path has a smaller distance and so comes before |
| C95 | the graph with both vertices maps to the old one along its edges (`oldId`), so it is acyclic and, by C63's `done_of_adds`, no call is refused; then `DeleteVertex` on abstract graphs |
| C96 | `run_shortcuts`: an edge along an existing path is added or there already, by induction on the calls; `around`: every path through k has a way around it over the new edges, by induction on the path |
| C97 | `run_edges`, by induction on the list: each accepted edge stays, and no edge is refused while the union has no cycle; conversely the graph reached is acyclic (C01) and contains the union if all are accepted |
| C98 | the ancestors of x and x itself are different ancestors of y (acyclicity and C03's exact answers); the rest is counting |
| C99 | `below_reach`: a path that has come to the second graph stays there, so the union has no cycle; then C63's `done_of_adds` |

## Trusted base

1. Lean's kernel (4.33.0) and the axioms below. No axiom is added, nothing is evaluated by the compiler. The tactic
   `kernel_rfl` (`lean/Verif/KernelRfl.lean`) only produces the term `Eq.refl a`, which the kernel checks.
2. The reading of the Go code, recorded in the comments of the definitions (file and lines of `/repo`).
3. The behaviour of the Go runtime and of the dependencies, none of whose sources are available here (next section).

### Which axioms each theorem depends on

<!-- axioms -->
* `Classical.choice`, `Quot.sound`, `propext`: `C01_acyclic`, `C02_addEdge`, `C03_fresh`,
  `C04_queries_pure`, `C05_order_independent`, `C06_terminates`, `C07_vertex_store`,
  `C08_deleteVertex`, `C09_converse`, `C10_roots_leaves`, `C11_size`, `C12_reduce_reachability`,
  `C13_reduce_minimal`, `C14_ordered_exact`, `C15_breadth_first`, `C16_walker_prefix`,
  `C16_ordered_queries`, `C17_stop_and_termination`, `C18_stop_safe_partial`, `C18_stop_safe_false`,
  `C19_edge_history`, `C19_inverse`, `C20_set_algebra`, `C20_intersection_comm`, `C21_string`,
  `C22_errors`, `C22_walkers`, `C24_sharing_exact_partial`, `C24_no_sharing_partial`,
  `C24_isolation_partial`, `C26_post_missing`, `C26_parents_partial`, `C26_no_post_partial`,
  `C26_parsed_post_missing`, `C26_parsed_partial`, `C27_visits_partial`, `C27_no_post_partial`,
  `C27_walk_terminates`, `C28_no_panic_partial`, `C28_exact`, `C29_attribute_fails`,
  `C29_map_fails`, `C29_heredoc_fails`, `C29_escape_fails`, `C29_round_trip_partial`,
  `C30_grouping_partial`, `C33_octal`, `C33_stable`, `C33_octal_value`, `C33_not_octal`,
  `C34_value_partial`, `C34_even_partial`, `C35_number_format`, `C36_capture`, `C36_format`,
  `C37_left_fails`, `C37_never_left`, `C37_distinct_partial`, `C37_associative_partial`,
  `C38_precedence`, `C38_accepts`, `C41_blanks`, `C42_keyword_prefix`, `C42_ident_partial`,
  `C42_keywords`, `C42_keyword_first`, `C42_exact`, `C43_longest_partial`, `C43_two_partial`,
  `C44_string_partial`, `C45_prefix_ends`, `C45_heredoc_partial`, `C46_single`, `C46_multi`,
  `C46_unterminated`, `C46_format_single`, `C46_format_multi`, `C47_enum`, `C47_object`,
  `C47_aligned_enum`, `C47_aligned_object`, `C49_separate_partial`, `C50_bytes`, `C50_reader`,
  `C50_text`, `C50_named`, `C50_named_format`, `C50_failing`, `C51_no_panic`,
  `C51_no_capture_panic`, `C51_reader_no_panic`, `C52_descent`, `C52_depth`, `C52_depth_chars`,
  `C53_read_back`, `C53_unambiguous`, `C54_faithful`, `C54_kind`, `C54_letters`, `C54_injective`,
  `C55_position_partial`, `C55_name_partial`, `C55_order_partial`, `C56_sound_partial`, `C56_far`,
  `C56_short_partial`, `C56_not_full`, `parseTree_peg`, `C57_own_maps`, `C57_calls`,
  `C57_no_interference`, `exec_sim`, `C58_calls`, `C58_exact`, `C58_partial`, `C58_full_false`,
  `C59_remembered`, `C59_writes`, `C59_prefetch`, `C59_prefetched_together`, `C60_partial`,
  `C60_exact`, `C60_full_false`, `C61_nearest_partial`, `C61_close`, `C61_full_false`, `unique`,
  `C62_once_partial`, `C62_again_partial`, `C63_no_memory`, `C63_any_order`, `C64_call`,
  `C64_queries`, `C64_query`, `C65_small_partial`, `C65_chars_partial`, `C65_restricts`,
  `C65_too_many`, `C65_full_false`, `C65_million`, `C66_text`, `C66_read_back_partial`,
  `C66_read_back_exact`, `C66_too_deep`, `C67_linear_partial`, `C67_exponential`, `C67_full_false`,
  `C68_join_partial`, `C68_documents_partial`, `C68_reject_partial`, `C68_concat_partial`,
  `C68_seam_partial`, `C68_line_partial`, `C68_files_partial`, `C68_full_false`, `C69_addEdge`,
  `C69_deleteEdge`, `C69_deleteVertex`, `C69_addVertex`, `C70_orders`, `C70_ends`, `C71_crlf`,
  `C71_crlf_partial`, `C71_crlf_not_full`, `C71_crlf_limit`, `C71_blank`, `C71_blank_partial`,
  `C71_blank_not_full`, `C72_consistent`, `C72_template`, `C72_shape`, `C72_text_partial`,
  `C72_line_partial`, `C72_text_not_full`, `C72_text_heredoc`, `C73_template_partial`, `C73_value`,
  `C73_braces`, `C74_short_partial`, `C74_long`, `C74_swallow`, `C74_counterexample`, `C74_few`,
  `C74_token`, `C75_composed`, `C75_value`, `C75_string`, `C76_heredoc_partial`, `C76_reads`,
  `C76_ends`, `C76_midline`, `C77_doc_partial`, `C77_last_partial`, `C77_paren`, `C77_heredoc`,
  `C78_places_partial`, `C78_return_partial`, `C78_function`, `C79_names_partial`, `C79_keyword`,
  `C79_decl_block`, `C79_full_false`, `C80_rename`, `C81_mirror`, `C82_apart`, `C83_list_partial`,
  `C83_map_partial`, `C84_reads`, `C84_line`, `C84_unique`, `C84_right`, `C84_decimal`,
  `C85_contents`, `C85_comment`, `C85_line`, `C86_parsed`, `C86_forgets_partial`,
  `C86_inside_partial`, `C86_clone_partial`, `C86_clone_copied_partial`, `C86_clone_inside_partial`,
  `C87_normal_form`, `C87_any_time`, `C88_restore`, `C88_copy`, `C88_undo`, `C89_same`,
  `C89_results`, `C89_vertex`, `C90_format`, `C91_grows`, `C91_shrinks`, `C91_refused`,
  `C91_opposite`, `C92_retry`, `C92_result`, `C92_replay`, `C93_size`, `C93_ends`, `C93_relatives`,
  `C93_reduce`, `C94_descendants`, `C94_ancestors`, `C94_children`, `C94_parents`, `C94_connected`,
  `C94_walker`, `C95_replace`, `C95_reach`, `C96_splice`, `C97_exact`, `C97_order`, `C98_ancestors`,
  `C98_descendants`, `C98_sort`, `C99_below`.
* `Quot.sound`, `propext`: `C24_heredoc_shared`, `C24_funcDecl_shared`, `C24_write_visible`,
  `C25_heredoc_parent`, `C31_format_clone`, `C31_format_clone_ast`, `C31_format_any`, `C32_exact`,
  `C32_lines`, `C32_count`, `C32_reversible`, `C32_injective`, `C32_text`, `C33_other`,
  `C34_rounds`, `C38_tokens`, `C39_lossless`, `C40_terminates`, `C40_no_bound`, `C44_lone_percent`,
  `C48_branches_partial`, `C49_same_line`, `C49_items_joined`, `C55_no_position`, `of_text`,
  `C83_heredoc`, `C86_only_parents`, `C86_again`, `C86_clone_false`, `C90_update`.
* `propext`: `C23_clone_equal`, `C23_clone_ast`, `C25_parents_exact_partial`,
  `C25_no_parents_partial`, `C27_post_missing`, `C28_map_panics`, `C28_enum_panics`,
  `C28_object_panics`, `C30_parentheses_fails`, `C32_append`, `C43_shift_heredoc`,
  `C48_else_dropped`, `C56_unique`, `C58_terminates`, `C60_terminates`, `C61_infinite`,
  `C62_full_false`, `C66_read_back_full_false`, `C85_close`, `C86_forgets_false`,
  `C86_parsed_clone_changed`, `C90_clone`.
* no axioms: `C32_newline_prefix`, `C87_delete`, `C97_cycle`.
* `Quot.sound`: `C06_fuel_irrelevant`.
<!-- /axioms -->

### What is modelled, and what is assumed

| code | model | not modelled, or assumed |
|------|-------|--------------------------|
| `pkg/dag/dag.go` | `Dag/Model.lean`, all exported methods and their helpers; `Dag/Walker.lean` the two walkers; `Dag/Heap.lean` the methods again, with maps as addresses; `Dag/Conc.lean` the queries one access at a time; `Dag/Guarded.lean` all calls under a lock of the caller's | the code has no locks: except in C58 and C60, calls are made one after the other and nobody changes the graph while a walker runs (that would be a data race); walkers are steps interleaved with their consumer; a key's `%v` text is an arbitrary function |
| `pkg/dag/set.go` | `Dag/SetModel.lean`, sets as variables in a heap of maps, with nil | — |
| `pkg/dag/errors.go` | constructors of the error type | texts of the errors |
| `pkg/etx/ast.go` … `value.go` (structs) | `Etx/Ast.lean` | the `Position` and parent of a node are in its `Meta`, with an address; `big.Float` is mantissa, precision, exponent and a flag for infinity (`BigFloat`) |
| `Clone` methods | `Etx/Clone.lean` | allocation is a counter |
| `Children`, `UpdateParentRefs`, `walk` | `Etx/Children.lean`, `Etx/Walk.lean` | — |
| `FormattedString` methods, `utils.go` | `Etx/Format.lean`, `Etx/Str.lean` | the text of a `big.Float` is an arbitrary function (`FloatText`); it is only used for numbers without source, which no parse returns |
| `lexer.go` | `Etx/Lexer.lean`, `Etx/Regex.lean` | Go's `regexp`: leftmost-first matching of the constructs used; participle's stateful lexer: first rule that matches, push and pop, back reference to the first group |
| `parser:"…"` tags | `Etx/Grammar.lean` | participle's syntax of tags |
| `parser.go` | `Etx/Parser.lean`, `Etx/Reader.lean` | participle's recursive descent with lookahead 50 and its rules for captures; `MaxIterations` (participle gives up after 10^6 repetitions) is modelled in `Etx/Limit.lean`, where it is shown to have no effect on texts of less than 10^6 tokens (C65), and left out elsewhere; captures left behind by a failed alternative are not modelled, they only occur if the parse fails; text of error messages; data that is not UTF-8 is parsed by an arbitrary function (`InvalidText`) |
| `Capture` methods | `Etx/Number.lean`, `Etx/Float.lean` | `(*big.Float).Parse` of Go 1.18 is transcribed: digits, prefixes, `_`, rounding to nearest even with 53 bits; the value of a literal with fraction or exponent is that of `goFloat` in C61, and an arbitrary function (`FloatValue`) everywhere else |
| `lambda.go` | struct, `Clone`, `Children`, `FormattedString`, production | no production refers to it, so a parse never returns one |
| `cmd/cli/main.go` | — | prints one line |
| struct tags `json:"…"` of all types, `encoding/json`, `big.Float` as text | `Etx/Json.lean`, `Etx/FloatJson.lean` | written from the documentation and from memory of Go 1.18, as the other parts of the standard library are; `Unmarshal` is modelled from the JSON value on, not from its text, and reads field names as they are written (Go also accepts other capitals); it is only applied to what `Marshal` wrote; invalid UTF-8 in texts does not occur |
| time and memory used by the parser | `Etx/Steps.lean` | only comparisons of tokens are counted; the lexer, the regular expressions, building structs and memory are not |
| tests | not modelled; inputs and expected results of the Go tests of `pkg/etx` were extracted as text and compared with the model (442 parse and format cases, 435 equal; the other 7 use a test-only struct or the parts left open by `FloatText` and `FloatValue`) | — |

The classes `FloatText`, `FloatValue` and `InvalidText` are parameters of the theorems, not axioms: the theorems hold for all
functions in their place.

### Where the code and its documentation disagree

Properties that are false of the code are stated in full (`Cxx_full` or the negated statement), refuted by a witness, and
proved as far as they are true (`_partial`); the notes in `MANIFEST.json` name the defect. The model follows the code.

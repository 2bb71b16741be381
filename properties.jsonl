{"id": "C01", "title": "The graph never contains a cycle", "statement": "After any history of AddVertex/DeleteVertex/AddEdge/DeleteEdge/ReduceTransitively and queries, no vertex can be reached from itself by following one or more edges reported by IsEdge/GetChildren.", "quantifier": "every key type with decidable equality and a zero value, every vertex payload, every finite history of API calls on a fresh graph, and every map-iteration order chosen by the runtime at every range loop", "why_tests_cant": "The guard in AddEdge relies on cached descendant sets; a stale cache after some particular sequence of deletions would let a cycle through, and histories are unbounded.", "anchors": ["pkg/dag/dag.go:AddEdge", "pkg/dag/dag.go:getDescendantsIDs", "pkg/dag/dag.go:DeleteEdge", "pkg/dag/dag.go:DeleteVertex"]}
{"id": "C02", "title": "AddEdge accepts exactly the edges that keep the graph acyclic, and reports the right error", "statement": "AddEdge(s,t) returns, in this order of precedence: ErrEdgeSourceIDEmpty if s is the zero value; ErrEdgeTargetIDEmpty if t is; ErrEdgeSourceTargetIdentical if s==t; ErrEdgeSourceIDNotFound / ErrEdgeTargetIDNotFound for unknown ids; ErrEdgeDuplicate if the edge is present; ErrEdgeLoop iff s is reachable from t; otherwise nil, and then exactly the edge (s,t) has been added. On any error no vertex or edge changes.", "quantifier": "every key type with decidable equality and a zero value, every vertex payload, every finite history of API calls on a fresh graph, and every map-iteration order chosen by the runtime at every range loop; all pairs s,t", "why_tests_cant": "The accept/reject decision depends on reachability in arbitrary graphs and on caches filled by arbitrary earlier calls.", "anchors": ["pkg/dag/dag.go:AddEdge", "pkg/dag/dag.go:checkEdgeIDs"]}
{"id": "C03", "title": "Ancestor and descendant queries are never stale", "statement": "At any point of any history, GetDescendants(id) returns exactly the vertices reachable from id by one or more edges, each with its current payload, and GetAncestors(id) exactly those from which id is reachable.", "quantifier": "every key type with decidable equality and a zero value, every vertex payload, every finite history of API calls on a fresh graph, and every map-iteration order chosen by the runtime at every range loop; every id", "why_tests_cant": "Cache invalidation must be right for every interleaving of mutations and queries; tests only cover a few sequences.", "anchors": ["pkg/dag/dag.go:GetDescendants", "pkg/dag/dag.go:GetAncestors", "pkg/dag/dag.go:ancestorsCache", "pkg/dag/dag.go:descendantsCache", "pkg/dag/dag.go:loadFromCache"]}
{"id": "C04", "title": "Queries have no observable side effect", "statement": "Inserting, removing or repeating read-only calls anywhere in a history changes neither the results of the other calls nor the graph observed afterwards, although queries do write the internal caches.", "quantifier": "every key type with decidable equality and a zero value, every vertex payload, every finite history of API calls on a fresh graph, and every map-iteration order chosen by the runtime at every range loop", "why_tests_cant": "It is a statement about all pairs of histories that differ in their queries.", "anchors": ["pkg/dag/dag.go:getAncestorsIDs", "pkg/dag/dag.go:getDescendantsIDs"]}
{"id": "C05", "title": "Results do not depend on map iteration order", "statement": "For two runs of the same history under any two choices of map-iteration order, every call returns the same result (error, boolean, count, and, for returned maps, the same set of key/value pairs).", "quantifier": "every key type with decidable equality and a zero value, every vertex payload, every finite history of API calls on a fresh graph, and every map-iteration order chosen by the runtime at every range loop (two independent order oracles)", "why_tests_cant": "The Go runtime randomises map order; a test run samples one order per range.", "anchors": ["pkg/dag/dag.go:getAncestorsIDs", "pkg/dag/dag.go:ReduceTransitively", "pkg/dag/dag.go:GetRoots"]}
{"id": "C06", "title": "Every graph operation terminates", "statement": "The recursive ancestor/descendant computation terminates on every reachable graph, with recursion depth at most the number of vertices plus one, so no API call diverges or overflows the stack by infinite recursion.", "quantifier": "every key type with decidable equality and a zero value, every vertex payload, every finite history of API calls on a fresh graph, and every map-iteration order chosen by the runtime at every range loop", "why_tests_cant": "Termination depends on acyclicity of every reachable graph, not only of the tested ones.", "anchors": ["pkg/dag/dag.go:getAncestorsIDs", "pkg/dag/dag.go:getDescendantsIDs", "pkg/dag/dag.go:ReduceTransitively"]}
{"id": "C07", "title": "The vertex store behaves like a finite map", "statement": "AddVertex rejects the zero id and duplicates and otherwise binds id to the payload; GetVertex returns the payload bound by the last successful AddVertex not followed by a successful DeleteVertex, or ErrVertexIDEmpty/ErrVertexNotFound; GetVertices returns exactly those bindings and GetOrder their number. A duplicate AddVertex does not overwrite the payload.", "quantifier": "every key type with decidable equality and a zero value, every vertex payload, every finite history of API calls on a fresh graph, and every map-iteration order chosen by the runtime at every range loop", "why_tests_cant": "Refinement to an abstract map must hold after every operation sequence.", "anchors": ["pkg/dag/dag.go:AddVertex", "pkg/dag/dag.go:GetVertex", "pkg/dag/dag.go:GetVertices", "pkg/dag/dag.go:GetOrder", "pkg/dag/dag.go:DeleteVertex"]}
{"id": "C08", "title": "DeleteVertex removes the vertex and exactly its edges", "statement": "After a successful DeleteVertex(id) the vertex set is the old one without id and an edge remains iff it was present and neither end is id; re-adding the same id yields an isolated vertex. On error nothing changes.", "quantifier": "every key type with decidable equality and a zero value, every vertex payload, every finite history of API calls on a fresh graph, and every map-iteration order chosen by the runtime at every range loop", "why_tests_cant": "Dangling edge or cache entries only show up for particular combinations of earlier calls.", "anchors": ["pkg/dag/dag.go:DeleteVertex"]}
{"id": "C09", "title": "Parent/child and ancestor/descendant are converse relations", "statement": "p is in GetParents(c) iff c is in GetChildren(p) iff IsEdge(p,c); a is in GetAncestors(d) iff d is in GetDescendants(a).", "quantifier": "every key type with decidable equality and a zero value, every vertex payload, every finite history of API calls on a fresh graph, and every map-iteration order chosen by the runtime at every range loop; every pair of vertices", "why_tests_cant": "The two directions are stored and cached in separate maps that must agree after every history.", "anchors": ["pkg/dag/dag.go:GetParents", "pkg/dag/dag.go:GetChildren", "pkg/dag/dag.go:IsEdge", "pkg/dag/dag.go:inboundEdges", "pkg/dag/dag.go:outboundEdges"]}
{"id": "C10", "title": "Roots and leaves are exact and exist", "statement": "GetRoots returns exactly the vertices without parents and GetLeaves exactly those without children (with their payloads); a non-empty graph has at least one root and one leaf, and every vertex is a root or a descendant of a root.", "quantifier": "every key type with decidable equality and a zero value, every vertex payload, every finite history of API calls on a fresh graph, and every map-iteration order chosen by the runtime at every range loop", "why_tests_cant": "Existence of a root is an acyclicity argument on graphs of every size.", "anchors": ["pkg/dag/dag.go:GetRoots", "pkg/dag/dag.go:GetLeaves"]}
{"id": "C11", "title": "GetSize counts the edges", "statement": "GetSize equals the number of distinct pairs (s,t) with IsEdge(s,t), the sum of the numbers of children and the sum of the numbers of parents over all vertices.", "quantifier": "every key type with decidable equality and a zero value, every vertex payload, every finite history of API calls on a fresh graph, and every map-iteration order chosen by the runtime at every range loop", "why_tests_cant": "Duplicate or dangling entries would make the count drift only after particular histories.", "anchors": ["pkg/dag/dag.go:GetSize"]}
{"id": "C12", "title": "ReduceTransitively preserves reachability", "statement": "After ReduceTransitively, the vertices are unchanged and b is a descendant of a iff it was before the call.", "quantifier": "every key type with decidable equality and a zero value, every vertex payload, every finite history of API calls on a fresh graph, and every map-iteration order chosen by the runtime at every range loop", "why_tests_cant": "The reduction reads cached descendant sets for all non-root vertices; correctness needs that every such cache entry is present and exact in every reachable state.", "anchors": ["pkg/dag/dag.go:ReduceTransitively"]}
{"id": "C13", "title": "ReduceTransitively yields the unique minimal graph", "statement": "After ReduceTransitively an edge u->v remains iff it was present and there is no longer path from u to v; every graph with the same vertices and the same reachability contains all remaining edges; a second call changes nothing; and this holds for any iteration order.", "quantifier": "every key type with decidable equality and a zero value, every vertex payload, every finite history of API calls on a fresh graph, and every map-iteration order chosen by the runtime at every range loop", "why_tests_cant": "Minimality quantifies over all graphs with the same closure; the loop deletes from maps while iterating over them.", "anchors": ["pkg/dag/dag.go:ReduceTransitively", "pkg/dag/dag.go:flushCaches"]}
{"id": "C14", "title": "Ordered traversals list every ancestor/descendant exactly once", "statement": "GetOrderedDescendants(id) returns a duplicate-free list whose elements are exactly the keys of GetDescendants(id); likewise GetOrderedAncestors.", "quantifier": "every key type with decidable equality and a zero value, every vertex payload, every finite history of API calls on a fresh graph, and every map-iteration order chosen by the runtime at every range loop; every id", "why_tests_cant": "Requires the visited set and the fifo to agree on every graph.", "anchors": ["pkg/dag/dag.go:GetOrderedDescendants", "pkg/dag/dag.go:GetOrderedAncestors", "pkg/dag/dag.go:walkDescendants", "pkg/dag/dag.go:walkAncestors"]}
{"id": "C15", "title": "Ordered traversals are breadth-first", "statement": "In the list returned by GetOrderedDescendants(id) (GetOrderedAncestors(id)) a vertex at smaller edge-distance from id never appears after one at larger distance.", "quantifier": "every key type with decidable equality and a zero value, every vertex payload, every finite history of API calls on a fresh graph, and every map-iteration order chosen by the runtime at every range loop; every id", "why_tests_cant": "Order between levels must hold for every graph and every sibling order.", "anchors": ["pkg/dag/dag.go:walkDescendants", "pkg/dag/dag.go:walkAncestors"]}
{"id": "C16", "title": "Walker: what the consumer sees under every schedule", "statement": "For every interleaving of the walker goroutine with a consumer that receives ids and may send the stop signal, the ids received so far form a duplicate-free prefix of one breadth-first enumeration of the descendants (ancestors) of id; if the channel is observed closed and no stop was sent, every descendant has been received.", "quantifier": "every reachable graph, every id, every iteration order and every interleaving of walker and consumer steps", "why_tests_cant": "Interleavings are unbounded; a test run exercises one schedule.", "anchors": ["pkg/dag/dag.go:DescendantsWalker", "pkg/dag/dag.go:AncestorsWalker", "pkg/dag/dag.go:walkDescendants"]}
{"id": "C17", "title": "Walker: stop and termination", "statement": "After the stop signal has been sent at most one further id is delivered; a consumer that keeps receiving always reaches the closed channel within a bounded number of steps, whatever the schedule, and never deadlocks.", "quantifier": "every graph and every interleaving", "why_tests_cant": "Liveness over all schedules.", "anchors": ["pkg/dag/dag.go:DescendantsWalker", "pkg/dag/dag.go:walkDescendants"]}
{"id": "C18", "title": "Walker: sending the stop signal is always safe", "statement": "A consumer that has not yet observed the ids channel closed may send on the stop channel without panicking, and after stopping need not receive any more for the goroutine to finish.", "quantifier": "every graph and every interleaving", "why_tests_cant": "The failure is a race between close(signal) and the consumer's send.", "anchors": ["pkg/dag/dag.go:DescendantsWalker", "pkg/dag/dag.go:AncestorsWalker"]}
{"id": "C19", "title": "IsEdge, AddEdge and DeleteEdge are exact inverses", "statement": "IsEdge(s,t) is true iff the last successful AddEdge/DeleteEdge (or vertex deletion or reduction) concerning the pair left it present; DeleteEdge removes exactly that edge, returns ErrEdgeNotFound when absent; a successful AddEdge followed by DeleteEdge of the same pair restores every observable, and vice versa.", "quantifier": "every key type with decidable equality and a zero value, every vertex payload, every finite history of API calls on a fresh graph, and every map-iteration order chosen by the runtime at every range loop", "why_tests_cant": "Refinement over every history.", "anchors": ["pkg/dag/dag.go:IsEdge", "pkg/dag/dag.go:DeleteEdge", "pkg/dag/dag.go:AddEdge"]}
{"id": "C20", "title": "Set operations satisfy set algebra", "statement": "For sets built with Add/Delete: Includes reflects the history of Add/Delete; Intersection, Difference, Filter contain exactly the right elements; Intersection is commutative although it iterates over the smaller set; Copy and List contain exactly the elements, List without repetition; nil sets behave as empty for all read operations and the receivers are not modified.", "quantifier": "all sets over every element type, every iteration order, nil included", "why_tests_cant": "Holds for all sets; the size-based swap gives two code paths.", "anchors": ["pkg/dag/set.go:Set.Intersection", "pkg/dag/set.go:Set.Difference", "pkg/dag/set.go:Set.Filter", "pkg/dag/set.go:Set.List", "pkg/dag/set.go:Set.Copy"]}
{"id": "C21", "title": "String lists every vertex and edge once", "statement": "String() prints the order and size in its header, then one line per vertex and one line per edge, each exactly once, and nothing else, in some order.", "quantifier": "every key type with decidable equality and a zero value, every vertex payload, every finite history of API calls on a fresh graph, and every map-iteration order chosen by the runtime at every range loop", "why_tests_cant": "Any graph; any iteration order.", "anchors": ["pkg/dag/dag.go:String"]}
{"id": "C22", "title": "Query errors are uniform and exact", "statement": "GetVertex, GetParents, GetChildren, GetAncestors, GetDescendants, GetOrderedAncestors, GetOrderedDescendants, the walkers and DeleteVertex return ErrVertexIDEmpty iff the id is the zero value, ErrVertexNotFound iff it is non-zero and unknown, and succeed otherwise.", "quantifier": "every key type with decidable equality and a zero value, every vertex payload, every finite history of API calls on a fresh graph, and every map-iteration order chosen by the runtime at every range loop; every id", "why_tests_cant": "Every id and every reachable graph.", "anchors": ["pkg/dag/dag.go:checkVertexID"]}
{"id": "C23", "title": "Clone is structurally equal to the original", "statement": "Clone() returns a tree with the same node kinds, strings, numbers, flags, positions, nil-ness and slice contents as the original; nil clones to nil and a nil slice to a nil slice.", "quantifier": "every AST value (any nesting depth, any combination of nil/non-nil fields and nil/empty/non-empty slices)", "why_tests_cant": "Forty node types nested arbitrarily deep; tests compare a few trees.", "anchors": ["pkg/etx/ast.go:AST.Clone", "pkg/etx/value.go:Value.Clone", "pkg/etx/expr.go:Expr.Clone", "pkg/etx/utils.go:cloneCollection", "pkg/etx/utils.go:cloneStrings"]}
{"id": "C24", "title": "Clone shares no memory with the original", "statement": "No object (struct, slice backing array, big.Float) reachable from Clone() is reachable from the original, so that mutating either one never changes the other.", "quantifier": "every AST value (any nesting depth, any combination of nil/non-nil fields and nil/empty/non-empty slices)", "why_tests_cant": "Aliasing is invisible to structural-equality tests.", "anchors": ["pkg/etx/value.go:Value.Clone", "pkg/etx/func.go:FuncDecl.Clone", "pkg/etx/ast.go:ASTNode.Clone"]}
{"id": "C25", "title": "A clone does not refer back to the original tree", "statement": "Every node of a clone has a nil Parent until UpdateParentRefs is called on it.", "quantifier": "every AST value (any nesting depth, any combination of nil/non-nil fields and nil/empty/non-empty slices)", "why_tests_cant": "All trees.", "anchors": ["pkg/etx/ast.go:ASTNode.Clone", "pkg/etx/value.go:Value.Clone"]}
{"id": "C26", "title": "Parse and UpdateParentRefs set every Parent", "statement": "After Parse/ParseString/ParseBytes or AST.UpdateParentRefs, the Parent of every node stored anywhere inside the AST is the node whose field or slice directly contains it (nil for root items).", "quantifier": "every AST value (any nesting depth, any combination of nil/non-nil fields and nil/empty/non-empty slices)", "why_tests_cant": "All trees and all field combinations.", "anchors": ["pkg/etx/ast.go:AST.UpdateParentRefs", "pkg/etx/parser.go:updateParentRefs", "pkg/etx/expr.go:ExprPostfix.Children"]}
{"id": "C27", "title": "Walking Children visits every node exactly once", "statement": "Starting from the AST and repeatedly calling Children visits each node stored in the tree exactly once.", "quantifier": "every AST value (any nesting depth, any combination of nil/non-nil fields and nil/empty/non-empty slices)", "why_tests_cant": "All trees; one omitted field in one of forty Children methods suffices to break it.", "anchors": ["pkg/etx/*.go:Children"]}
{"id": "C28", "title": "Formatting a parsed document never panics", "statement": "FormattedString does not panic on any AST produced by Parse.", "quantifier": "every source text accepted by the parser", "why_tests_cant": "All parseable inputs; panics depend on rare combinations such as comments inside enum bodies.", "anchors": ["pkg/etx/ast.go:AST.FormattedString", "pkg/etx/type.go:TypeEnum.FormattedString", "pkg/etx/value.go:ValueMap.FormattedString"]}
{"id": "C29", "title": "Formatted output parses back to the same AST", "statement": "Parsing FormattedString of a parsed AST succeeds and yields the same AST up to positions (blank lines and comments aside).", "quantifier": "every source text accepted by the parser", "why_tests_cant": "Round trip over all documents.", "anchors": ["pkg/etx/ast.go:AST.FormattedString", "pkg/etx/parser.go:ParseString", "pkg/etx/expr.go:ExprPrimary.FormattedString", "pkg/etx/attribute.go:Attribute.FormattedString"]}
{"id": "C30", "title": "Formatting preserves grouping", "statement": "The formatted text of an expression denotes the same operator grouping as the AST; in particular parenthesised sub-expressions keep their parentheses.", "quantifier": "every expression", "why_tests_cant": "All operator nestings.", "anchors": ["pkg/etx/expr.go:ExprPrimary.FormattedString"]}
{"id": "C31", "title": "Formatting and cloning commute", "statement": "x.Clone().FormattedString() equals x.FormattedString() (and panics iff the latter does) for every node.", "quantifier": "every AST value (any nesting depth, any combination of nil/non-nil fields and nil/empty/non-empty slices)", "why_tests_cant": "All trees.", "anchors": ["pkg/etx/*.go:Clone", "pkg/etx/*.go:FormattedString"]}
{"id": "C32", "title": "indent is exact and reversible", "statement": "indent(s,prefix) inserts prefix exactly at the start of every non-empty line and changes nothing else: line count and line order are preserved, empty lines stay empty, and removing the prefix from the non-empty lines restores s; indent of a concatenation at a line break is the concatenation of the indents.", "quantifier": "all byte strings s and prefixes (line count, order and reversibility: prefixes without a newline)", "why_tests_cant": "All strings.", "anchors": ["pkg/etx/utils.go:indent", "pkg/etx/utils.go:indentBytes"]}
{"id": "C33", "title": "Number literals: legacy octal normalisation", "statement": "Capture rewrites a literal 0d...d (digits/underscores only, at least one) to 0od...d and leaves every other literal unchanged; capturing the stored Source again gives the same Source; a legacy octal literal denotes the value of its digits in base 8 (to the precision of Value), and Capture fails when it contains 8 or 9.", "quantifier": "every string accepted by the Number token", "why_tests_cant": "All literals.", "anchors": ["pkg/etx/value.go:ValueNumber.Capture", "pkg/etx/value.go:needsOctalPrefix"]}
{"id": "C34", "title": "Number literals are of arbitrary precision", "statement": "For every integer literal (decimal, 0x, 0o, 0b, legacy octal) the captured Value equals the mathematical value of the literal.", "quantifier": "all integer literals of any length", "why_tests_cant": "All magnitudes.", "anchors": ["pkg/etx/value.go:ValueNumber.Capture"]}
{"id": "C35", "title": "Number formatting reproduces the literal", "statement": "FormattedString of a captured number is its (normalised) source text, and capturing this text again yields an equal number.", "quantifier": "every number literal accepted by Capture", "why_tests_cant": "All literals.", "anchors": ["pkg/etx/value.go:ValueNumber.FormattedString", "pkg/etx/value.go:ValueNumber.Capture"]}
{"id": "C36", "title": "Heredoc delimiters round-trip", "statement": "Capturing a heredoc opening token <<X or <<-X yields delimiter X and the right LeadingTabs flag without panicking for every token the lexer can produce, and \"<<\" + FormattedString + newline is again that token.", "quantifier": "all delimiters", "why_tests_cant": "All words.", "anchors": ["pkg/etx/value.go:HeredocDelimiter.Capture", "pkg/etx/value.go:HeredocDelimiter.FormattedString", "pkg/etx/lexer.go:Heredoc"]}
{"id": "C37", "title": "Binary operators associate left to right", "statement": "As documented in the precedence table, a chain a op b op c of operators of the same level is grouped as (a op b) op c in the AST.", "quantifier": "all chains of any length at each of the ten binary levels", "why_tests_cant": "All chain lengths and operand shapes.", "anchors": ["pkg/etx/expr.go:ExprAdditive", "pkg/etx/README.md:Operators precedence"]}
{"id": "C38", "title": "Operator precedence follows the documented table", "statement": "In every parsed expression, an operator of a lower-precedence level never occurs inside an operand of a higher-precedence operator except inside brackets, and every well-formed operator expression is accepted.", "quantifier": "all token sequences of operands and operators", "why_tests_cant": "All expressions.", "anchors": ["pkg/etx/expr.go", "pkg/etx/README.md:Operators precedence"]}
{"id": "C39", "title": "Lexing loses nothing", "statement": "Whenever lexing succeeds, the concatenation of all token texts and skipped blanks is the input, and each token's offset/line/column are those of its first character.", "quantifier": "every input text", "why_tests_cant": "All strings.", "anchors": ["pkg/etx/lexer.go:lexRules"]}
{"id": "C40", "title": "Lexing always terminates", "statement": "Each lexing step consumes at least one character or reports an error, so lexing takes at most as many steps as there are characters; the mode stack is never popped empty.", "quantifier": "every input text", "why_tests_cant": "All strings.", "anchors": ["pkg/etx/lexer.go:lexRules"]}
{"id": "C41", "title": "Blanks between tokens are insignificant", "statement": "Outside strings and heredocs, replacing a run of spaces/tabs by another non-empty run, or adding blanks next to existing ones, changes no token type or text.", "quantifier": "every input text", "why_tests_cant": "All strings.", "anchors": ["pkg/etx/lexer.go:TokenWhitespace"]}
{"id": "C42", "title": "Every identifier is one token", "statement": "A word matching letter, then word characters and hyphen-joined word parts, that is not a keyword, is lexed as a single Ident token with that text.", "quantifier": "all identifiers", "why_tests_cant": "All words; keyword-prefixed hyphenated names are rare.", "anchors": ["pkg/etx/lexer.go:Ident", "pkg/etx/lexer.go:If"]}
{"id": "C43", "title": "Multi-character operators win over their prefixes", "statement": "Each operator spelling is lexed as that operator's token whatever follows it (<= is never split into < and =, && into & &, etc.).", "quantifier": "all continuations of the input", "why_tests_cant": "All following texts.", "anchors": ["pkg/etx/lexer.go:lexRules"]}
{"id": "C44", "title": "Any text can be written in a string literal", "statement": "Text without quotes, backslashes, ${ and %{ between two quotes is lexed as a string whose fragments concatenate to that text.", "quantifier": "all texts", "why_tests_cant": "All strings; a lone % or $ is the bad case.", "anchors": ["pkg/etx/lexer.go:lexerString", "pkg/etx/value.go:StringFragment"]}
{"id": "C45", "title": "A heredoc ends only at its delimiter line", "statement": "A heredoc opened with delimiter D ends at the first line that consists of D, and its fragments concatenate to the text in between.", "quantifier": "all bodies and delimiters", "why_tests_cant": "All texts.", "anchors": ["pkg/etx/lexer.go:lexerHeredoc", "pkg/etx/value.go:Heredoc"]}
{"id": "C46", "title": "Comments are preserved verbatim", "statement": "A single-line comment token is the text from // or # up to, not including, the next newline; a multi-line comment runs from /* to the first */; their formatted text is the token text.", "quantifier": "all comment texts", "why_tests_cant": "All strings.", "anchors": ["pkg/etx/lexer.go:SingleLineComment", "pkg/etx/lexer.go:MultilineComment", "pkg/etx/comment.go:Comment.FormattedString"]}
{"id": "C47", "title": "Type bodies are aligned", "statement": "In the formatted body of an enum or object type, the values/types of all items start at the same column, and items keep their order.", "quantifier": "all item lists", "why_tests_cant": "All label lengths.", "anchors": ["pkg/etx/type.go:TypeEnum.FormattedString", "pkg/etx/type.go:TypeObject.FormattedString"]}
{"id": "C48", "title": "Formatting an if expression keeps both branches", "statement": "The formatted text of an if expression contains the text of the condition, of the then-branch and of the else-branch whenever they are present.", "quantifier": "all if expressions", "why_tests_cant": "All combinations of present/absent branches.", "anchors": ["pkg/etx/expr.go:ExprIf.FormattedString"]}
{"id": "C49", "title": "Blocks keep their items separate", "statement": "In the formatted text of a block, different body items are on different lines, so that the items can be told apart again.", "quantifier": "all blocks", "why_tests_cant": "All item lists.", "anchors": ["pkg/etx/block.go:Block.FormattedString", "pkg/etx/block.go:BlockItem.FormattedString"]}
{"id": "C50", "title": "The three entry points agree", "statement": "Parse on a reader delivering data, ParseString and ParseBytes give the same AST or all fail.", "quantifier": "every input", "why_tests_cant": "All inputs.", "anchors": ["pkg/etx/parser.go:Parse", "pkg/etx/parser.go:ParseString", "pkg/etx/parser.go:ParseBytes"]}
{"id": "C51", "title": "Parsing never panics", "statement": "Parse, ParseString and ParseBytes return a document or an error on every text; neither the parent update nor a capture function panics.", "quantifier": "every source text", "why_tests_cant": "All texts; the code contains an explicit panic in HeredocDelimiter.Capture and nil dereferences in updateParentRefs.", "anchors": ["pkg/etx/parser.go:ParseString", "pkg/etx/value.go:HeredocDelimiter.Capture", "pkg/etx/parser.go:updateParentRefs"]}
{"id": "C52", "title": "The recursive descent always ends", "statement": "On every text ParseString, Parse and ParseBytes come back: the recursion of the parser over the grammar ends, and it is never nested deeper than 32 structs for each token of the text (so also 32 for each character), whatever the text is. A parser with more room computes the same result.", "quantifier": "every source text, every depth above the bound", "why_tests_cant": "termination for all texts: the grammar is recursive, has repetitions of optional parts, and a left-recursive or empty-matching production would only loop on particular texts; deep nesting is never tried", "anchors": ["pkg/etx/parser.go:35-44", "pkg/etx/expr.go", "pkg/etx/value.go"]}
{"id": "C53", "title": "Every writable document is read back", "statement": "Write any document (declarations, functions, types, blocks, attributes, comments, blank lines, all expressions and values) as a sequence of tokens with the brackets, separators and line ends that the grammar asks for. ParseString of any text with these tokens succeeds and returns a document with the same nodes and the same texts in the same places; two different documents are never written as the same tokens.", "quantifier": "for all documents whose texts fit their tokens and whose neighbouring items do not merge, and all texts with these tokens", "why_tests_cant": "documents are arbitrarily deep and wide; the parser decides with limited lookahead and ordered choice, so whether a struct is read depends on everything that can follow it; tests only try some documents", "anchors": ["pkg/etx/parser.go:35-44", "pkg/etx/ast.go:42-44", "pkg/etx/expr.go:17-20", "pkg/etx/value.go:31-39", "pkg/etx/func.go:20-25", "pkg/etx/block.go:20-24"]}
{"id": "C54", "title": "A parse keeps all of the text", "statement": "If ParseString accepts a text, the document it returns accounts for every token of the text: written out again by a printer that only looks at the document, it has the same tokens, in the same order and of the same types, up to layout (line feeds, commas, kind of quotes, 0o or 0 of an octal number, quotes of a block label, parentheses around return types). Every comment, name, number, operator, keyword, bracket and every character of a string or heredoc is kept, none is read twice or moved, text inside a string or heredoc is never read as syntax, and nothing is made up. Two texts with the same document differ only in layout.", "quantifier": "every source text that parses", "why_tests_cant": "the claim is about all accepted texts: a struct tag with a part that is matched but not captured, a field captured twice, or trailing text that is ignored only shows on texts that use it", "anchors": ["pkg/etx/parser.go:35-44", "pkg/etx/ast.go", "pkg/etx/expr.go", "pkg/etx/value.go", "pkg/etx/func.go", "pkg/etx/type.go", "pkg/etx/block.go"]}
{"id": "C55", "title": "Nodes know where they are in the text", "statement": "In a parsed document every node has the file position (offset, line, column) of the first token that belongs to it: its tokens are a contiguous part of the tokens of the text, and the position is that of the first of them, which is a line feed only for blank lines. Visiting the document along Children meets the nodes in the order of the text.", "quantifier": "every source text that parses, every node of the document, at any depth", "why_tests_cant": "Tests compare positions of a few documents; the claim is about every node of every document.", "anchors": ["pkg/etx/ast.go:22-25", "pkg/etx/value.go:125-129", "pkg/etx/value.go:164-178", "pkg/etx/parser.go:21-64"]}
{"id": "C56", "title": "The lookahead limit only rejects, and only far away", "statement": "Whatever ParseString returns is the document that the grammar in the struct tags says, read as ordered alternatives and greedy repetitions without any lookahead limit; this document is unique; and every text the grammar admits is accepted, so that UseLookahead(50) has no visible effect.", "quantifier": "for all texts", "why_tests_cant": "A test compares the parser with expected trees for some texts. That a bounded lookahead never silently picks a different reading is a statement about all failed alternatives in all parses.", "anchors": ["pkg/etx/parser.go:11-20", "pkg/etx/ast.go:42-98", "pkg/etx/type.go:10-16", "pkg/etx/block.go:8-14"]}
{"id": "C57", "title": "Maps returned by queries are the caller's own", "statement": "GetVertices, GetLeaves, GetRoots, GetParents, GetChildren, GetAncestors and GetDescendants each return a map that nobody else holds. Whatever the caller writes to or deletes from it changes no later answer of the graph and no other returned map, and no later call changes it.", "quantifier": "for all sequences of API calls interleaved in any way with reads of, writes to and deletions from the maps returned so far, and all map iteration orders", "why_tests_cant": "A test that mutates one returned map after one call says nothing about the other queries, about maps filled from the caches, or about later calls. Aliasing shows only in some interleavings.", "anchors": ["pkg/dag/dag.go:227-305", "pkg/dag/dag.go:363-370", "pkg/dag/dag.go:642-660"]}
{"id": "C58", "title": "Queries from several goroutines", "statement": "Once a graph has been built, its queries may be called from several goroutines at the same time: there is no data race, no goroutine panics or waits, each gets the answers it would get alone, and afterwards the graph is as before.", "quantifier": "for all graphs built by any calls, all numbers of goroutines, all sequences of queries in each, all interleavings of their memory accesses, and all map iteration orders in each goroutine", "why_tests_cant": "The number of interleavings is out of reach of testing, and a run under the race detector only sees the accesses of that run; whether a query writes depends on what earlier calls have cached.", "anchors": ["pkg/dag/dag.go:212-332", "pkg/dag/dag.go:363-398", "pkg/dag/dag.go:437-544", "pkg/dag/dag.go:582-658"]}
{"id": "C59", "title": "Which answers a graph remembers", "statement": "GetAncestors and GetDescendants keep their answers inside the graph. Which answers are kept is determined by the calls made so far, not by the order in which maps happen to be visited; a query changes the graph's memory exactly when it is one of these two, about an existing vertex, and its answer is not kept. After asking for the descendants of every root and the ancestors of every leaf, no query changes the memory any more, so any number of goroutines may then make any queries at the same time.", "quantifier": "for all histories of calls, all map iteration orders, all queries, and for the last part all numbers of goroutines and all interleavings", "why_tests_cant": "Whether an answer is kept depends on the whole history: each change of an edge first fills and then drops entries for all vertices above and below it. A test sees a few histories, and only one map order per run.", "anchors": ["pkg/dag/dag.go:64-209", "pkg/dag/dag.go:298-332", "pkg/dag/dag.go:363-398", "pkg/dag/dag.go:546-600"]}
{"id": "C60", "title": "A graph shared under a read-write lock", "statement": "Goroutines that share one graph guard it with a sync.RWMutex, taking Lock for the calls that change the graph and RLock for the queries. Then there is no data race, no call panics, every call gets the result it would get if the same calls were made one after the other in some order that keeps the order within each goroutine, and the graph ends up as those calls leave it.", "quantifier": "for all graphs built by any calls, all numbers of goroutines, all sequences of calls (changes and queries) in each, all interleavings of the calls and of the memory accesses of queries under RLock, all map iteration orders", "why_tests_cant": "Two queries under RLock race only when both touch the same cache and one of them has to compute its answer, which depends on everything that happened before; neither tests nor the race detector cover all schedules.", "anchors": ["pkg/dag/dag.go:64-209", "pkg/dag/dag.go:212-332", "pkg/dag/dag.go:363-398", "pkg/dag/dag.go:437-544", "pkg/dag/dag.go:546-658"]}
{"id": "C61", "title": "Decimal literals denote the nearest number", "statement": "A decimal number literal with or without a fraction and an exponent is captured as the floating-point number with 53 significant bits that is nearest to what the literal denotes; of two equally near numbers the one with an even last bit.", "quantifier": "for all decimal literals: any number of digits, underscores between digits, any position of the point, any exponent", "why_tests_cant": "There are infinitely many literals, and double rounding goes wrong only for literals that lie extremely close to the middle between two numbers; a test would have to know where these are.", "anchors": ["pkg/etx/value.go:155-178", "pkg/etx/lexer.go:80"]}
{"id": "C62", "title": "Formatting is stable", "statement": "Formatting text that has already been formatted changes nothing: parsing the formatted text of a document and formatting it again gives the same text, however often this is repeated.", "quantifier": "for all texts that can be parsed and formatted, and any number of repetitions", "why_tests_cant": "A test formats some documents twice; whether there is a document whose text keeps changing, and which ones, is a statement about all documents and unboundedly many rounds.", "anchors": ["pkg/etx/ast.go:66-77", "pkg/etx/ast.go:138-157", "pkg/etx/func.go:46-83", "pkg/etx/func.go:163-176", "pkg/etx/parser.go:20-64"]}
{"id": "C63", "title": "How a graph was built does not matter", "statement": "The graph has no memory beyond its vertices and edges: if two histories of calls lead to the same vertices (with payloads) and edges, all later calls return the same results on both. And if a set of AddVertex and AddEdge calls succeeds in one order, then in any other order no call fails except an AddEdge whose ends have not been added yet; if there is no such call, for instance because vertices are added first, the same graph results.", "quantifier": "for all pairs of histories, all continuations, all iteration orders of Go maps; for all lists of additions and all permutations of them, on top of any graph", "why_tests_cant": "n additions have n! orders, and the caches filled by earlier queries differ from history to history; a test compares a few of them.", "anchors": ["pkg/dag/dag.go:34-50", "pkg/dag/dag.go:112-157", "pkg/dag/dag.go:298-404", "pkg/dag/dag.go:637-640"]}
{"id": "C64", "title": "Calls take linear work, not one step per path", "statement": "The number of loops over maps a call runs is linear in the size of the graph, although the number of paths can be exponential: after any history every call runs at most 3(v+e)+4 loops, where v and e are what GetOrder and GetSize return. A question about all ancestors or descendants runs at most v+e+1, and however many such questions are asked in a row, whatever was remembered before, they run at most 2(v+e) loops plus one each.", "quantifier": "for all histories, all calls, all lists of queries, all iteration orders of Go maps", "why_tests_cant": "A benchmark measures a few graphs; a missing or bypassed cache entry makes the recursion follow every path only on graphs whose paths branch and meet again, in particular histories of insertions and deletions.", "anchors": ["pkg/dag/dag.go:64-157", "pkg/dag/dag.go:179-209", "pkg/dag/dag.go:298-426", "pkg/dag/dag.go:446-486", "pkg/dag/dag.go:505-600", "pkg/dag/dag.go:642-649"]}
{"id": "C65", "title": "Documents may be of any length", "statement": "ParseString reads every document the grammar admits, however many items, statements or tokens it has: the limit of the parser library on repetitions (MaxIterations) is never noticed.", "quantifier": "for all texts", "why_tests_cant": "The limit is a million repetitions, in any of the repetitions of the grammar and with any nesting; a test reads documents of some hundred tokens.", "anchors": ["pkg/etx/ast.go:42-44", "pkg/etx/parser.go:11-18", "pkg/etx/parser.go:35-44"]}
{"id": "C66", "title": "A document survives JSON", "statement": "json.Marshal of the result of ParseString gives the same text for two documents exactly when they have the same nodes and texts in the same places (positions, parents and addresses aside), and json.Unmarshal of this text into a new AST returns the document.", "quantifier": "for all texts ParseString accepts", "why_tests_cant": "There are more than fifty struct types with tags of their own; two fields with the same tag, a tag with omitempty on a field whose zero value means something, or an escape too few shows only for particular combinations of nodes and texts, and nesting or rounding only for particular documents.", "anchors": ["pkg/etx/ast.go:42-44", "pkg/etx/ast.go:89-99", "pkg/etx/value.go:20-30", "pkg/etx/value.go:155-160", "pkg/etx/value.go:254-257", "pkg/etx/expr.go"]}
{"id": "C67", "title": "The work of reading a text grows slowly with the text", "statement": "The number of comparisons of a token that ParseString makes is at most a fixed polynomial in the number of tokens of the text, accepted or not.", "quantifier": "for all texts the lexer accepts", "why_tests_cant": "A test measures particular texts. The parser tries alternatives and forgets their errors, so the cost depends on how failed attempts are nested; a text that is expensive is not found by trying typical documents.", "anchors": ["pkg/etx/parser.go:11-13", "pkg/etx/parser.go:35-44", "pkg/etx/expr.go:749-755", "pkg/etx/expr.go:797-805"]}
{"id": "C68", "title": "What follows a document does not change how it is read", "statement": "The items read from two documents written one after the other, the first ending with a line end, are the items of the first followed by the items of the second; their positions in the second are those of the second moved by the length of the first. Nothing in a document (an open quote, a comment, a heredoc, an unfinished expression) reaches into the text after it.", "quantifier": "for all pairs of documents accepted by ParseString, and all lists of such documents", "why_tests_cant": "Lexer state, lookahead, repetitions and optional parts at the end of a document all decide by looking at what comes next. Whether some document has an ending that takes in text of the next one is a question about every document, not about a sample.", "anchors": ["pkg/etx/lexer.go:10-111", "pkg/etx/parser.go:11-44", "pkg/etx/comment.go:9-10", "pkg/etx/ast.go:42-44", "pkg/etx/ast.go:89-99"]}
{"id": "C69", "title": "A change to the graph changes only what it has to", "statement": "After a successful AddEdge(s,t) the descendants of a vertex x are those from before and, exactly if x is s or reached s, also t and its descendants; the same for ancestors. After DeleteEdge or DeleteVertex, vertices that did not reach the deleted thing keep their descendants, vertices not reached from it keep their ancestors, and the others keep what can be reached in another way. AddVertex changes nobody's relatives. Payloads of other vertices never change.", "quantifier": "for all graphs that can be built by calls, all vertices and all changes", "why_tests_cant": "The answers come from caches that a change flushes or not, and how far a change reaches depends on all paths of the graph. A test compares a few graphs before and after.", "anchors": ["pkg/dag/dag.go:34-51", "pkg/dag/dag.go:64-110", "pkg/dag/dag.go:112-158", "pkg/dag/dag.go:179-210", "pkg/dag/dag.go:298-339", "pkg/dag/dag.go:363-405"]}
{"id": "C70", "title": "Taking away roots works through the graph in topological order", "statement": "A client that repeatedly asks GetRoots, takes any of the vertices returned and deletes it, is never stuck before the graph is empty, ends after as many rounds as there are vertices, and has then seen every vertex exactly once and after all its parents. Every topological order of the graph can come up in this way. The same holds for GetLeaves and the reverse order.", "quantifier": "for all graphs that can be built by calls, all choices of the client and all iteration orders", "why_tests_cant": "The client's choices and the orders of Go maps multiply with every round; and that a root is always left is a consequence of acyclicity after any history.", "anchors": ["pkg/dag/dag.go:64-110", "pkg/dag/dag.go:227-251"]}
{"id": "C71", "title": "Blank lines and Windows line ends do not change a document", "statement": "A text whose lines end with \\r\\n instead of \\n is read by ParseString as the same document, up to positions, blank lines and the line ends inside of comments, and so is a text with blank lines (also with spaces, tabs or \\r in them) added after a line. The claim holds for what the grammar says, for texts without heredocs and without line ends in quotes, and for blank lines that do not follow a // or # comment; ParseString can differ only by rejecting one of the texts when it has more than 50 tokens. In full the claim is false: a heredoc cannot be opened on a line that ends with \\r\\n, a blank line splits a comment of several lines, and a document of 40 tokens with 30 blank lines is accepted with \\n and rejected with \\r\\n.", "quantifier": "for all texts, all places between two lines and all blank lines put there", "why_tests_cant": "Line ends are read in some forty places of the grammar, some of which allow one and some any number of them; only an argument over the whole grammar and all texts shows that none of them tells one line end from two.", "anchors": ["pkg/etx/lexer.go:61-117", "pkg/etx/ast.go:41-99", "pkg/etx/comment.go:5-11", "pkg/etx/parser.go:11-43"]}
{"id": "C72", "title": "The parser does not look at names", "statement": "Replacing names (identifiers that are not words of the grammar) by other names in a text changes the document that ParseString gives in these names only: both texts are accepted or both are rejected, with the same structure, and every place of the document that held a name holds the new one. This holds for replacing a name by another one everywhere, also by one that is in use already, and for replacing each occurrence by itself; the tokens of the new text have to be those of the old one up to names. For a name at the beginning of the text or after a character that is no word character it is enough that the new name is an identifier whose part before the first hyphen is not a keyword, unless << or <<- is before it and a line end after it. Otherwise this can be false: a = 0z = 2 is accepted and a = 0e5 = 2 is rejected, because the name becomes part of the number; and a = b <<c-d is accepted and a = b <<c is rejected, because the name becomes the word of a heredoc.", "quantifier": "for all texts and all ways to give names to their tokens", "why_tests_cant": "A test fixes the names. That no name is special, that no rule looks at two names at once, and that each name ends up in exactly one place is a statement about all names and all documents.", "anchors": ["pkg/etx/ast.go:41-99", "pkg/etx/ident.go:7-11", "pkg/etx/lexer.go:79", "pkg/etx/parser.go:11-43"]}
{"id": "C73", "title": "Strings with expressions in them are read as written", "statement": "A string made of pieces (text, the other quote, backslash escapes, \\u with digits, $${ and %%{, expressions ${e} and %{e}) is read by ParseString as a string with exactly these pieces in this order, in both kinds of quotes; and an expression e has the same tree in a string as it has as the value of an attribute. The expressions may contain strings with expressions again. In full this is false: an expression with braces, like a map, can not be put into a string, because every closing brace that is not inside a nested string ends the expression; without such braces it holds for all expressions.", "quantifier": "for all names, quotes, lists of pieces and all texts that are expressions", "why_tests_cant": "A string can hold any expression and any number of pieces; that the lexer reads e inside a string as it does outside (other states, other rules) and that the parser stops exactly at the brace is a statement about all expressions.", "anchors": ["pkg/etx/lexer.go:81-131", "pkg/etx/value.go:341-345", "pkg/etx/value.go:380-388"]}
{"id": "C74", "title": "Four digits after \\u are one character", "statement": "In a string, \\u and four hexadecimal digits are read as one escaped character, and the text after them as text; \\u and eight digits are read as one escaped character; \\u with fewer than four digits is rejected. The first part is false: if the text after the four digits begins with four more hexadecimal digits, these are taken as digits of the character, so that \\u0041beef is one character and not the letter A followed by beef; it holds for all other texts.", "quantifier": "for all digits, texts, names and both quotes; the rejection for all texts in which the lexer reaches a \\u in a string", "why_tests_cant": "The text after the digits is arbitrary; a test sees one text.", "anchors": ["pkg/etx/lexer.go:120", "pkg/etx/lexer.go:129-131", "pkg/etx/value.go:384"]}
{"id": "C75", "title": "Expressions made of expressions are read as written", "statement": "If texts are expressions, so are the texts made of them with parentheses, lists, maps with names as keys, calls, indexes, prefix operators, every binary operator between operands in parentheses, ? : with parts in parentheses, if with or without else, switch with any number of cases (each with any number of conditions) and defaults, blanks after it, and strings with them in ${} (for strings: without closing braces); the tree has the trees of the parts in the places where they are written, in the same order, whatever the parts are and whatever line ends and blanks are in front of them between the braces of if and switch (and behind them, if they can be followed by a line end; they may end with anything, contain strings, comments and brackets); and as the value of an attribute the text gives the document with this tree.", "quantifier": "for all expressions, all operators, all names, any number of list items, map items and arguments, and any depth", "why_tests_cant": "The parts are arbitrary expressions of any size and depth; the lexer has no idea of the parts, and the grammar is a PEG-like grammar without backtracking past a choice, so that a part could swallow what follows or be cut off; a test sees some combinations.", "anchors": ["pkg/etx/expr.go:8-13", "pkg/etx/expr.go:212-219", "pkg/etx/expr.go:268-275", "pkg/etx/expr.go:718-723", "pkg/etx/expr.go:749-755", "pkg/etx/expr.go:797-806", "pkg/etx/expr.go:881-886", "pkg/etx/value.go:436-440", "pkg/etx/value.go:478-485", "pkg/etx/value.go:526-530", "pkg/etx/value.go:570-578", "pkg/etx/lexer.go:24-131", "pkg/etx/expr.go:58-64", "pkg/etx/expr.go:107-112", "pkg/etx/expr.go:154-160"]}
{"id": "C76", "title": "Heredocs with expressions in them are read as written", "statement": "A heredoc <<D or <<-D whose body is made of lines of text, $${ and %%{, expressions ${e} and directives %{e}, where no line begins with D, is read as a Heredoc with the delimiter D, LeadingTabs set for <<-, and the fragments in order: one for each expression, with the tree that e has elsewhere, and one for the text between two expressions, with all its line ends; and it can be used wherever an expression can be. In full this is false: the delimiter is recognised wherever a token can begin, so that D right after ${e}, %{e}, $${ or %%{ in the middle of a line ends the heredoc; without such places it holds.", "quantifier": "for all names, delimiters, both kinds of heredocs, all lists of parts and all expressions without closing braces among their tokens", "why_tests_cant": "The body is an arbitrary text with arbitrary expressions; the lexer decides at each token boundary whether the heredoc ends, and the boundaries depend on what is before.", "anchors": ["pkg/etx/lexer.go:83", "pkg/etx/lexer.go:133-140", "pkg/etx/value.go:212-217", "pkg/etx/value.go:259-273", "pkg/etx/value.go:293-299"]}
{"id": "C77", "title": "Documents made of lines are read as written", "statement": "A document made of lines -- blank lines, comments, attributes `k = e` and `k`, declarations `input|output|const|val k : t = e` with or without the type and the value, blocks `n l1 … { … }` with names or quoted texts as labels and attributes, blank lines, comments and further blocks in them, functions `def f(p1 : t1,…) (r1,…) { … }` with local declarations, comments, blank lines and expressions, and types `type t enum { k : e … }` and `type t object { k : t … }`, each line indented at will, and any of these followed by a comment on the same line, after a blank (also after an opening brace); the closing brace may stand on the line of the last thing in front of it, and after a closing brace the next item may stand on the same line -- is accepted and read as exactly these items in this order, names being any that are not keywords (a block must not begin like a declaration or a type), with the names, labels, parameters, types and comments as written and each e as it is read on its own; successive blank lines are one item, and so are successive lines of comments; blank lines right after the opening brace of a function or type, and after a line that ends with an `if` without `else`, are no items. In full (for every expression e) this is false: `k = 1 <<A` followed by a line end opens a heredoc. It holds for every expression in parentheses, for if (c) {e} else {f}, if (c) {e} and switch (s) {case (c): {e} … default: {f}} with any parts, over any number of lines, and for every expression that does not end like `<<A` and has no `if` or `switch` outside of brackets. In front of a closing brace on the same line it holds for every expression. The last line of the document needs no line end, and without one it can have any expression as well.", "quantifier": "for all documents built from any number of such lines, nested to any depth, all names and all expressions", "why_tests_cant": "The space of documents is infinite in length, depth and expressions; whether a line end closes an expression depends on the expression and on everything that can follow in the grammar and the lexer.", "anchors": ["pkg/etx/ast.go:42-43", "pkg/etx/ast.go:92-98", "pkg/etx/attribute.go:11-12", "pkg/etx/block.go:11-13", "pkg/etx/block.go:71-74", "pkg/etx/decl.go:14-17", "pkg/etx/func.go:11-14", "pkg/etx/func.go:127-130", "pkg/etx/func.go:183-186", "pkg/etx/type.go:13-15", "pkg/etx/type.go:112-115", "pkg/etx/type.go:205-208", "pkg/etx/lexer.go:70-117", "pkg/etx/comment.go:9-10", "pkg/etx/expr.go:58-64", "pkg/etx/expr.go:107-112", "pkg/etx/expr.go:154-160"]}
{"id": "C78", "title": "Types are read as written", "statement": "A type -- a name `a.b.c` or a function type `(t1,…) -> t` of types, nested to any depth -- is read as written wherever a type can stand: in a declaration, a local declaration, a parameter, a field of an object type, and between the parentheses with the types that a function returns. In full (also as the single type that a function returns without parentheses) this is false: `def a() (a) -> a {` is rejected, because the parentheses are taken for the list of returned types; names are read there too.", "quantifier": "for all types of any depth, all names and all five places", "why_tests_cant": "Types nest without bound; whether a parenthesis begins a function type or a list depends on what follows the matching parenthesis.", "anchors": ["pkg/etx/ast.go:164-165", "pkg/etx/ast.go:208-209", "pkg/etx/func.go:11-14", "pkg/etx/func.go:90-91", "pkg/etx/decl.go:14-17", "pkg/etx/type.go:205-208"]}
{"id": "C79", "title": "Words of the language can be used as names", "statement": "The words input, output, const, val, def, type, enum, object, null, true, false and default are not reserved: like any other identifier they are read as names wherever there has to be a name -- the key of an attribute, of a block's attribute or of a field, what is declared, the name of a function, parameter or type, a label, the name of a block without labels or with a label in quotes. In full (every identifier, and also the name of a block with labels that are names) this is false: a document in which a line begins with one of the keywords if, switch, case, or the first line with else, is rejected, and so is `input x {`, `output x {`, `const x {`, `val x {`, because the declaration is tried first and succeeds.", "quantifier": "for all identifiers that do not begin with a keyword (as a word), all values, all fifteen places; for all documents of lines before the keyword and all texts after it", "why_tests_cant": "The alternatives of an item are tried in order and overlap in the first word; that the wrong one is always left again depends on what follows, for every identifier, expression and document.", "anchors": ["pkg/etx/ast.go:92-98", "pkg/etx/decl.go:14-17", "pkg/etx/func.go:11-14", "pkg/etx/type.go:13-15", "pkg/etx/block.go:11-13", "pkg/etx/attribute.go:11-12", "pkg/etx/lexer.go:61-117"]}
{"id": "C80", "title": "Ids and payloads are opaque", "statement": "The graph only compares ids with each other and with the zero value, and never looks at payloads: if in a history of calls every id is replaced by another one (no two by the same, the zero value by the zero value of the new type) and every payload by any other, each call returns what it returned before with the ids and payloads replaced, errors included, and the vertices and edges left behind are the old ones with ids and payloads replaced.", "quantifier": "every key type with decidable equality and a zero value, every vertex payload, every finite history of API calls on a fresh graph, and every map-iteration order in both executions; every injective replacement of ids that keeps the zero value, also into another type, and every replacement of payloads, also one that identifies them", "why_tests_cant": "A test runs one choice of ids; a dependence on their order, size or hash, or on payloads being different, only shows for some choices.", "anchors": ["pkg/dag/dag.go:34-50", "pkg/dag/dag.go:112-157", "pkg/dag/dag.go:298-426", "pkg/dag/dag.go:546-580", "pkg/dag/dag.go:603-635"]}
{"id": "C81", "title": "The two directions of edges are treated alike", "statement": "If in a history of calls every edge is given the other way round, and parents, ancestors, ordered ancestors and roots are asked for instead of children, descendants, ordered descendants and leaves and vice versa, each call returns what it returned before (a listing with its edges turned round); a call fails iff it failed before, with the same error except that an error about one end of an edge may name the other end; the vertices left behind are the same and the edges are turned round.", "quantifier": "every key type with decidable equality and a zero value, every vertex payload, every finite history of API calls on a fresh graph, and every map-iteration order in both executions", "why_tests_cant": "The two directions are separate maps, caches and functions; that they agree for all histories, including cache invalidation, loop detection and transitive reduction, cannot be sampled.", "anchors": ["pkg/dag/dag.go:112-210", "pkg/dag/dag.go:227-250", "pkg/dag/dag.go:260-426", "pkg/dag/dag.go:546-580", "pkg/dag/dag.go:617-635"]}
{"id": "C82", "title": "Unconnected parts of a graph do not see each other", "statement": "Let the ids be divided into two parts such that no call of a history names ids of both. Then the calls about one part return what they return if the calls about the other part are not made at all; the calls about everything (GetLeaves, GetRoots, GetVertices, String) return about that part what they return then, GetOrder and GetSize not less; ReduceTransitively does to that part what it does then; and that part of the final graph is the same.", "quantifier": "every key type with decidable equality and a zero value, every vertex payload, every finite history of API calls on a fresh graph, and every map-iteration order in both executions; every division of the ids into two parts", "why_tests_cant": "The caches, the loop check and the reduction go over shared maps; that the other part never leaks in has to hold for every interleaving of the calls.", "anchors": ["pkg/dag/dag.go:64-157", "pkg/dag/dag.go:212-257", "pkg/dag/dag.go:298-426", "pkg/dag/dag.go:546-600", "pkg/dag/dag.go:637-649"]}
{"id": "C83", "title": "Lists and maps over several lines are read as written", "statement": "A list `[ … ]` or a map `{ … }` whose elements (`e`, or `k = e` with a name or a quoted text as key) are each followed by a comma, by a line end, by both, by a comment on the same line or by the closing bracket, indented at will, with comments and blank lines between them, is accepted wherever an expression is (also in front of a line end, so in every line of a document) and is read as exactly these elements, comments and blank lines in this order, each e as it is read on its own; blank lines right after the opening bracket are no items. In full (for every e) this is false: `[1 <<A` followed by a line end opens a heredoc. It holds for every e in front of a comma or the closing bracket, and in front of a line end for the expressions of C77.", "quantifier": "for all lists and maps with any number of elements, nested to any depth, all layouts of this form, all keys and all expressions", "why_tests_cant": "Infinitely many lists and layouts; the comma is optional, so whether two neighbouring elements are kept apart depends on everything that may follow an expression in the grammar and the lexer.", "anchors": ["pkg/etx/value.go:436-440", "pkg/etx/value.go:478-484", "pkg/etx/value.go:526-530", "pkg/etx/value.go:570-577", "pkg/etx/value.go:623-628", "pkg/etx/comment.go:9-10", "pkg/etx/lexer.go:70-117"]}
{"id": "C84", "title": "Operators, calls, indexes and selections without parentheses are read as documented", "statement": "Operands -- names `a.b`, calls `a.b(x,…)(y,…)`, null, true, false, integer literals of every base, numbers with fractions and exponents, strings with escapes, `${}` and `%{}` (without closing braces in the expressions, see C73), lists, maps, expressions in parentheses --, each with an index `[i]` and a selection `.q` or not and a prefix operator or not, joined by binary operators and by `? :`, with or without blanks around them (but one before `-` and one after `<<`), are an expression; it is read as the tree in which the operators are grouped by the documented levels (the tighter ones below), operators of the same level to the right, a prefix operator applies to the operand with its index and selection, integers have the value of their digits rounded to 53 bits, and so have numbers with fractions and exponents if the power of ten is between -50 and 50, and every part is read as it is read on its own. No text has two such readings, and such an expression can be followed by a line end or a comment in every document of lines.", "quantifier": "for all expressions built from these forms to any depth and length, all operators of the ten levels, all names and literals, all expressions whatsoever as arguments, elements, indexes and in parentheses, any number of tabs and blanks at the operators", "why_tests_cant": "A test has a handful of operator pairs; the claim is about every nesting of the ten levels, prefix operators, indexes and selections, of any length.", "anchors": ["pkg/etx/expr.go:230-900", "pkg/etx/values.go:Value", "pkg/etx/lexer.go:60-130", "pkg/etx/README.md:Operators precedence"]}
{"id": "C85", "title": "The contents of comments, quotes and heredocs have no influence on how the rest is read", "statement": "If two texts have the same tokens, except that comments have other texts, then both are rejected or both are accepted, and the trees are the same but for the texts of comments (and positions). The same holds if also the pieces of text in quotes and the lines of heredocs are others, also if they are words of the grammar such as `(` or `type`: the trees then agree but for these texts and the labels of blocks. In terms of texts: a comment `# …`, `// …` or `/* … */` without `*/` in its text can be replaced by every other one of its kind, after a blank wherever code is read and at the beginning of a line. With `*/` in it this is false: an unclosed `/*` before the comment is closed by it.", "quantifier": "for all documents, of any length and nesting, all positions of the comment, all texts in comments, quotes and heredocs", "why_tests_cant": "A test has some comments in some places; the claim is about every text of a comment at every place, also where the parser looks ahead over it, backtracks or runs into its lookahead limit.", "anchors": ["pkg/etx/comment.go:6-11", "pkg/etx/value.go:293-299", "pkg/etx/value.go:380-388", "pkg/etx/block.go:8-14", "pkg/etx/lexer.go:56-147", "pkg/etx/parser.go:12-44"]}
{"id": "C86", "title": "UpdateParentRefs can be called again at any time", "statement": "UpdateParentRefs changes nothing but Parent fields; calling it a second time changes nothing, in particular directly after Parse, ParseString or ParseBytes. The Parents it sets do not depend on the ones there were before, so it puts right every wrong Parent after nodes have been moved. Called on a clone, it leaves the original document alone.", "quantifier": "for all trees, all values of the Parent fields, all texts that can be parsed, all clones", "why_tests_cant": "Whether a walk assigns to every node, assigns the same values when run again and never reaches an object of another tree depends on every combination of node kinds and on which objects are shared; tests look at the Parents of a few nodes after one call.", "anchors": ["pkg/etx/ast.go:58-64", "pkg/etx/ast.go:79-84", "pkg/etx/parser.go:22-64", "pkg/etx/value.go:32-54", "pkg/etx/func.go:189-201"]}
{"id": "C87", "title": "ReduceTransitively gives a normal form, and can be called at any time while a graph is built", "statement": "After ReduceTransitively two graphs are the same exactly if before it they had the same vertices and every vertex had the same descendants in both. While vertices and edges are added and only vertices, roots, leaves, ancestors and descendants are asked for, it does not matter when or how often ReduceTransitively is called: all other calls return the same (except that AddEdge can succeed for an edge that was removed, instead of ErrEdgeDuplicate), and after a last ReduceTransitively the graphs are the same. With DeleteVertex and DeleteEdge it does matter.", "quantifier": "every key type with decidable equality and a zero value, every vertex payload, all pairs of histories (first part); every state reached by a history, all pairs of sequences of such calls that differ only in calls of ReduceTransitively (second part); every map-iteration order in each execution", "why_tests_cant": "That the removed edges never influence a later answer, loop check or cache has to hold for every sequence of later calls; a test can compare only some of them.", "anchors": ["pkg/dag/dag.go:112-157", "pkg/dag/dag.go:298-426", "pkg/dag/dag.go:212-257", "pkg/dag/dag.go:546-580"]}
{"id": "C88", "title": "What is missing can be put back: copies and undo through the API", "statement": "If one graph is a part of another, adding the missing vertices and then the missing edges, in whatever order, succeeds with every call and makes the graphs the same. So a client that asks for the vertices and the children of each of them can copy a graph into a fresh one, and a client that has asked for the parents and children of a vertex can undo its deletion; no order of the AddEdge calls runs into ErrEdgeLoop or ErrEdgeDuplicate.", "quantifier": "every key type with decidable equality and a zero value, every vertex payload, all pairs of histories whose graphs are part of each other; all orders of the missing vertices and edges; every map-iteration order in each execution", "why_tests_cant": "The number of orders grows with the factorial of the number of edges, each with other caches in between; a test tries a few.", "anchors": ["pkg/dag/dag.go:34-51", "pkg/dag/dag.go:64-157", "pkg/dag/dag.go:253-295"]}
{"id": "C89", "title": "Deletions can be done in any order", "statement": "What is left after a sequence of DeleteVertex and DeleteEdge calls depends only on which calls were made, not on their order, on repetitions, or on whether they succeeded. If each call is made once and names something that is there, every call succeeds, except that an edge may be gone already together with one of its ends (reported as ErrEdgeSourceIDNotFound or ErrEdgeTargetIDNotFound); if edges are deleted before vertices every call succeeds. DeleteVertex leaves the same graph as deleting any of its edges first and then the vertex.", "quantifier": "every key type with decidable equality and a zero value, every vertex payload, every state reached by a history, all sequences of deletions and all their orders; every map-iteration order in each execution", "why_tests_cant": "The orders of n deletions are n! many and each leaves other caches on the way; a test can compare a few.", "anchors": ["pkg/dag/dag.go:64-110", "pkg/dag/dag.go:179-209", "pkg/dag/dag.go:603-635"]}
{"id": "C90", "title": "Formatting, JSON, cloning and parents do not disturb each other", "statement": "A parsed document that is written as JSON and read back is formatted to the same text as before, although its numbers can have become other numbers (their sources survive); this holds within the limits of C66: JSON of depth at most 10000 and numbers with exponents of 2 up to 2^23. A clone has the same JSON text as the original. UpdateParentRefs changes neither the JSON text nor the formatted text.", "quantifier": "every text that is parsed, within the limits of C66 (first part); every document, parsed or not, and every allocator state (clones, parents); every way to print numbers without a source", "why_tests_cant": "It has to hold for every kind of node in every position, with every combination of omitted fields; a field that is formatted but not written to JSON shows only in documents that use it.", "anchors": ["pkg/etx/ast.go:40-84", "pkg/etx/value.go:154-208", "pkg/etx/parser.go:58-64"]}
{"id": "C91", "title": "Without deletions a graph only grows, and refusals are final", "statement": "As long as nothing is deleted, all vertices keep their payloads and all their descendants, whatever is added or reduced in between; as long as nothing is added, no vertex and no descendant comes up that was not there. An edge that AddEdge refused with ErrEdgeLoop stays refused with ErrEdgeLoop until something is deleted, and after AddEdge(s,t) succeeded AddEdge(t,s) returns ErrEdgeLoop until something is deleted, also if a reduction has removed the edge.", "quantifier": "every key type with decidable equality and a zero value, every vertex payload, every state reached by a history, every sequence of further calls without deletions (or additions); every map-iteration order in each execution", "why_tests_cant": "The loop check reads caches that every call in between may fill, flush or change; that it never forgets a path has to hold for every sequence of calls.", "anchors": ["pkg/dag/dag.go:34-51", "pkg/dag/dag.go:64-157", "pkg/dag/dag.go:179-209", "pkg/dag/dag.go:307-405", "pkg/dag/dag.go:546-580"]}
{"id": "C92", "title": "Calls can be repeated, and the calls that succeeded tell the graph", "statement": "Making any call a second time does not change the graph any more, and the second result says whether the first call succeeded: AddVertex then returns ErrVertexDuplicate, DeleteVertex ErrVertexNotFound, AddEdge ErrEdgeDuplicate, DeleteEdge ErrEdgeNotFound; a call that failed fails again with the same error. A journal of the changing calls that succeeded is enough to get the graph again: replayed from the same graph, all of them succeed again and the result is the same graph, so that queries and failed calls leave no trace.", "quantifier": "every key type with decidable equality and a zero value, every vertex payload, every state reached by a history, every call, every sequence of further calls; every map-iteration order in each execution", "why_tests_cant": "A failing call may already have changed an edge map or a cache before it returns its error; that nothing of this can be seen has to hold for every call, in every state, and for every sequence of later calls.", "anchors": ["pkg/dag/dag.go:34-51", "pkg/dag/dag.go:64-157", "pkg/dag/dag.go:179-209", "pkg/dag/dag.go:546-580", "pkg/dag/errors.go:7-19"]}
{"id": "C93", "title": "The numbers of vertices, edges, roots, leaves and relatives fit together", "statement": "If GetOrder returns n and GetSize m, then m <= n(n-1)/2; n <= m + number of roots and n <= m + number of leaves; the numbers of ancestors and descendants of a vertex and the vertex itself add up to at most n. ReduceTransitively leaves n, the roots and the leaves as they are and does not increase m.", "quantifier": "every key type with decidable equality and a zero value, every vertex payload, every state reached by a history; every map-iteration order in each call", "why_tests_cant": "The numbers come from five different maps and two caches that are kept up to date separately; that they never contradict each other depends on acyclicity and on the maps agreeing after every history.", "anchors": ["pkg/dag/dag.go:212-271", "pkg/dag/dag.go:289-405", "pkg/dag/dag.go:546-580"]}
{"id": "C94", "title": "Ordered traversals go level by level and never jump", "statement": "For every n the list of GetOrderedDescendants(id) begins with exactly the vertices that 1 to n edges reach, and the others follow; so its first entries are the children of id, as many as GetChildren(id) returns. Every entry is a child of id or of an entry before it. The same for GetOrderedAncestors with parents. What the consumer of a walker has received at any time, also when it stops the walker early, is whole but for its last level: before anything further away than n edges all that n edges reach has been received.", "quantifier": "every key type with decidable equality and a zero value, every vertex payload, every state reached by a history, every id, every n, every split of the list; every schedule of the walker and its consumer; every map-iteration order in each call", "why_tests_cant": "The order within a level depends on map iteration; that a prefix of the list is nevertheless a set given by the graph alone, in every graph and for every order, is no matter of sample graphs.", "anchors": ["pkg/dag/dag.go:334-360", "pkg/dag/dag.go:407-427", "pkg/dag/dag.go:446-484", "pkg/dag/dag.go:505-544"]}
{"id": "C95", "title": "A vertex can be replaced by another one through the API", "statement": "A client that adds a vertex with a new id and any payload, adds an edge from each of GetParents(k) to it and from it to each of GetChildren(k), in whatever order, and then calls DeleteVertex(k), succeeds with every call; the graph is then the old one with the new vertex in the place of k, and ancestors and descendants are the same up to the new id.", "quantifier": "every key type with decidable equality and a zero value, every vertex payload, every state reached by a history, every known id k, every new non-zero id, every order of the edges; every map-iteration order in each execution", "why_tests_cant": "In between, the old and the new vertex are in the graph with the same relatives; that no AddEdge is then refused as a loop, whatever was remembered about the relatives, has to hold for every graph and every order.", "anchors": ["pkg/dag/dag.go:34-51", "pkg/dag/dag.go:64-157", "pkg/dag/dag.go:258-288"]}
{"id": "C96", "title": "A vertex can be taken out without cutting the paths through it", "statement": "A client that adds an edge from each of GetParents(k) to each of GetChildren(k), in whatever order and possibly more than once, is never refused except that an edge may be there already (ErrEdgeDuplicate); after DeleteVertex(k) then, all other vertices have their payloads and exactly the ancestors and descendants they had before, without k.", "quantifier": "every key type with decidable equality and a zero value, every vertex payload, every state reached by a history, every known id k, every order of the edges; every map-iteration order in each execution", "why_tests_cant": "Whether a path of any length through k survives, and whether AddEdge takes a shortcut for a loop, depends on the whole graph and on what has been remembered about it.", "anchors": ["pkg/dag/dag.go:64-157", "pkg/dag/dag.go:258-289", "pkg/dag/dag.go:307-405"]}
{"id": "C97", "title": "Which edges can be added together", "statement": "AddEdge calls for a list of edges between known vertices all succeed (or return ErrEdgeDuplicate) exactly if these edges and the edges of the graph together have no cycle; the graph then has exactly all of these edges. So the order and repetitions do not matter: if all are accepted in one order, they are in every other, with the same graph as result. If some are refused, the graph still has all its old edges and no others than those of the list, and its vertices are unchanged; which ones are refused depends on the order.", "quantifier": "every key type with decidable equality and a zero value, every vertex payload, every state reached by a history, every finite list of edges between known vertices; every map-iteration order in each execution", "why_tests_cant": "AddEdge decides edge by edge, from caches that the earlier calls have changed; that these decisions together are the same as asking once for a cycle in the union holds for no reason visible in a sample of lists.", "anchors": ["pkg/dag/dag.go:108-157", "pkg/dag/dag.go:307-332", "pkg/dag/dag.go:379-405"]}
{"id": "C98", "title": "Counting relatives sorts a graph topologically", "statement": "If y is a descendant of x, GetAncestors(y) returns more entries than GetAncestors(x) and GetDescendants(y) fewer than GetDescendants(x). So a client that sorts vertices by the numbers of their ancestors has a topological order: no vertex comes before one of its ancestors.", "quantifier": "every key type with decidable equality and a zero value, every vertex payload, every state reached by a history, all known ids, every list sorted by these numbers; every map-iteration order in each call", "why_tests_cant": "One stale or missing entry in one remembered answer, after any history, breaks the order; a sample of graphs says nothing about the others.", "anchors": ["pkg/dag/dag.go:291-332", "pkg/dag/dag.go:362-405"]}
{"id": "C99", "title": "A graph can be put below another one", "statement": "If two graphs have no ids in common, a client can add all vertices and edges of the second to the first, together with any edges from vertices of the first to vertices of the second, the edges in whatever order: every call succeeds; the result has exactly the vertices (with payloads) and edges of both and the new edges; and between vertices of the same graph the ancestor relation is what it was.", "quantifier": "every key type with decidable equality and a zero value, every vertex payload, any two states reached by histories with disjoint ids, every list of connecting edges, every order of the edges; every map-iteration order in each execution", "why_tests_cant": "That no edge is taken for a loop, whatever the two graphs look like and in whatever order their edges come, is a statement about all pairs of graphs.", "anchors": ["pkg/dag/dag.go:34-51", "pkg/dag/dag.go:108-157", "pkg/dag/dag.go:307-405"]}

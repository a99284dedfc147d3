{"id": "C01", "title": "Packing a node sequence loses nothing", "statement": "Unpacking the storage produced by packing a sequence of nodes returns exactly the original sequence: same nesting, same order, same text and same match types.", "quantifier": "every finite sequence of nodes, with any nesting depth, any mix of node kinds, any texts and match types", "why_tests_cant": "Trees are unboundedly deep and wide; index bookkeeping bugs show up only for particular interleavings of node kinds and nesting.", "anchors": ["r_u_sure/tree_structure/packed_sequence_nodes.py: pack, unpack"]}
{"id": "C02", "title": "Preorder indices identify nodes", "statement": "In a packed storage, the entry at position i of the preorder traversal carries preorder index i, the traversal lists every node of the tree exactly once in document order (parents before children), and each entry's category and index-in-category look up exactly that node's own text/match type.", "quantifier": "every node sequence and every index below the number of nodes", "why_tests_cant": "All decision variables are keyed by preorder index; an off-by-one for some shape of tree would silently misattribute decisions.", "anchors": ["r_u_sure/tree_structure/packed_sequence_nodes.py: pack, PackedSequenceNodeStorage"]}
{"id": "C03", "title": "Path lookups and preorder indices are inverse", "statement": "For each node of a packed storage, following the node path reported for its preorder index returns that same node; and the paths reported are exactly the child-index paths of the tree. Paths that do not exist in the tree are rejected with an error.", "quantifier": "every node sequence, every valid preorder index, every path", "why_tests_cant": "Requires parent/offset tables to be right at every depth.", "anchors": ["r_u_sure/tree_structure/packed_sequence_nodes.py: node_id_from_node_path, path_from_preorder_index, subsequence_from_node_path", "r_u_sure/tree_structure/sequence_nodes.py: NestedNodePath"]}
{"id": "C04", "title": "Packed storage reports the same text and depth as the tree", "statement": "Rendering the text of the packed root sequence, or of any packed node, gives the same text as rendering the unpacked tree; the recorded depth is one more than the deepest level at which a node occurs (1 for an empty sequence), hence equals compute_depth of the tree whenever no group is empty.", "quantifier": "every node sequence", "why_tests_cant": "Universally quantified over trees.", "anchors": ["r_u_sure/tree_structure/packed_sequence_nodes.py: render_text_contents_of_node, render_text_contents_of_list, pack", "r_u_sure/tree_structure/sequence_node_helpers.py: compute_depth, render_text_contents"]}
{"id": "C05", "title": "In-order traversal is a faithful bracketed linearisation", "statement": "The in-order traversal of a packed storage visits each leaf once and each group exactly twice (before and after its children), properly nested, in document order; stripping decorations removes exactly the decoration leaves and nothing else.", "quantifier": "every node sequence, with and without decoration stripping", "why_tests_cant": "Implemented with an explicit stack; correctness depends on arbitrary nesting.", "anchors": ["r_u_sure/tree_structure/packed_sequence_nodes.py: in_order_traversal"]}
{"id": "C06", "title": "Tree transformations never change the program text", "statement": "Flattening groups, collapsing singleton groups, inserting early-exit markers, inserting region markers (around subsequences or single nodes) and stripping decision markers all leave the rendered text unchanged.", "quantifier": "every node sequence and every option/filter value of the transforms", "why_tests_cant": "A user relies on this for all code; tests only sample a few snippets.", "anchors": ["r_u_sure/tree_structure/transforms.py: flatten_groups, flatten_singleton_groups, insert_early_exit, insert_region_options_around_subsequences, insert_region_options_around_single_nodes, strip_decision_nodes", "r_u_sure/tree_structure/sequence_node_helpers.py: render_text_contents"]}
{"id": "C07", "title": "Stripping decision nodes undoes decision insertion", "statement": "For a sequence without decision nodes, inserting early exits and/or region options around subsequences (in any order and with any options) and then stripping decision nodes returns the original sequence. Stripping is idempotent and its result contains no decision node at any depth.", "quantifier": "every node sequence and every option/filter value", "why_tests_cant": "Round trip over unbounded trees.", "anchors": ["r_u_sure/tree_structure/transforms.py: insert_early_exit, insert_region_options_around_subsequences, strip_decision_nodes"]}
{"id": "C08", "title": "Collapsing singleton groups is reversible", "statement": "Collapsing singleton groups keeps enough information to reconstruct the tree: two sequences with the same collapsed form are equal, and expanding the tuple match types gives back the original.", "quantifier": "every pair of node sequences", "why_tests_cant": "Injectivity is a statement about all pairs of inputs.", "anchors": ["r_u_sure/tree_structure/transforms.py: flatten_singleton_groups, flatten_singleton_groups_for_node"]}
{"id": "C09", "title": "Truncating the context removes exactly the first n characters", "statement": "Truncating a sequence at character offset n with 0 <= n <= length leaves a sequence whose text is the original text without its first n characters; when n exceeds the length the result is empty. The result keeps a suffix of the original leaves, with at most its first leaf shortened, and all nodes after the cut unchanged.", "quantifier": "every node sequence and every offset", "why_tests_cant": "Stateful generator across recursion; boundaries at token edges and empty tokens vary without bound.", "anchors": ["r_u_sure/tree_structure/transforms.py: truncate_prefix_at_offset"]}
{"id": "C10", "title": "Region options allow bracketing any run of siblings", "statement": "After inserting region options around subsequences, each token or group accepted by the filter is immediately preceded by a region start (then, when empty regions are allowed, an end) and immediately followed by a region end, at every level; nodes refused by the filter get none; so any contiguous run of siblings beginning and ending with accepted nodes can be enclosed by one region.", "quantifier": "every node sequence, filter and option", "why_tests_cant": "Quantifies over all trees and filters.", "anchors": ["r_u_sure/tree_structure/transforms.py: insert_region_options_around_subsequences"]}
{"id": "C11", "title": "Early-exit markers are placed after every token and group", "statement": "Inserting early exits puts one marker after each token and group (recursively when allowed within groups), one at the very start iff allowed at start, none at the start of a group, and nothing else changes.", "quantifier": "every node sequence and option values", "why_tests_cant": "Quantifies over all trees.", "anchors": ["r_u_sure/tree_structure/transforms.py: insert_early_exit"]}
{"id": "C12", "title": "Walking a tree yields each node with its true path", "statement": "Walking a nested sequence yields, in document order, each leaf (and each group before/after its children if requested) together with a path that leads to exactly that node from the root.", "quantifier": "every node sequence, every combination of visit flags, every prefix path", "why_tests_cant": "Recursion over unbounded trees.", "anchors": ["r_u_sure/tree_structure/sequence_node_helpers.py: walk_with_paths", "r_u_sure/tree_structure/sequence_nodes.py: NestedNodePath"]}
{"id": "C13", "title": "Token log-probabilities are aligned without loss", "statement": "Aligning model tokens with a prototype succeeds iff the prototype's text is a prefix of the text spelled by the model tokens (equal to it when all tokens must be consumed), otherwise an error is raised; on success there is an entry exactly for each token node's preorder index, and it is the sum, in order, of the log probabilities of all model tokens that share a character with that node's character span or are empty and lie inside it. Nodes without text take the empty model tokens at their offset, one each, or else get the log probability of the next model token without using it up. Listing the aligned tokens again spells the prototype.", "quantifier": "every list of model tokens and every prototype", "why_tests_cant": "Splitting of spans depends on relative boundaries of two arbitrary tokenisations.", "anchors": ["r_u_sure/tree_structure/token_prob_align.py: SpanProbHelper, align_token_log_probs, flatten_token_log_probs_from_parsed"]}
{"id": "C14", "title": "Subtokenisation is lossless", "statement": "Splitting a string into simple tokens gives nonempty tokens whose concatenation is the original string; every token is of a single character class or is one capital followed by lower-case letters; whitespace is isolated except for runs of one repeated blank or tab of at most 20; and neighbouring tokens are only ever separated for one of the documented reasons.", "quantifier": "every string", "why_tests_cant": "All strings.", "anchors": ["r_u_sure/parsing/subtokenizer.py: code_to_tokens_simple_lossless"]}
{"id": "C15", "title": "Error correction always yields a balanced token stream", "statement": "Prepending the computed correcting prefix and appending the computed correcting suffix to any token-type stream yields a balanced stream (every bracket is closed by its closer and no closer is outside of all brackets; closers of a different kind than the surrounding bracket are tolerated as plain tokens); the correction is empty exactly for streams that already are; only openers are prepended and only closers appended.", "quantifier": "every token stream and every bracket table with distinct closers in which no token is both opener and closer", "why_tests_cant": "Streams are arbitrary, e.g. truncated model output.", "anchors": ["r_u_sure/parsing/pseudo_parser/stack_parser.py: PseudoParser.error_correcting_prefix_and_suffix, stack_based_bracket_match"]}
{"id": "C16", "title": "Bracket matching gives a tree that covers the tokens", "statement": "On any error-corrected token stream, matching succeeds, the parse tree's leaves, in order, tile the token positions without gaps or overlaps (every token belongs to exactly one leaf), each inner node's span is the union of its children's spans, and each bracket node pairs an opener with its closer. With error tolerance matching never fails; without it, exactly the streams are accepted that are balanced apart from closers outside of all brackets.", "quantifier": "every token stream", "why_tests_cant": "Positions depend on unbounded nesting.", "anchors": ["r_u_sure/parsing/pseudo_parser/stack_parser.py: stack_based_bracket_match, valid_parse_ranges"]}
{"id": "C17", "title": "Splitting a parse keeps its leaves", "statement": "Grouping children by split tokens only adds inner grouping nodes: the left-to-right sequence of leaf spans is unchanged, dropping the new nodes gives back the tree, and all spans stay valid. Groups end with their only splitter (except possibly the last one), no splitter outside of unsplittable brackets is left over, and splitting never fails. Moving each group that contains a bracket pair of a given kind under its left neighbour succeeds if no two neighbours have to be moved.", "quantifier": "every parse tree and split configuration", "why_tests_cant": "Arbitrary trees.", "anchors": ["r_u_sure/parsing/pseudo_parser/stack_parser.py: split_parse"]}
{"id": "C18", "title": "Python indent/dedent desugaring is balanced and only inserts markers", "statement": "Inserting indent/dedent markers into a balanced, newline-terminated token stream never fails. Removing the markers gives back the original tokens. Indents and dedents nest, with each other and with the brackets. At each line that is not blank the number of open indents is the line's leading white space divided by the unit. Indents stand at the start of lines, dedents directly before newlines. Line breaks within brackets do not count.", "quantifier": "every balanced newline-terminated token stream, bracket table and positive indentation width", "why_tests_cant": "Indentation sequences are arbitrary.", "anchors": ["r_u_sure/parsing/pseudo_parser/stack_parser.py: python_indent_dedent_desugar"]}
{"id": "C19", "title": "Parsing preserves the program text", "statement": "Converting a pseudo-parse tree to a node sequence yields a tree whose rendered text is the concatenation of the raw tokens covered; if the node boundaries do not tile the tokens an error is raised instead.", "quantifier": "every parse tree and raw token list", "why_tests_cant": "All programs.", "anchors": ["r_u_sure/parsing/sequence_from_pseudo_parse.py: pseudo_parse_node_to_nested_sequence_node, subtokenize_token"]}
{"id": "C20", "title": "The token codec is injective", "statement": "Encoding texts one after the other with the codec of any supported language never fails; the tokens of each text are non-empty and concatenate to it; decoding an encoded stream with the codec at any later time returns its tokens and types; tokens and the numbers 1 to n correspond one to one, and encoding more texts changes nothing about known tokens. Adding distinct tokens numbers them 1, 2, ...; adding a token again fails.", "quantifier": "every supported language, every history of encoded texts or added tokens", "why_tests_cant": "History dependent; a duplicate registration can shift later indices.", "anchors": ["r_u_sure/parsing/pseudo_parser/stack_parser.py: RegexCodec"]}
{"id": "C21", "title": "Inferred indentation divides every indent", "statement": "The inferred number of spaces per indent divides the leading-space count of every indented line considered, and is the last such candidate in the candidate list; the default is used only if none fits.", "quantifier": "every source text and candidate list", "why_tests_cant": "All texts.", "anchors": ["r_u_sure/parsing/pseudo_parser/utilities.py: infer_python_spaces_per_indent"]}
{"id": "C22", "title": "The incremental DAG builder only accepts topologically ordered edges", "statement": "After any history of successful edge additions (without self-loop edges) the edge list is in topological order: no edge leads into a state which already had an outgoing edge earlier in the list. A violating edge raises an error and leaves the DAG unchanged. (Self-loops slip through the check: documented deviation.)", "quantifier": "every history of add-edge calls", "why_tests_cant": "Histories are unbounded.", "anchors": ["r_u_sure/decision_diagrams/gated_state_dag.py: PartialStateDAG, partial_state_dag_add_edge, partial_state_dag_finish"]}
{"id": "C23", "title": "Pruning to reachable states preserves every solution", "statement": "Pruning keeps exactly the finite-cost edges lying on some finite-cost path from the initial to the final state; so it preserves the set of complete finite-cost paths with costs, assignments and infos.", "quantifier": "every topologically ordered DAG", "why_tests_cant": "Set of paths is exponential and input dependent.", "anchors": ["r_u_sure/decision_diagrams/gated_state_dag.py: compute_reachable_states, prune_to_reachable"]}
{"id": "C24", "title": "Compiled and interpreted pruning agree", "statement": "The pruning logic used under JIT compilation and the pure Python one return the same DAG for every topologically ordered DAG.", "quantifier": "every topologically ordered DAG", "why_tests_cant": "The two implementations use different criteria; agreement is universally quantified.", "anchors": ["r_u_sure/decision_diagrams/gated_state_dag.py: prune_to_reachable, prune_to_reachable_jit"]}
{"id": "C25", "title": "Rewriting states as integers is an isomorphism on the pruned DAG", "statement": "Rewriting states to integers gives a DAG that is the pruned DAG with states renamed by an injective map to 0..n-1, same edges in the same order; it raises an error iff there is no finite path. (Holds when no state is evicted and re-created in the scratch hash table; otherwise one state can receive two integers: documented deviation.)", "quantifier": "every topologically ordered DAG, every hash function and scratch table size", "why_tests_cant": "Depends on hash collisions.", "anchors": ["r_u_sure/decision_diagrams/gated_state_dag.py: prune_unreachable_and_rewrite_states"]}
{"id": "C26", "title": "Packing a DAG preserves its solutions", "statement": "Complete paths of the packed DAG correspond to complete finite-cost paths of the original DAG: every original path has a packed path with equal total cost and the same assignments, with unassigned variables given the missing value; and every packed path comes from an original path in that way.", "quantifier": "every DAG in topological order whose variable assignments respect the key ordering", "why_tests_cant": "Exponentially many paths; state duplication by tag must be right for all.", "anchors": ["r_u_sure/decision_diagrams/packed_dags.py: convert_dag_to_packed"]}
{"id": "C27", "title": "Every packed path assigns every variable exactly once in order", "statement": "On each complete path of a packed DAG, every variable is assigned exactly one value and variables are assigned in sorted key order.", "quantifier": "every accepted DAG and every complete path", "why_tests_cant": "Universal over paths.", "anchors": ["r_u_sure/decision_diagrams/packed_dags.py: convert_dag_to_packed, PackedStateDAG"]}
{"id": "C28", "title": "Packing rejects ordering violations", "statement": "If a finite-cost reachable path assigns variables out of the sorted key order (or a variable twice), conversion raises an error; otherwise it does not raise that error.", "quantifier": "every DAG", "why_tests_cant": "Universal over paths.", "anchors": ["r_u_sure/decision_diagrams/packed_dags.py: convert_dag_to_packed"]}
{"id": "C29", "title": "Incremental shortest-path tables are always right", "statement": "After any interleaving of penalty changes and partial table updates, each table entry that is marked valid equals the true minimum, over all paths from the start (resp. to the end), of edge costs plus current penalties (infinity if there is no such path).", "quantifier": "every packed DAG, every history of penalty updates, partial updates and queries", "why_tests_cant": "The cache invalidation is history dependent.", "anchors": ["r_u_sure/decision_diagrams/packed_dags.py: PenalizedShortestPrefixSuffixTables, update_prefixes_up_to, update_suffixes_up_to, set_penalties, make_fully_valid"]}
{"id": "C30", "title": "Min-marginals are exact", "statement": "The min-marginal of (variable, value) equals the minimum penalised cost over complete paths assigning that value to that variable, and infinity if there is none, whatever the cache state.", "quantifier": "every packed DAG, penalty matrix, variable, value and cache history", "why_tests_cant": "Exponentially many paths and histories.", "anchors": ["r_u_sure/decision_diagrams/packed_dags.py: compute_min_marginals_for_variable, compute_all_min_marginals"]}
{"id": "C31", "title": "All ways of computing the minimal cost agree", "statement": "The three strategies (at start, at end, from the middle) return the same number: the minimum penalised cost of a complete path.", "quantifier": "every packed DAG with at least one variable, every penalty matrix and cache history", "why_tests_cant": "Universal over histories.", "anchors": ["r_u_sure/decision_diagrams/packed_dags.py: compute_minimal_cost, MinimalCostStrategy"]}
{"id": "C32", "title": "Extracted path is optimal", "statement": "The extracted path is a real complete path whose total penalised cost is the minimal cost, and the reported assignments are exactly those the path makes.", "quantifier": "every packed DAG with finite minimal cost and every penalty matrix", "why_tests_cant": "Greedy walk must be right for all tie-breaking situations.", "anchors": ["r_u_sure/decision_diagrams/packed_dags.py: extract_minimal_cost_path_and_assignments"]}
{"id": "C33", "title": "Constrained best path obeys its constraints", "statement": "The constrained best path agrees with every given assignment and has minimal cost among all paths that do; if there is no such path no complete path is returned.", "quantifier": "every packed DAG and constraint dictionary", "why_tests_cant": "Universal.", "anchors": ["r_u_sure/decision_diagrams/packed_dags.py: constrained_best_path"]}
{"id": "C34", "title": "Scaling costs scales every solution", "statement": "Scaling a packed DAG by a positive factor multiplies every path cost and the minimal cost by the factor and changes nothing else.", "quantifier": "every packed DAG and positive factor", "why_tests_cant": "Universal.", "anchors": ["r_u_sure/decision_diagrams/packed_dags.py: scale_packed_dag_costs"]}
{"id": "C35", "title": "A system indexes variables consistently", "statement": "Building a system from packed DAGs gives a sorted duplicate-free union of variables; each DAG's local variable maps to the system variable with the same key, and absent variables map to -1; mismatching value lists or an empty list of DAGs are rejected.", "quantifier": "every list of DAGs", "why_tests_cant": "Index maps over arbitrary overlapping key sets.", "anchors": ["r_u_sure/decision_diagrams/consistent_path_dual_solver.py: make_system"]}
{"id": "C36", "title": "The dual value is a lower bound on every consistent solution", "statement": "In every state reachable by solver operations, the sum of the subproblems' penalised minimal costs never exceeds the total true cost of any joint assignment on which all subproblems agree (including the extra unary costs); per-value system min-marginals bound the assignments with that value.", "quantifier": "every system, every history of solver operations, every joint assignment", "why_tests_cant": "Weak duality is a statement about all assignments and all penalty states.", "anchors": ["r_u_sure/decision_diagrams/consistent_path_dual_solver.py: min_marginal_average, system_min_marginals, constrain_system, break_symmetry_randomly"]}
{"id": "C37", "title": "Averaging never lowers the bound", "statement": "One min-marginal averaging step never decreases the dual value, and the value it returns is the dual value after the step.", "quantifier": "every system state, variable", "why_tests_cant": "Monotonicity over all penalty states.", "anchors": ["r_u_sure/decision_diagrams/consistent_path_dual_solver.py: min_marginal_average, solve_system_with_sweeps"]}
{"id": "C38", "title": "Penalties stay a reparameterisation", "statement": "In every reachable state the sum over subproblems of the penalties for a (variable,value) equals the extra unary cost of that pair, for each pair that is still feasible; so solving never changes the cost of any joint assignment.", "quantifier": "every history of averaging, constraining and symmetry-breaking operations", "why_tests_cant": "Invariant over unbounded histories.", "anchors": ["r_u_sure/decision_diagrams/consistent_path_dual_solver.py: min_marginal_average, constrain_system, break_symmetry_randomly"]}
{"id": "C39", "title": "Greedy extraction returns a consistent assignment with its true cost", "statement": "Greedy extraction returns a full assignment together with exactly the total cost of that assignment, which is at least the dual bound, and leaves the input system unchanged.", "quantifier": "every system state and direction", "why_tests_cant": "Universal over states.", "anchors": ["r_u_sure/decision_diagrams/consistent_path_dual_solver.py: greedy_extract, assignments_from_assignment_vector"]}
{"id": "C40", "title": "An equal bound certifies optimality", "statement": "If the extracted assignment's cost equals the dual bound then no joint assignment has a lower cost.", "quantifier": "every system and every state in which bound and cost coincide", "why_tests_cant": "Global optimality.", "anchors": ["r_u_sure/decision_diagrams/consistent_path_dual_solver.py: solve_system_with_sweeps, greedy_extract"]}
{"id": "C41", "title": "The sweep solver stops and returns a non-worse bound", "statement": "The sweep solver's returned objective is never lower than the initial dual value; objective log is non-decreasing; if each pair of sweeps must improve by a positive tolerance and the problem is bounded, it terminates.", "quantifier": "every system with finite optimum, every tolerance > 0", "why_tests_cant": "Termination and monotonicity over all runs.", "anchors": ["r_u_sure/decision_diagrams/consistent_path_dual_solver.py: solve_system_with_sweeps"]}
{"id": "C42", "title": "The constraint DAG accepts exactly the well-formed region choices", "statement": "A set of decisions is accepted by the constraint DAG iff regions start and end among children of the same group, do not overlap or nest, all started regions end (unless the early exit is taken), nodes are flagged in-region iff they lie in a region, and at most one early exit is taken after which everything is not applicable.", "quantifier": "every prototype tree and every decision assignment", "why_tests_cant": "Both directions quantify over all trees and all assignments.", "anchors": ["r_u_sure/edit_distance_utility/constraint_dags.py: make_constraint_dag_builder, construct_constraint_dag"]}
{"id": "C43", "title": "Region extraction never fails on accepted decisions", "statement": "For decisions accepted by the constraint DAG, extracting the annotated sequence raises no error, yields the tokens of the prototype in order up to the early exit, and marks a token as in-region exactly when its in-region decision is true.", "quantifier": "every prototype and every accepted assignment", "why_tests_cant": "Depends on the interaction of two components for all trees.", "anchors": ["r_u_sure/edit_distance_utility/region_decisions.py: extract_sequence_with_regions", "r_u_sure/edit_distance_utility/constraint_dags.py"]}
{"id": "C44", "title": "Region HTML is balanced and shows the same text", "statement": "The region HTML for any assignment on which extraction succeeds has balanced, non-nested region spans inside one root span, and its visible text is the escaped concatenation of the extracted tokens.", "quantifier": "every prototype and assignment", "why_tests_cant": "Universal.", "anchors": ["r_u_sure/edit_distance_utility/region_decisions.py: render_regions_to_html"]}
{"id": "C45", "title": "Decision keys appear in increasing order on every path", "statement": "In constraint, edit and selection DAGs, the decision keys along every path are strictly increasing in preorder index, so packing never rejects them; and their edges are added in topological order.", "quantifier": "every prototype (and target)", "why_tests_cant": "Universal over trees and paths.", "anchors": ["r_u_sure/edit_distance_utility/constraint_dags.py", "r_u_sure/edit_distance_utility/edit_dags.py", "r_u_sure/edit_distance_utility/part_selection_dags.py", "r_u_sure/decision_diagrams/packed_dags.py: convert_dag_to_packed"]}
{"id": "C46", "title": "Edit DAG paths are exactly edit scripts", "statement": "Complete paths of the edit DAG correspond exactly to scripts that transform the prototype (up to an early exit) into the target by keeping, deleting and inserting tokens with group nesting respected; every prototype token is kept or deleted exactly once and every target token kept or inserted exactly once (without early exit).", "quantifier": "every prototype/target pair and every path", "why_tests_cant": "All pairs of trees.", "anchors": ["r_u_sure/edit_distance_utility/edit_dags.py: make_edit_dag_builder, construct_edit_dag"]}
{"id": "C47", "title": "Edit DAG cost is the documented utility", "statement": "The cost of a path equals the sum of per-character delete/insert costs minus match utilities at the confidence of each token, plus start-editing costs, plus one region cost per low-confidence region started.", "quantifier": "every prototype/target pair, every parameter set and path", "why_tests_cant": "All inputs.", "anchors": ["r_u_sure/edit_distance_utility/edit_dags.py: construct_edit_dag, token_node_utility_from_parameters"]}
{"id": "C48", "title": "Perfect prediction with no regions has the best possible per-token cost", "statement": "If the target equals the prototype without decision nodes, the edit DAG has a path with no region and no edits whose cost is minus the high-confidence utility of all tokens.", "quantifier": "every prototype", "why_tests_cant": "All trees.", "anchors": ["r_u_sure/edit_distance_utility/edit_dags.py: construct_edit_dag"]}
{"id": "C49", "title": "Derived region costs realise the requested precision", "statement": "With the derived parameters, for a token of any length that is correct with probability q, the expected utility of a low-confidence region is higher, equal or lower than high confidence iff q is below, equal to or above the effective precision (sensitivity < 1, nonnegative start cost, positive length or cost).", "quantifier": "all real/rational precisions, sensitivities, costs, lengths and probabilities in range", "why_tests_cant": "Continuum of parameters.", "anchors": ["r_u_sure/wrappers/uncertainty_regions_wrapper.py: derive_uncertainty_region_costs"]}
{"id": "C50", "title": "Selection DAG paths match selected parts contiguously", "statement": "Every complete path of the part-selection DAG selects disjoint spans of the prototype; each matched span equals (token by token, group marker by group marker) a contiguous part of the target, matched parts occur in the same order and without overlap in the target; utility is credited only for matched tokens and delete cost only for unmatched selected tokens.", "quantifier": "every prototype/target pair and path", "why_tests_cant": "All pairs of trees.", "anchors": ["r_u_sure/edit_distance_utility/part_selection_dags.py: make_selection_dag_builder, _construct_jitted"]}
{"id": "C51", "title": "Call extraction always yields well-shaped call groups", "statement": "Every call group built for the API-call task starts with a region start, ends with start-call token, region end, argument token, closing token, region end; so baseline construction's structural assertions never fail and each baseline opens and closes one region per call.", "quantifier": "every parsed program", "why_tests_cant": "All programs.", "anchors": ["r_u_sure/wrappers/call_sequence_wrapper.py: _extract_all_from, _make_callseq_tree, build_baseline_assignments"]}
{"id": "C52", "title": "Prefix baselines exit at the intended place", "statement": "A baseline for prefix truncation exits at most once, at an early-exit marker of the prototype; markers before it are false, markers after it not applicable, an unknown exit index raises an error; the character-length baseline exits at the first marker after the character budget is reached, the probability baselines at the last marker before the first token below threshold (or the first marker after it if there is none before).", "quantifier": "every prototype, threshold and aligned log-probabilities", "why_tests_cant": "All prototypes.", "anchors": ["r_u_sure/wrappers/prefix_truncation_wrapper.py: PrefixByEditDistanceBaselineBuilder"]}
{"id": "C53", "title": "State lists contain every state once", "statement": "Listing the states of a DAG yields every state that an edge touches exactly once, in the order of first appearance in the edge list; in a pruned DAG with edges in topological order the initial state is first.", "quantifier": "every edge list", "why_tests_cant": "All graphs.", "anchors": ["r_u_sure/decision_diagrams/gated_state_dag.py: extract_state_list"]}
{"id": "C54", "title": "Pruning, renumbering and packing together preserve the problem", "statement": "Building a DAG, pruning it backward from the final state, renumbering and converting it to packed form yields a packed DAG whose minimal penalised path cost is that of the original DAG, for all penalties.", "quantifier": "every DAG accepted by the builder and the converter", "why_tests_cant": "Composition of components, all inputs.", "anchors": ["r_u_sure/decision_diagrams/gated_state_dag.py", "r_u_sure/decision_diagrams/packed_dags.py: convert_dag_to_packed"]}
{"id": "C55", "title": "Partial commitment never loses a certified optimum", "statement": "Partially committing to the best values only forbids values; joint solutions never get cheaper, a joint solution whose cost equals the dual bound keeps its cost (nonnegative strictness), and unless a partial assignment is reported no finite-cost joint solution changes its cost.", "quantifier": "every system reachable from make_system, every quantile outcome, strictness and tolerance", "why_tests_cant": "Any history of penalties.", "anchors": ["r_u_sure/decision_diagrams/consistent_path_dual_solver.py: partially_commit"]}
{"id": "C56", "title": "Constraining a system charges exactly the violated constraints", "statement": "Constraining a system adds the penalty once for each violated constraint and nothing otherwise; it fails exactly for unknown keys or values. Symmetry breaking adds the drawn noise of the chosen values.", "quantifier": "every system, constraint list and joint solution", "why_tests_cant": "All histories.", "anchors": ["r_u_sure/decision_diagrams/consistent_path_dual_solver.py: constrain_system, break_symmetry_randomly"]}
{"id": "C57", "title": "Every well-formed region choice is feasible in every edit DAG", "statement": "For every target without control nodes, every region and exit choice accepted by the constraint DAG of a prototype is the assignment of some complete path of the edit DAG of prototype and target, so the joint system of constraints and utilities always has a consistent finite-cost solution.", "quantifier": "every prototype, every target without control nodes, every well-formed region choice", "why_tests_cant": "All trees and choices.", "anchors": ["r_u_sure/edit_distance_utility/edit_dags.py: construct_edit_dag", "r_u_sure/edit_distance_utility/constraint_dags.py"]}
{"id": "C58", "title": "Every source file can be pseudo parsed, and the parse loses nothing", "statement": "For each supported language and every source text the parser returns without an error (Python: for every non-empty text and a positive indentation unit). The raw texts of the returned tokens concatenate to the source text; tokens added to balance brackets are openers in front and closers (and one newline) at the end, have empty raw text, and are added only if brackets are unbalanced; each token has the type its text determines; for Python, removing the indent and dedent markers gives the tokens back and the markers open at the start of each non-blank logical line count its indentation; the returned tree covers each token once in order, without its groups it is the bracket tree, and groups end at the language's splitters, with indented blocks joined to the line before them.", "quantifier": "every language, every text, every positive number of spaces per indent", "why_tests_cant": "All texts, including unbalanced and ill-formed ones.", "anchors": ["r_u_sure/parsing/pseudo_parser/stack_parser.py: PseudoParser.preset, pseudo_parse, parse_and_maybe_preprocess, _get_raw_desugared_tokens"]}
{"id": "C59", "title": "The system built from a prototype and targets prices exactly the well-formed suggestions", "statement": "`build_system` of the edit and call wrappers never fails for targets without control nodes and positive scale factors. Throughout solving, an assignment of all decisions has a consistent joint solution iff it describes well-formed regions, and then its minimal cost is the weighted sum over the targets of the cheapest edit script (or lookup) that makes these decisions. Solving ends; the dual value never exceeds the cost of any well-formed suggestion; greedy extraction always returns a well-formed suggestion with exactly its cost; if that cost does not exceed the dual value the suggestion is optimal.", "quantifier": "every prototype, every non-empty list of targets, all positive scale factors, utility parameters and solver histories", "why_tests_cant": "Exponentially many suggestions, unbounded numbers of targets, all solver schedules.", "anchors": ["r_u_sure/wrappers/edit_distance_wrapper_base.py: build_system", "r_u_sure/wrappers/call_sequence_wrapper.py: build_system", "r_u_sure/decision_diagrams/consistent_path_dual_solver.py: make_system, solve_system_with_sweeps, greedy_extract"]}
{"id": "C60", "title": "The reported costs of a suggestion are those of the cheapest edits that respect it", "statement": "`solution_info` accepts every dictionary that records the decisions of a well-formed suggestion (all of them, or all but the in-region flags), returns the annotated text of that suggestion, and reports for each target the price of the cheapest edit script (or lookup) among those that make the recorded decisions. For a dictionary with all decisions this is the cost the system was built from, so for equal scale factors the average over the samples equals the cost of extraction. Average, variance and the rank of the ground truth describe the finite costs. A dictionary with a decision the prototype does not have raises `KeyError`.", "quantifier": "every prototype, every list of targets without control nodes, every well-formed suggestion and every dictionary recording it", "why_tests_cant": "Minima over unboundedly many edit scripts, all suggestions, all dictionaries.", "anchors": ["r_u_sure/wrappers/edit_distance_wrapper_base.py: solution_info", "r_u_sure/wrappers/call_sequence_wrapper.py: solution_info", "r_u_sure/decision_diagrams/packed_dags.py: find_minimal_path"]}
{"id": "C61", "title": "Combining samples returns a suggestion with a certified bound, for all samples", "statement": "`combine` ends without an error for every context, every list of samples the parser accepts and every valid sample number, whatever the solver's clock does. The prototype has the text of the chosen sample and, without its markers, is the target made from it; the targets have the texts of the samples. If there are at least two decisions to make, the returned decisions are well-formed, complete and cost exactly the reported utility (the mean over the samples of the cheapest edits or lookups), no well-formed decisions cost less than the reported bound, and the text shown is a prefix of the sample (all of it if there are no early exits). `build_baselines` never fails; each prefix baseline shows a prefix of the model output and each call baseline shows the calls it should. Grouping the parts that are shown keeps every character with its flag.", "quantifier": "every language, context, list of samples, sample number, utility parameters, tolerance and clock; every model output with its log probabilities", "why_tests_cant": "Composition of parser, transformations, DAG construction, solver and extraction over all texts and schedules.", "anchors": ["r_u_sure/wrappers/demo_runner.py: DemoRunner.combine, build_baselines, get_extracted_parts", "r_u_sure/wrappers/edit_distance_wrapper_base.py: process_prototype_and_context, process_target"]}
{"id": "C62", "title": "What is shown of an edit sequence is faithful to both texts and to the cost", "statement": "For every complete path of an edit DAG the edits are grouped into maximal runs that are shown alike, without an error; the group costs, the printed total and the cost metrics each sum up to the cost of the path. What is shown as kept or deleted is exactly the text of the prototype (up to the exit, if one is taken), and what is shown as kept or inserted are the tokens of the target in order, with decorations of either side in between (so the text of the target up to white space). The HTML has one span per shown group whose classes tell the action and confidence, and reading it without tags gives the escaped texts. The metrics give for each action and confidence the cost, the characters and the number of the edits. The HTML of a suggestion and of its matching with each target is always produced, and shows for each target a cheapest edit sequence that respects the suggestion.", "quantifier": "every prototype, target, utility parameters and complete path; every suggestion, context and marker", "why_tests_cant": "All paths of all edit DAGs; interleavings of decorations, edits and exits.", "anchors": ["r_u_sure/edit_distance_utility/edit_dags.py: extract_edit_sequence_text, extract_edit_sequence_html, extract_edit_summary_metrics, _group_edit_sequence", "r_u_sure/wrappers/edit_distance_wrapper_base.py: render_solution_html, render_pairwise_matching_html"]}
{"id": "C63", "title": "What is counted and shown of the calls of a suggestion is what is found and lost in the targets", "statement": "With the call wrapper's utilities, a selected token that is found with probability q has the expected cost worth times (effective precision - q); novel identifiers are worth 10, other identifiers and arguments 1, punctuation nothing. Every token of the prototype is reported once, in order, as not selected, found or lost; what is found or lost is what is selected; what is found is in the target in the same order with the same types. The six counts of `solution_info` are the numbers of novel identifiers, other identifiers and arguments found and lost; they add up to those of the suggestion, and the reported cost follows from them. `extract_match_groups` and `render_pairwise_matching_html` never fail: the groups contain all tokens of the prototype, and of the target up to the last match; each matched group is in one piece in the target; the group costs sum up to the cost; for each target the HTML shows a cheapest lookup.", "quantifier": "every prototype, target, effective precision, complete path and suggestion", "why_tests_cant": "All paths of all selection DAGs; minima over unboundedly many lookups.", "anchors": ["r_u_sure/wrappers/call_sequence_wrapper.py: token_node_utility_fn, solution_info, render_pairwise_matching_html", "r_u_sure/edit_distance_utility/part_selection_dags.py: extract_match_groups"]}
{"id": "C64", "title": "The uncertainty baselines mark exactly the tokens they call uncertain", "statement": "For every model output the parser accepts and positive depth cutoffs, `build_baselines` with the uncertainty region wrapper returns one entry per configured threshold, fraction and cutoff, whatever the solver's clock does; other cutoffs raise `ValueError`. Each baseline asks for exactly these tokens to be in regions: those with some text whose own probability, or the probability of all tokens so far, is below the threshold; those with some text that end after the given fraction of the text; those whose depth differs enough from that of the first token. The returned decisions are complete and well-formed, and the text shown is the whole model output. The solver's final dual value bounds from below the cost (edits plus a million per token left out) of all well-formed decisions; if it is attained, no decisions are better, and tokens are left out only if the edits saved pay for them.", "quantifier": "every language, context, model output with log probabilities, configuration, utility parameters, tolerance and clock", "why_tests_cant": "All trees, probabilities and solver schedules; minima over exponentially many decisions.", "anchors": ["r_u_sure/wrappers/uncertainty_regions_wrapper.py: UncertaintyRegionsWrapper.build_baseline_assignments, UncertaintyRegionsBaselineBuilder", "r_u_sure/wrappers/demo_runner.py: DemoRunner.build_baselines", "r_u_sure/decision_diagrams/consistent_path_dual_solver.py: constrain_system"]}
{"id": "C65", "title": "Suggestions are truncated at the end of the innermost block, else of the statement, and never backwards", "statement": "`infer_truncation_with_fallbacks` succeeds for every text, language and cursor from 0 to the length of the text (Python: the text is not empty and a given number of spaces per indent is not zero), and any other cursor fails an assertion. The result is after the cursor (or the end of the text if the cursor is there), never after the end, and at a token boundary: after the token that follows the closing token of the innermost block (braces; for Python an indented block) around what follows the cursor, if there is one; else after the first statement end (semicolon; for Python newline) after the cursor that is not within unsplittable brackets and not alone in brackets; else at the end. `infer_match_pair_truncation_index` and `infer_split_truncation_index` do the same for any choice of brackets and of the language's splitters.", "quantifier": "every language, text, cursor and number of spaces per indent", "why_tests_cant": "All texts with all nestings, including unbalanced brackets; all cursors.", "anchors": ["r_u_sure/parsing/pseudo_parser/utilities.py: infer_truncation_with_fallbacks, infer_match_pair_truncation_index, infer_split_truncation_index"]}
{"id": "C66", "title": "Docstrings are found where they are, and truncated at their closing quotes", "statement": "`find_python_function_docstrings` succeeds for all non-empty code and returns exactly the places after triple quotes with which a part of the code begins that directly follows a part that begins like the definition of a function, on the same level of the parse and indented one unit deeper. Each such place is preceded in the code by the triple quotes, which are preceded by spaces only. `infer_truncation_pydocstring` returns, for a cursor after triple quotes, the end of the next triple quotes of the same kind (relative to the end of the code if the cursor is negative), or None iff there are none; any other cursor fails an assertion, and places that were found never do.", "quantifier": "every Python text and every cursor", "why_tests_cant": "All texts.", "anchors": ["r_u_sure/parsing/pseudo_parser/utilities.py: find_python_function_docstrings, infer_truncation_pydocstring"]}
{"id": "C67", "title": "In float64 arithmetic the tables are consistent and the costs are right up to a bounded error", "statement": "With any monotone rounding of sums, after every history of operations, what is reported as a prefix (suffix) cost is the least cost of the paths, where the cost of a path is added up edge by edge from the start (from the end), rounding after each addition; so rounding errors do not accumulate over a history, and two histories ending with the same penalties report the same numbers. Min-marginals are the least costs added up from both ends; extraction and constrained extraction return a complete path whose rounded cost no complete path (with the constraints) undercuts, and never get stuck. For float64, the minimal cost each strategy reports differs from the exact minimal cost by at most ((1+2^-53)^(2n+1)-1) times the largest total size of costs and penalties along a path of at most n edges, and the extracted path is optimal up to about twice that.", "quantifier": "every packed DAG, penalties, history of operations, monotone rounding; float64 costs below 2^1023", "why_tests_cant": "Rounding depends on all values along all paths and on the history.", "anchors": ["r_u_sure/decision_diagrams/packed_dags.py: update_prefixes_up_to, update_suffixes_up_to, compute_min_marginals_for_variable, compute_minimal_cost, extract_minimal_cost_path_and_assignments, constrained_best_path", "r_u_sure/decision_diagrams/gated_state_dag.py: COST_DTYPE"]}
{"id": "C68", "title": "In float64 arithmetic the bounds reported by the dual solver exceed no solution by more than a bounded rounding error", "statement": "Whatever variables are averaged in whatever order, and so for every run of `solve_system_with_sweeps`, every bound reported by `min_marginal_average` is at most the cost of every joint solution plus an error term. The error term depends on the unit roundoff, the number of DAGs and variables, the length of the paths and the size of the costs and penalties along them, and not on the number of steps: rounding errors do not accumulate over sweeps. float64 meets the hypothesis on the arithmetic (relative error 2^-53, underflow 2^-1075, up to 2^1023), and with equal update proportions the shares add up to one up to 2^-52. With exact arithmetic the functions are those of the exact model. The error is real: there are systems whose reported bound is greater than the cost of a solution.", "quantifier": "every list of DAGs, positive proportions, sequence of averaged variables, run of the solver and accurate arithmetic, as long as costs and penalties stay in range", "why_tests_cant": "Errors depend on all values and on the history of unboundedly many steps.", "anchors": ["r_u_sure/decision_diagrams/consistent_path_dual_solver.py: min_marginal_average, system_min_marginals, solve_system_with_sweeps", "r_u_sure/decision_diagrams/gated_state_dag.py: COST_DTYPE"]}
{"id": "C69", "title": "In float64 arithmetic greedy extraction returns the cost of a best solution with the extracted values, up to a bounded rounding error", "statement": "After any sequence of averaging steps (so after every run of `solve_system_with_sweeps`) on a new system, `greedy_extract` returns one value per variable and a cost. If the cost is finite there is a joint solution with these values whose cost exceeds it by at most an error term; and the cost exceeds no joint solution with these values by more than the error term, so it is infinite only if there is none of finite cost. The error term depends on the unit roundoff, the number of DAGs and variables, the length of the paths and the sizes of costs and penalties, not on the number of steps. Together with a reported bound this certifies near-optimality: if the extracted cost is at most e above a bound reported on the way, some solution with the extracted values is within e plus the error terms of every joint solution. Extraction succeeds whenever there are values and every DAG has a variable. With exact arithmetic this is the extraction of the exact model; in float64 the returned cost can differ from the true one.", "quantifier": "every list of DAGs, positive proportions, sequence of averaged variables, direction and accurate arithmetic, as long as costs and penalties stay in range", "why_tests_cant": "Errors depend on all values, on the history of steps and on which values were forbidden before.", "anchors": ["r_u_sure/decision_diagrams/consistent_path_dual_solver.py: greedy_extract, min_marginal_average, system_min_marginals, solve_system_with_sweeps", "r_u_sure/decision_diagrams/gated_state_dag.py: COST_DTYPE"]}
{"id": "C70", "title": "Systems that share nothing but their DAGs do not affect each other", "statement": "Whatever systems a program makes and clones (clones of clones included), and however it then mixes `system_min_marginals`, `min_marginal_average`, `solve_system_with_sweeps`, `greedy_extract`, `partially_commit`, `constrain_system` and `break_symmetry_randomly` on them, although these functions mutate arrays in place: all results and the contents of all systems are those one gets if systems were values and each operation replaced only the system it is applied to. In particular a clone starts equal to the original, no later operation on either changes the other, and `greedy_extract` writes to no array that existed before the call.", "quantifier": "every program over any number of systems, every initial memory", "why_tests_cant": "All histories of operations on all systems and their clones.", "anchors": ["r_u_sure/decision_diagrams/consistent_path_dual_solver.py: clone_system, clone_system_data, make_system, greedy_extract, partially_commit, constrain_system, break_symmetry_randomly, solve_system_with_sweeps", "r_u_sure/decision_diagrams/packed_dags.py: copy_memo, empty_table, set_penalties, update_prefixes_up_to, update_suffixes_up_to"]}
{"id": "C71", "title": "The builders of constraint and edit DAGs find every node they look up in packed storages", "statement": "`construct_constraint_dag` and `construct_edit_dag`, given the packed storages of any prototype and any target, look up contents, children, parents and positions of nodes by index. No lookup fails, no group is too deep, and the DAGs they return are those of the trees that were packed: the constraint DAG accepts exactly the well-formed choices of regions, and the complete paths of the edit DAG are exactly the edit scripts of the two trees, at the price of their edits.", "quantifier": "every prototype tree, target tree and utility parameters", "why_tests_cant": "Trees are unbounded in size and depth, and every position of one is paired with every position of the other.", "anchors": ["r_u_sure/edit_distance_utility/constraint_dags.py: construct_constraint_dag, build_prototype_subgraph_from_outside_region, build_prototype_subgraph_inside_region", "r_u_sure/edit_distance_utility/edit_dags.py: construct_edit_dag, build_matching_subproblem, maybe_insert_node_or_skip_decoration_in_target, maybe_delete_node_or_advance_in_prototype, build_recursive_delete_subsequence, build_recursive_insert_subsequence"]}
{"id": "C72", "title": "In float64 arithmetic, suggestions for given prototypes and samples are right up to a bounded rounding error", "statement": "`build_system`, with the scaling of costs and the update shares computed in float64, succeeds for every prototype and non-empty list of decision-free targets with positive weights. No averaging step fails, and `solve_system_with_sweeps` never fails its assertions. After solving, `greedy_extract` returns well-formed regions and a cost; the weighted average over the targets of the least edit costs with these regions differs from that cost by at most an explicit error, and every bound that was reported exceeds that of no well-formed choice of regions by more than the error. So the suggestion is within the reported gap plus twice the error of the best one. The error is stated in terms of the inputs alone: the sizes of the trees, the number of targets, the size of the costs, the number of averaging steps and the unit roundoff. The same holds for selections of parts of a prototype.", "quantifier": "every prototype, list of targets, weights, utility parameters representable in float64, run of the solver with a given number of steps, any way of adding up the shares", "why_tests_cant": "All trees and weights; errors depend on all values and on every step.", "anchors": ["r_u_sure/wrappers/edit_distance_wrapper_base.py: EditDistanceWrapperBase.build_system", "r_u_sure/wrappers/call_sequence_wrapper.py: ApiCallSequenceWrapper.build_system", "r_u_sure/decision_diagrams/packed_dags.py: scale_packed_dag_costs", "r_u_sure/decision_diagrams/consistent_path_dual_solver.py: make_system, solve_system_with_sweeps, greedy_extract", "r_u_sure/decision_diagrams/gated_state_dag.py: COST_DTYPE"]}
{"id": "C73", "title": "Drawings of DAGs show every state and edge, each state in a box of its own, and become well-formed documents", "statement": "For every prototype and target, `render_dag` with the annotators of constraint, edit and part selection DAGs succeeds. The drawing has every state and every edge of the DAG once, and the extra annotations. The boxes of different states do not overlap and can be seen; edges lead from a side of the box of their source to the opposite side of the box of their destination, to the right or downwards, with a dot between the two bends of the line. Tags tell which states lie on solutions, which edges are between such states and which edges are to be emphasised. The texts of the nodes are shown once and in order between the states before and after the node, and there is one region around the states of every pair of sequences that are compared. The SVG document has every element closed in the right order, whatever the texts are; all texts are in it, escaped; its view box is the smallest box around everything that was drawn, plus the margin.", "quantifier": "every prototype, target, utility parameters, sensible sizes, texts, list of emphasised edges; for documents every sequence of renderer calls", "why_tests_cant": "Trees, DAGs, texts and sequences of calls are unbounded; that no two boxes overlap is about all pairs of states.", "anchors": ["r_u_sure/rendering/dag_annotator.py: render_dag, StateDAGAnnotator", "r_u_sure/rendering/svg_renderer.py: SVGRenderer, to_html, label_in_box, label_at_point, line", "r_u_sure/rendering/rendering.py: BoundingBox, union, from_boundary", "r_u_sure/edit_distance_utility/constraint_dags.py: ConstraintDagGraphAnnotator", "r_u_sure/edit_distance_utility/edit_dags.py: EditDagGraphAnnotator", "r_u_sure/edit_distance_utility/part_selection_dags.py: PartSelectionGraphAnnotator"]}
{"id": "C74", "title": "Debug views have one line for each node and tell trees of short texts apart", "statement": "`render_debug` of a node or a list of nodes has a line for each node, parents before children and from left to right, indented by two spaces for each group around it, with kind, match type and text; texts of more than 80 characters are cut. Whatever characters the texts contain, a node takes exactly one line, and texts are shown as literals that read back as the text. Two sequences whose tokens and decorations have at most 80 characters have the same view only if they are equal (for match types without closing bracket and newline), so comparing views compares trees. Longer tokens with the same beginning are not told apart.", "quantifier": "every list of nodes, match types and texts", "why_tests_cant": "All trees and all characters in texts; that views determine trees is about all pairs of trees.", "anchors": ["r_u_sure/tree_structure/sequence_node_helpers.py: render_debug, _render_debug_helper, _summarize_contents"]}
{"id": "C75", "title": "Edge tracebacks can be removed again and change nothing but metadata", "statement": "Under `adding_edge_tracebacks`, `partial_state_dag_add_edge` accepts and rejects the same edges as otherwise, and applying `strip_traceback_from_edge` to all edges gives the DAG that would have been built without, unless the metadata of an edge is a dictionary that has one of the keys `original_info` and `traceback` already. In a block all edges get tracebacks, outside none does, and tracebacks are off again after a block, also if an exception leaves it. (Blocks do not nest: the end of an inner block switches tracebacks off for the rest of the outer one.)", "quantifier": "every program that adds edges in and outside of blocks, with any exceptions and handlers, any metadata", "why_tests_cant": "All histories of entering, leaving and failing in blocks, all metadata.", "anchors": ["r_u_sure/decision_diagrams/gated_state_dag.py: adding_edge_tracebacks, partial_state_dag_add_edge, strip_traceback_from_edge, EDGE_TRACEBACKS_ENABLED"]}
{"id": "C76", "title": "A DAG made from a list of assignments has exactly these paths and costs", "statement": "`dag_from_paths`, which the tests of the solver build their subproblems with, never fails; its DAG has a path for each given pair of assignments and cost, making these assignments in sorted order at that cost, and no other path. The cost of an assignment of all variables is the least cost of the given pairs that agree with it, infinite if there is none.", "quantifier": "every list of assignments and costs, every assignment", "why_tests_cant": "Lists of assignments are unbounded; that there are no other paths is about all walks.", "anchors": ["r_u_sure/decision_diagrams/gated_state_dag_test_lib.py: dag_from_paths"]}
{"id": "C77", "title": "Parse trees are properly linked, and splitting leaves the given tree as it is", "statement": "`stack_based_bracket_match`, `Node.copy` and `split_parse` (without a pair to be nested) return trees of new nodes, no two of which are the same object, in which every child has the node it is a child of as its parent; the root has none (a copy has the parent of the original). All nodes that existed before, in particular those of the tree that is split or copied, keep all their attributes. The nodes, ranges and annotations, and the exceptions, are those of the functions on values that the other properties of the parser are about. `valid_parse_ranges` depends only on the ranges of such trees; on any linked nodes it says yes only if every child has a parent with the range and annotation of the node it is a child of.", "quantifier": "every list of tokens, bracket table, tree, list of splitters and unsplittable pairs, and whatever other nodes exist", "why_tests_cant": "Trees are unbounded, and mutation of shared nodes could affect nodes anywhere.", "anchors": ["r_u_sure/parsing/pseudo_parser/stack_parser.py: Node, Node.copy, stack_based_bracket_match, split_parse, valid_parse_ranges"]}
{"id": "C78", "title": "Moving groups under their neighbours keeps trees properly linked", "statement": "`split_parse` with a pair to be nested, applied to the tree of a bracket match in which only the inside of a bracket pair may be empty (so that of every balanced stream), collects the groups to be moved in a first pass over the nodes and moves them one by one in a second pass. The result is a tree of new nodes, no two of which are the same object, in which every child has the node it is a child of as its parent. All nodes that existed before keep their attributes. It has the nodes, ranges and annotations of the function on values that nests the groups level by level, from left to right; when that raises `ValueError`, so does the code, and in no other case.", "quantifier": "every balanced list of tokens, bracket table, list of splitters and unsplittable pairs, pair to be nested, and whatever other nodes exist", "why_tests_cant": "The second pass changes the nodes that the first pass has collected: whether a later move still finds its group depends on all moves before it.", "anchors": ["r_u_sure/parsing/pseudo_parser/stack_parser.py: split_parse, Node, Node.copy"]}
{"id": "C79", "title": "The default configuration, which renumbers states, builds the same system", "statement": "In the default configuration of the wrappers (`use_numba=True`, `rewrite_states=True`), `build_system` numbers the states of every DAG through a scratch table of hash slots before packing it. If no state is requested again after it gave up its slot to another state, then it fails exactly when the configuration without renumbering fails, with the same exception, and otherwise builds the same system: the same packed DAGs, costs, variables and values, so that all that is known about the suggestions holds for it: `combine` returns the same suggestion, bound and costs, and `solution_info` the same report. A path of a packed DAG stands for the same edges and assignments. Whatever collides, if a system is built, every path of its packed DAGs stands for an edit script (or a lookup) with the price of the script, and makes the decisions of the script: costs are never too low, but scripts may be missing.", "quantifier": "every prototype, list of targets without decisions, scale factors, utility parameters and hash function", "why_tests_cant": "Which states collide depends on the hash values of all states of unbounded DAGs.", "anchors": ["r_u_sure/wrappers/edit_distance_wrapper_base.py: EditDistanceWrapperBase.__init__, build_system", "r_u_sure/wrappers/call_sequence_wrapper.py: ApiCallSequenceWrapper.__init__, build_system", "r_u_sure/wrappers/demo_runner.py: DemoRunner.combine", "r_u_sure/decision_diagrams/gated_state_dag.py: prune_unreachable_and_rewrite_states", "r_u_sure/edit_distance_utility/edit_dags.py: make_specialized_dag_packer"]}
{"id": "C80", "title": "A notebook shows the suggestion, the edits, the utilities and the token probabilities as they are", "statement": "After `DemoRunner.combine`, `show_suggestion`, `show_edits` and `show_utilities` do not fail. If fewer than two decisions exist, they show the message for an empty result. Otherwise the suggestion is shown with all of its text, escaped, and a mark in each region without text; for every target, in the order of the samples, a cheapest edit script (or lookup) for the suggested decisions is shown; and the printed utilities are the negated costs of these scripts in the same order. `show_token_probs` shows the context and after it the model tokens, or the tokens of the parsed suggestion with the sums of the log probabilities of the model tokens that share a character with them; either way what is shown spells the suggestion, with one colored span for each token, and no token can add a tag. It fails only for empty Python code, or if the exponential of a log probability is out of range.", "quantifier": "every context, list of samples, language, wrapper, list of model tokens and log probabilities", "why_tests_cant": "Texts, numbers of samples and tokenizations are unbounded, and any text may look like HTML.", "anchors": ["r_u_sure/wrappers/demo_runner.py: DemoRunner.show_suggestion, show_edits, show_utilities, show_token_probs", "r_u_sure/tree_structure/token_prob_align.py: render_tokens_and_log_probs_to_html, align_token_log_probs"]}
{"id": "C81", "title": "The simple annotator draws every edge properly, whatever boxes the states get", "statement": "A subclass of `SimpleDAGAnnotator` says only where the boxes of states are. Whatever it says, `render_dag` draws the DAG, unless an edge asks for a color that is not in the table (then it raises `ValueError`). Every edge is drawn once. Its line leaves the box of the source in the inner four fifths of a side and arrives in the inner part of the opposite side of the box of the destination: from the right side to the left side and never turning back if the destination is to the right, from the bottom to the top otherwise. The dot is between the bends, and the label shows the cost and the assignment. An edge with a color has a tag for which the style sheet has a rule. Edges between the same states requiring values whose hashes differ modulo 100 start at different points. A line between boxes side by side is straight. The numbers of `to_bounded_irrational` are in [0, 1), and two indices get the same number only if they differ by a multiple of 161803.", "quantifier": "every DAG, all boxes, all colors, costs, assignments and hash values", "why_tests_cant": "DAGs and layouts are unbounded, and tests can look at only a few drawings.", "anchors": ["r_u_sure/rendering/simple_dag_annotator.py: SimpleDAGAnnotator", "r_u_sure/rendering/rendering.py: to_bounded_irrational, render_dag"]}
{"id": "C82", "title": "The view of a parse tree shows every node and its tokens, and tells the tree", "statement": "`Node.human_readable_string` returns one line for each node, parents before children and from left to right: a column of tokens of common width, then the node, three blanks further right for each level, with its bounds and its annotation. Tokens of printable ASCII characters without quotation marks and backslashes appear as they are where the node covers them, and as underscores elsewhere (a node without an end covers one token). No token breaks a line. Trees with the same view are the same, whatever the tokens are.", "quantifier": "every tree and list of tokens", "why_tests_cant": "Trees and tokens are unbounded; that views tell trees apart is about all pairs of trees.", "anchors": ["r_u_sure/parsing/pseudo_parser/stack_parser.py: Node.__repr__, Node.human_readable_string"]}
{"id": "C83", "title": "The plots of the optimization show valid bounds that never get worse, on the right side of the line", "statement": "After `DemoRunner.combine`, `show_optimization_details` does not fail. If fewer than two decisions exist, it shows the message for an empty result. Otherwise it plots the bound after each step of the search by step, by updated variable and by time after each sweep. All plotted utilities are upper bounds of the mean utility of any well-formed decisions, they never increase, and none of them is below the line at the utility of the suggestion. The second plot has the same heights at existing variables; the third has some of these heights in order, ending with the last one.", "quantifier": "every context, list of samples, language, wrapper, tolerance and clock", "why_tests_cant": "The number of steps of the search depends on the samples and is unbounded, and the bounds are about all decisions.", "anchors": ["r_u_sure/wrappers/demo_runner.py: DemoRunner.show_optimization_details, combine", "r_u_sure/decision_diagrams/consistent_path_dual_solver.py: solve_system_with_sweeps"]}
{"id": "C84", "title": "In floating point, the bounds of the solver hardly fall, and its sweeps end by themselves", "statement": "With `float64` numbers, averaging a variable may lower the reported bound by rounding, and the loop of `solve_system_with_sweeps` might see improvements forever. But in any run of averaging steps each bound is at most the next one plus an error that depends on the number of subproblems, the lengths of paths and the sizes of costs and penalties, not on the number of steps; finite bounds are no larger than these sizes allow; and a bound that is infinite stays infinite. If the tolerance is larger than twice this error for each variable of a sweep, the loop ends whatever the clock says, after at most two rounds more than twice the largest possible bound divided by the gain of a round.", "quantifier": "every system of well-formed DAGs, order of steps, tolerance, clock, and every arithmetic whose relative error is bounded", "why_tests_cant": "The number of steps is unbounded, and rounding errors depend on the numbers that occur.", "anchors": ["r_u_sure/decision_diagrams/consistent_path_dual_solver.py: solve_system_with_sweeps, min_marginal_average"]}
{"id": "C85", "title": "In floating point, constraints and noise change what is optimized exactly as asked, and the guarantees of the solver stay", "statement": "In a new system, `constrain_system` with a dictionary and `break_symmetry_randomly` keep the joint solutions. In `float64`, where a penalty is divided among the subproblems with rounding, the extra costs that the system records are nevertheless exact: the cost of a joint solution grows by the penalty once for each constraint it violates, or by the noise at its values, and by nothing else. The bounds reported after averaging variables in any order exceed the cost of no joint solution of the changed system by more than in a system without constraints; they hardly fall, and the sweeps end under the same condition. Greedy extraction from a system with noise, or with a finite penalty, returns a cost as close to the best joint solution with its values as without them.", "quantifier": "every system of well-formed DAGs, dictionary of constraints, penalty, noise, order of steps, and every arithmetic whose relative error is bounded and in which adding zero is exact", "why_tests_cant": "Rounding errors depend on the numbers that occur, and the number of steps is unbounded.", "anchors": ["r_u_sure/decision_diagrams/consistent_path_dual_solver.py: constrain_system, break_symmetry_randomly, solve_system_with_sweeps, greedy_extract"]}
{"id": "C86", "title": "In floating point, solving a system with constraints or noise neither overflows nor fails, and its result is optimal up to the reported gap", "statement": "Suppose a new system is built from valid decision DAGs that all have variables, with at most 2^51 DAGs and update weights that are positive float64 numbers with twice their sum at most 2^1023, and is then given constraints for a finite penalty or noise, of at most X. If the costs of the edges are float64 numbers of size at most c, no DAG has more than n states after the first one, and a closed formula in c, X, n, the number of DAGs and a number T of steps is at most 2^1023, then no number of a run of at most T averaging steps leaves the range in which float64 is accurate to a relative error. Averaging and greedy extraction then never fail. The returned cost differs from the cost of the best joint solution with the returned values, constraints or noise included, by at most a stated error. For every bound reported on the way, the cost of these values exceeds that of no joint solution by more than the gap between the returned cost and the bound, plus the stated errors. Nothing about the run is assumed other than the number of its steps.", "quantifier": "all valid systems, constraints, noise, weights, extraction directions and runs of any number of steps within the formula", "why_tests_cant": "The penalties that the solver computes can grow in every step, so a test cannot show that they never overflow.", "anchors": ["r_u_sure/decision_diagrams/consistent_path_dual_solver.py: make_system, constrain_system, break_symmetry_randomly, solve_system_with_sweeps, greedy_extract"]}
{"id": "C87", "title": "In floating point, the decisions of the baselines for uncertain tokens are well-formed and optimal up to the reported gap and rounding", "statement": "Take the system of a prototype and one target without decisions, built in float64 from costs of size at most c with at most n states after the first one in a DAG, and a list of distinct tokens of the prototype that should lie in a region. Suppose the solver is given a number of rounds of its main loop, and a closed formula in n, c and the number of averaging steps of these rounds is at most 2^1023. Then turning the tokens into decisions either does not end within the rounds or returns a decision for every variable of the prototype; no assertion fails and nothing overflows. The decisions are well-formed. The cost returned by greedy extraction differs by at most a stated error from the least cost of the edits for these decisions plus a million for each listed token that is not in a region. No bound reported by the solver exceeds this cost for any other well-formed decisions by more than a stated error, so the decisions are optimal up to the gap between cost and bound plus the stated errors. With a tolerance of at least four times the formula, two rounds are enough. The formula is bounded explicitly by a geometric expression in the number of steps.", "quantifier": "all prototypes, targets, edit costs, lists of tokens, tolerances, clocks and numbers of rounds within the formula, and all orders of summation of the weights that are accurate", "why_tests_cant": "Penalties of a million are spread over DAGs and mixed with small costs, so rounding could flip decisions or overflow in ways that only show on particular inputs.", "anchors": ["r_u_sure/wrappers/uncertainty_regions_wrapper.py: _assignment_from_low_confidence_nodes", "r_u_sure/decision_diagrams/consistent_path_dual_solver.py: constrain_system, solve_system_with_sweeps, greedy_extract"]}
{"id": "C88", "title": "In floating point, partial commitment only forbids values, leaves every variable a value and keeps solutions within its limit up to rounding", "statement": "Take a system of DAGs and any sequence of averaging steps in machine arithmetic, and then let partial commitment forbid values, in either order of the variables, for any quantile computed from the min-marginals. It does not fail if there are variables and every DAG has one. It only forbids values: extra costs stay or become infinite, no joint solution is added or becomes cheaper, and nothing is forbidden if it asks for greedy extraction. If adding zero to a sum does not change it, as in float64, and the strictness is not negative, every variable keeps a value that is not newly forbidden. With an arithmetic of small relative error and numbers in range, a joint solution keeps its cost if this cost plus the stated error of greedy extraction does not exceed bound + max(0, quantile - bound) * strictness as computed by the machine, where bound is the largest over the variables of the smallest min-marginals; and every joint solution of finite cost keeps it unless a partial assignment is reported. Without the margin this fails: in float64, partial commitment can forbid values so that only worse solutions remain, even with a positive strictness.", "quantifier": "all systems made from well-formed DAGs, sequences of averaging steps, orders, quantiles, strictnesses, tolerances and arithmetics, and all joint solutions", "why_tests_cant": "Whether rounding makes a good value look worse than the limit depends on the last digits of sums over all DAGs; tests use small integers, for which nothing is rounded.", "anchors": ["r_u_sure/decision_diagrams/consistent_path_dual_solver.py: partially_commit, system_min_marginals"]}
{"id": "C89", "title": "The threshold of partial commitment lies where the requested number of commitments asks for it", "statement": "Let partial commitment be called with a number t of commitments per variable, 0 <= t <= V, on a system with N variables and V values (both at least one), and let its threshold be the quantile it takes of the min-marginals (in exact arithmetic). If the threshold is a number, then fewer than t * N + 1 finite min-marginals are above it, and at least t * N - t / V finite ones reach it. It is a number if at most (N * V - 1) * (1 - t / V) min-marginals are infinite. If the strictness is not negative, every joint solution whose cost is at most bound + max(0, threshold - bound) * strictness keeps its cost, where bound is the largest over the variables of the smallest min-marginals.", "quantifier": "all numbers of variables and values, tables of min-marginals (also with infinite entries and ties), requested numbers of commitments, and results of np.quantile next to infinite entries; for the last part all systems reached through the API, orders, strictnesses, tolerances and joint solutions", "why_tests_cant": "The level is computed from the number of values, but applied to an interpolated position among all entries, with forbidden values counted as smallest; whether this gives the requested number depends on sizes, ties and infinities that a test fixes.", "anchors": ["r_u_sure/decision_diagrams/consistent_path_dual_solver.py: partially_commit"]}
